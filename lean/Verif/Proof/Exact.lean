import Verif.Proof.TypedTop
import Verif.Spec.Decoder

/-!
# Which decoders read numbers to their ends
-/

set_option linter.unusedSimpArgs false

namespace Jzon

open Spec

section
variable {F : Type} {env : Env}

theorem endsAt_null {e : Err} {r : List Byte} : EndsAt e nullText r := by
  intro h
  obtain ⟨c, u, h1, h2⟩ := number_head h
  cases h1
  rcases h2 with h2 | h2
  · cases h2
  · exact absurd h2 (by decide)

theorem endsAt_head {e : Err} {c : Byte} {u r : List Byte} (hc : ¬ (c = 0x2D ∨ Digit c)) : EndsAt e (c :: u) r := by
  intro h
  obtain ⟨c', u', h1, h2⟩ := number_head h
  cases h1
  exact absurd h2 hc

theorem endsAt_quotes {e : Err} {u r : List Byte} : EndsAt e (inQuotes u) r := endsAt_head (by decide)

theorem endsAt_true {e : Err} {r : List Byte} : EndsAt e trueText r := endsAt_head (by decide)

theorem endsAt_false {e : Err} {r : List Byte} : EndsAt e falseText r := endsAt_head (by decide)

theorem endsAt_enclosed {e : Err} {o c : Byte} {t r : List Byte} {ts : List (List Byte)} (ho : ¬ (o = 0x2D ∨ Digit o))
    (h : Enclosed o c t ts) : EndsAt e t r := by
  cases h with
  | empty w hw => exact endsAt_head ho
  | items b ts h => exact endsAt_head ho

/-- Reading with the end of the value recognised. -/
def Exact (env : Env) {V : Type} (p : Prog V) (P : List Byte → V → Prop) : Prop :=
  ∀ l v r, Runs p env l v r → ∃ t, Split env.endErr l t r ∧ P t v

theorem Impl.exact {V : Type} {p : Prog V} {P : List Byte → V → Prop} (h : Impl env p P)
    (he : ∀ t v r, P t v → EndsAt env.endErr t r) : Exact env p P := by
  intro l v r hr
  obtain ⟨w, t, hw, h1, h2⟩ := h.sound hr
  exact ⟨t, ⟨w, hw, h1, he _ _ _ h2⟩, h2⟩

theorem raw_exact (pools : Pools) (o : DecOpts) (old : Val F) : Exact env (rawDecoder pools o old) (RawRel o old) := by
  intro l v r h
  unfold rawDecoder AppendRaw at h
  simp only [runs_bind, Props.runs_skipRaw, runs_pure] at h
  obtain ⟨b, _, ⟨t, _, ⟨w, j, rfl, hw, hv, he⟩, rfl, rfl⟩, rfl, rfl⟩ := h
  exact ⟨_, ⟨w, hw, rfl, (endsAt_iff hv).mp he⟩, ⟨j, hv⟩, by simp⟩

theorem json_exact (pools : Pools) (f : Val F → List Byte → Except Err (Val F)) (o : DecOpts) (old : Val F) :
    Exact env (jsonUnmarshalerDecoder pools f o old) (JsonRel f o old) := by
  intro l v r h
  unfold jsonUnmarshalerDecoder at h
  simp only [runs_bind, Props.runs_skipRaw, runs_ofExcept] at h
  obtain ⟨t, _, ⟨w, j, rfl, hw, hv, he⟩, h, rfl⟩ := h
  exact ⟨t, ⟨w, hw, rfl, (endsAt_iff hv).mp he⟩, ⟨j, hv⟩, h⟩

theorem any_exact {cfg : DecCfg F} (hlaw : cfg.useNumber = false → Lawful cfg.ops64) (pools : Pools) (o : DecOpts) (old : Val F) :
    Exact env (anyDecoder cfg pools o old) (AnyRel cfg o old) := by
  intro l v r h
  unfold anyDecoder at h
  simp only [runs_bind, runs_read (Props.numSem_cfg (cfg := ⟨cfg.useNumber, cfg.ops64⟩) hlaw env), runs_pure] at h
  obtain ⟨g, _, ⟨w, t, j, rfl, hw, hv, hg, he⟩, rfl, rfl⟩ := h
  exact ⟨t, ⟨w, hw, rfl, (endsAt_iff hv).mp he⟩, j, g, hv, hg, rfl⟩

theorem float_exact {ops : FloatOps F} (hlaw : Lawful ops) (o : DecOpts) (old : Val F) :
    Exact env (floatDecoder ops o old) (FloatRel ops o old) := by
  intro l v r h
  unfold floatDecoder at h
  simp only [runs_bind, runs_token_or] at h
  obtain ⟨c, l1, ⟨h1, rfl⟩ | ⟨hc, h1, l', rfl⟩, h2⟩ := h
  · rw [if_pos rfl, runs_nullThen] at h2
    obtain ⟨rfl, rfl⟩ := h2
    obtain ⟨w, hw, _, rfl⟩ := dropWs_eq_cons.mp h1
    exact ⟨nullText, ⟨w, hw, rfl, endsAt_null⟩, .inl ⟨rfl, rfl⟩⟩
  · rw [if_neg hc] at h2
    obtain ⟨w, hw, hcw, rfl⟩ := dropWs_eq_cons.mp h1
    simp only [runs_bind, runs_nextToken, runs_pure] at h2
    obtain ⟨d, l2, h3, f, _, h4, rfl, rfl⟩ := h2
    have hd : dropWs (c :: l') = c :: l' := dropWs_eq_cons.mpr ⟨[], ws_nil, hcw, rfl⟩
    rw [hd] at h3
    cases h3
    obtain ⟨t, h5, h6, h7, h8, h9⟩ := (runs_readFloat hlaw (readFloat_start h4)).mp h4
    exact ⟨t, ⟨w, hw, by rw [h5], fun _ => ⟨h7, h8⟩⟩, .inr ⟨f, h6, h9, rfl⟩⟩

theorem number_exact (o : DecOpts) (old : Val F) : Exact env (jsonNumberDecoder o old) (NumberRel o old) := by
  intro l v r hr
  have h0 := hr
  unfold jsonNumberDecoder at hr
  simp only [runs_bind, runs_token'] at hr
  obtain ⟨c, _, ⟨w, l', hw, hc, rfl, h1⟩, h2⟩ := hr
  have cls : ∀ c : Byte, valueTypeOf c = .number → isNumberStart c = true ∧ c ≠ 0x6E ∧ c ≠ 0x22 := by
    apply forall_byte; decide +kernel
  by_cases hm : valueTypeOf c = .number
  · simp [hm] at h1 h2
    subst h1
    simp only [runs_bind, runs_pure] at h2
    obtain ⟨u, _, h3, rfl, rfl⟩ := h2
    obtain ⟨h6, h7, h8, h9⟩ := (runs_readNumberAsString (cls c hm).1).mp h3
    exact ⟨u, ⟨w, hw, by rw [h6], fun _ => ⟨h8, h9⟩⟩, .inr ⟨u, h7, .inl rfl, rfl⟩⟩
  · obtain ⟨w2, t, hw2, h3, h4⟩ := (number_impl o old).sound h0
    refine ⟨t, ⟨w2, hw2, h3, ?_⟩, h4⟩
    rcases h4 with ⟨rfl, _⟩ | ⟨u, hu, rfl | rfl, _⟩
    · exact endsAt_null
    · exfalso
      obtain ⟨d, u', rfl, hd⟩ := numberStart_head hu
      have hdw := (number_not_n d hd).2.1
      have e1 : dropWs (w ++ c :: l') = c :: l' := dropWs_ws hw hc _
      have e2 : dropWs (w2 ++ (d :: u' ++ r)) = d :: (u' ++ r) := dropWs_ws hw2 hdw _
      rw [h3, e2] at e1
      cases e1
      have : ∀ c : Byte, isNumberStart c = true → valueTypeOf c = .number := by apply forall_byte; decide +kernel
      exact hm (this _ hd)
    · exact endsAt_quotes

theorem ptr_exact {zero : Val F} {elem : ValDecoder (Val F)} {R : Rel F}
    {o : DecOpts} {old : Val F} (h : ∀ old, Exact env (elem o old) (R o old)) :
    Exact env (ptrDecoder zero elem o old) (PtrRel zero R o old) := by
  intro l v r hr
  unfold ptrDecoder at hr
  simp only [runs_bind, runs_token_or] at hr
  obtain ⟨c, l1, ⟨h1, rfl⟩ | ⟨hc, h1, l', rfl⟩, h2⟩ := hr
  · rw [if_pos rfl, runs_nullThen] at h2
    obtain ⟨rfl, rfl⟩ := h2
    obtain ⟨w, hw, _, rfl⟩ := dropWs_eq_cons.mp h1
    exact ⟨nullText, ⟨w, hw, rfl, endsAt_null⟩, .inl ⟨rfl, rfl⟩⟩
  · rw [if_neg hc] at h2
    obtain ⟨w, hw, hcw, rfl⟩ := dropWs_eq_cons.mp h1
    simp only [runs_bind, runs_pure] at h2
    obtain ⟨x, _, h3, rfl, rfl⟩ := h2
    obtain ⟨t, ⟨w2, hw2, h4, h6⟩, h5⟩ := h _ _ _ _ h3
    refine ⟨t, ⟨w ++ w2, ws_append hw hw2, by rw [h4]; simp, h6⟩, .inr ⟨?_, x, h5, rfl⟩⟩
    rintro rfl
    have e2 : dropWs (w2 ++ (nullText ++ r)) = nullText ++ r := dropWs_ws (c := 0x6E) hw2 (by decide) _
    rw [← h4, show dropWs (c :: l') = c :: l' from dropWs_eq_cons.mpr ⟨[], ws_nil, hcw, rfl⟩] at e2
    cases e2
    exact hc rfl

theorem decoderOf_exact {Γ : TyEnv F} {cfg : DecCfg F} {sel : List (List Byte) → List Byte → Nat → Prop} (hl : DecLaws Γ cfg sel)
    (pools : Pools) (n : Nat) {T : Ty} (hT : Whole T) (o : DecOpts) (old : Val F) :
    Exact env (decoderOf Γ cfg pools n T o old) (DecodesN Γ cfg true sel n T o old) := by
  have hi := decoderOf_impl (env := env) hl pools n
  have hslice : ∀ (old : Val F) (E : Ty) (m : Nat) {t v r}, SliceRel cfg.base64 (E == .uint .w8) (Γ.zero cfg E) (DecodesN Γ cfg true sel m E) o old t v →
      EndsAt env.endErr t r := by
    rintro old E m t v r (⟨rfl, _⟩ | ⟨_, b, s, d, _, rfl, _⟩ | ⟨ts, vs, h, _⟩)
    · exact endsAt_null
    · exact endsAt_quotes
    · exact endsAt_enclosed (by decide) h
  have harray : ∀ (old : Val F) (k : Nat) (E : Ty) (m : Nat) {t v r}, ArrayRel k (Γ.zero cfg E) (DecodesN Γ cfg true sel m E) o old t v →
      EndsAt env.endErr t r := by
    rintro old k E m t v r (⟨rfl, _⟩ | ⟨ts, vs, h, _⟩)
    · exact endsAt_null
    · exact endsAt_enclosed (by decide) h
  have hmap : ∀ (old : Val F) (k : KeyTy) (E : Ty) (m : Nat) {t v r}, MapRel (KeyRel Γ true k) (Γ.zero cfg E) (DecodesN Γ cfg true sel m E) o old t v →
      EndsAt env.endErr t r := by
    rintro old k E m t v r (⟨rfl, _⟩ | ⟨ms, xs, ⟨ts, h, _⟩, _⟩)
    · exact endsAt_null
    · exact endsAt_enclosed (by decide) h
  induction T generalizing old with
  | int w => exact hT.elim
  | uint w => exact hT.elim
  | bool =>
    refine (hi _ _ _).exact ?_
    have hb : ∀ {t v r}, BoolLit old t v → EndsAt env.endErr t r := by
      rintro t v r (⟨rfl, _⟩ | ⟨rfl, _⟩ | ⟨rfl, _⟩)
      · exact endsAt_null
      · exact endsAt_true
      · exact endsAt_false
    intro t v r h
    simp only [DecodesN] at h
    rcases h with h | ⟨_, w, u, _, rfl, _⟩
    · exact hb h
    · exact endsAt_quotes
  | str =>
    refine (hi _ _ _).exact ?_
    intro t v r h
    simp only [DecodesN] at h
    rcases h with ⟨rfl, _⟩ | ⟨s, ⟨b, _, rfl⟩, _⟩
    · exact endsAt_null
    · exact endsAt_quotes
  | float32 => simp only [decoderOf, decoderStep, DecodesN]; exact float_exact hl.law32 o old
  | float64 => simp only [decoderOf, decoderStep, DecodesN]; exact float_exact hl.law64 o old
  | number => simp only [decoderOf, decoderStep, DecodesN]; exact number_exact o old
  | raw => simp only [decoderOf, decoderStep, DecodesN]; exact raw_exact pools o old
  | any => simp only [decoderOf, decoderStep, DecodesN]; exact any_exact (fun _ => hl.law64) pools o old
  | ptr t ih =>
    have := ptr_exact (zero := Γ.zero cfg t) (old := old) (fun old => ih hT old)
    simpa only [decoderOf, decoderStep, DecodesN] using this
  | jsonUnmarshaler i => simp only [decoderOf, decoderStep, DecodesN]; exact json_exact pools _ o old
  | textUnmarshaler i =>
    refine (hi _ _ _).exact ?_
    intro t v r h
    simp only [DecodesN] at h
    rcases h with ⟨rfl, _⟩ | ⟨s, ⟨b, _, rfl⟩, _⟩
    · exact endsAt_null
    · exact endsAt_quotes
  | unsupported =>
    refine (hi _ _ _).exact ?_
    intro t v r h
    simp only [DecodesN] at h
  | slice t =>
    refine (hi _ _ _).exact ?_
    intro _ v r h
    simp only [DecodesN] at h
    exact hslice _ _ _ h
  | array k t =>
    refine (hi _ _ _).exact ?_
    intro _ v r h
    simp only [DecodesN] at h
    exact harray _ _ _ _ h
  | map k t =>
    refine (hi _ _ _).exact ?_
    intro _ v r h
    simp only [DecodesN] at h
    exact hmap _ _ _ _ h
  | named i =>
    refine (hi _ _ _).exact ?_
    intro _ v r h
    cases n with
    | zero => simp only [DecodesN] at h
    | succ n =>
      simp only [DecodesN] at h
      cases hd : Γ.defn i with
      | slice t => rw [hd] at h; exact hslice _ _ _ h
      | array k t => rw [hd] at h; exact harray _ _ _ _ h
      | map k t => rw [hd] at h; exact hmap _ _ _ _ h
      | struct fs =>
        rw [hd] at h
        rcases h with ⟨rfl, _⟩ | ⟨ms, ⟨ts, h, _⟩, _⟩
        · exact endsAt_null
        · exact endsAt_enclosed (by decide) h

theorem readVal_exact {Γ : TyEnv F} {cfg : DecCfg F} {sel : List (List Byte) → List Byte → Nat → Prop} (hl : DecLaws Γ cfg sel)
    (pools : Pools) {T : Ty} (hT : Whole T) (old : Val F) : Exact env (ReadVal Γ cfg pools T old) (Decodes Γ cfg true sel T old) := by
  intro l v r h
  unfold ReadVal at h
  simp only [runs_bind, runs_remaining] at h
  obtain ⟨n, _, ⟨rfl, rfl⟩, h⟩ := h
  obtain ⟨t, h1, h2⟩ := decoderOf_exact hl pools _ hT {} old _ _ _ h
  exact ⟨t, h1, _, h2⟩

end

end Jzon
