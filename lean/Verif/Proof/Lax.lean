import Verif.Spec.Lax
import Verif.Proof.HasTy

/-!
# What typed decoding accepts
-/

set_option linter.unusedSimpArgs false

namespace Jzon

open Spec

section
variable {F : Type} {Γ : TyEnv F} {cfg : DecCfg F} {lax : Bool} {sel : List (List Byte) → List Byte → Nat → Prop}

theorem strBody_plain {b : List Byte} (h : ∀ c ∈ b, 0x20 ≤ c ∧ c ≠ 0x22 ∧ c ≠ 0x5C) : StrBody b b := by
  refine ⟨b.map .raw, ?_, ?_, ?_⟩
  · intro c hc
    obtain ⟨x, hx, rfl⟩ := List.mem_map.mp hc
    exact h x hx
  · induction b with
    | nil => rfl
    | cons c b ih =>
      have := ih fun x hx => h x (by simp [hx])
      simp only [List.map_cons, List.flatMap_cons, Chr.text, List.singleton_append]
      rw [← this]
  · induction b with
    | nil => rfl
    | cons c b ih =>
      have := ih fun x hx => h x (by simp [hx])
      simp only [List.map_cons, decodeChrs]
      rw [← this]

theorem plain_digit {c : Byte} (h : Digit c) : 0x20 ≤ c ∧ c ≠ 0x22 ∧ c ≠ 0x5C := by
  revert c; unfold Digit; apply forall_byte; decide +kernel

theorem plain_intPart {t : List Byte} (h : IntPart t) : ∀ c ∈ t, 0x20 ≤ c ∧ c ≠ 0x22 ∧ c ≠ 0x5C := by
  intro c hc
  cases h with
  | zero => simp at hc; subst hc; decide
  | pos d ds hd hds =>
    rcases List.mem_cons.mp hc with rfl | hc
    · refine plain_digit (c := c) ⟨?_, hd.2⟩
      exact UInt8.le_trans (by decide) hd.1
    · exact plain_digit (hds c hc)

theorem plain_number {t : List Byte} (h : Number t) : ∀ c ∈ t, 0x20 ≤ c ∧ c ≠ 0x22 ∧ c ≠ 0x5C := by
  have un : ∀ t, Unsigned t → ∀ c ∈ t, 0x20 ≤ c ∧ c ≠ 0x22 ∧ c ≠ 0x5C := by
    rintro t ⟨i, f, e, rfl, hi, hf, he⟩ c hc
    simp only [List.mem_append] at hc
    rcases hc with hc | hc | hc
    · exact plain_intPart hi c hc
    · cases hf with
      | none => cases hc
      | some ds h =>
        rcases List.mem_cons.mp hc with rfl | hc
        · decide
        · exact plain_digit (h.2 c hc)
    · cases he with
      | none => cases hc
      | some e sign ds he hs h =>
        simp only [List.mem_cons, List.mem_append] at hc
        rcases hc with rfl | hc | hc
        · rcases he with rfl | rfl <;> decide
        · rcases hs with rfl | rfl | rfl
          · cases hc
          · simp at hc; subst hc; decide
          · simp at hc; subst hc; decide
        · exact plain_digit (h.2 c hc)
  rcases h with h | ⟨u, rfl, h⟩
  · exact un _ h
  · intro c hc
    rcases List.mem_cons.mp hc with rfl | hc
    · decide
    · exact un _ h c hc

theorem number_of_intPart {t : List Byte} (h : IntPart t) : Unsigned t := ⟨t, [], [], by simp, h, .none, .none⟩

theorem number_of_intLit {w : Nat} {t : List Byte} {z : Int} (h : IntLit w t z) : Number t := by
  obtain ⟨ds, hs, hi, _⟩ := h
  cases hs with
  | pos => exact .inl (number_of_intPart hi)
  | neg => exact .inr ⟨_, rfl, number_of_intPart hi⟩

theorem number_of_uintLit {w : Nat} {t : List Byte} {z : Int} (h : UintLit w t z) : Number t := .inl (number_of_intPart h.1)

theorem str_number {u : List Byte} (h : Number u) : ∃ s, Str (inQuotes u) s := ⟨u, u, strBody_plain (plain_number h), rfl⟩

theorem value_str {t : List Byte} (h : ∃ s, Str t s) : IsValue t := by
  obtain ⟨s, h⟩ := h
  exact ⟨_, .str _ _ h⟩

theorem value_null : IsValue nullText := ⟨_, .null⟩

theorem items_elems {b : List Byte} {ts : List (List Byte)} (h : Items b ts) (hv : ∀ t ∈ ts, IsValue t) : ∃ vs, Elems b vs := by
  induction h with
  | one w1 t w2 h1 h2 =>
    obtain ⟨v, hv⟩ := hv t (by simp)
    exact ⟨_, .one w1 t w2 v h1 hv h2⟩
  | cons w1 t w2 b ts h1 h2 hb ih =>
    obtain ⟨vs, hvs⟩ := ih fun t h => hv t (by simp [h])
    obtain ⟨v, hv⟩ := hv t (by simp)
    exact ⟨_, .cons w1 t w2 b v vs h1 hv h2 hvs⟩

theorem arrayOf_value {t : List Byte} {ts : List (List Byte)} (h : ArrayOf t ts) (hv : ∀ u ∈ ts, IsValue u) : IsValue t := by
  cases h with
  | empty w hw => exact ⟨_, .arrEmpty w hw⟩
  | items b ts h =>
    obtain ⟨vs, hvs⟩ := items_elems h hv
    exact ⟨_, .arr b vs hvs⟩

theorem lax_value {t : List Byte} (h : Lax false false t) : IsValue t := by
  induction h with
  | value t h => exact h
  | literal w u hs => cases hs
  | array t ts ht _ ih => exact arrayOf_value ht ih
  | object t ms ht hk _ ih =>
    refine (objectOf_value.mp ⟨ms, ht, fun m hm => ⟨?_, ih m hm⟩⟩).1
    rcases hk m hm with h | ⟨h, _⟩
    · exact h
    · cases h

theorem boolLit_text {old v : Val F} {t : List Byte} (h : BoolLit old t v) : t = nullText ∨ t = trueText ∨ t = falseText := by
  rcases h with ⟨h, _⟩ | ⟨h, _⟩ | ⟨h, _⟩
  · exact .inl h
  · exact .inr (.inl h)
  · exact .inr (.inr h)

theorem plain_lit {u : List Byte} (h : u = nullText ∨ u = trueText ∨ u = falseText) : IsValue u ∧ ∃ s, Str (inQuotes u) s := by
  rcases h with rfl | rfl | rfl
  · exact ⟨⟨_, .null⟩, _, _, strBody_plain (by decide), rfl⟩
  · exact ⟨⟨_, .true⟩, _, _, strBody_plain (by decide), rfl⟩
  · exact ⟨⟨_, .false⟩, _, _, strBody_plain (by decide), rfl⟩

variable {nk sp : Bool}

theorem keyRel_text {K : KeyTy} {t : List Byte} {k : Key} (h : KeyRel Γ lax K t k) : (∃ s, Str t s) ∨ (lax = true ∧ t = nullText) := by
  cases K with
  | str =>
    rcases h with ⟨s, h, _⟩ | ⟨h, h', _⟩
    · exact .inl ⟨s, h⟩
    · exact .inr ⟨h, h'⟩
  | int w =>
    rcases h with ⟨u, z, h, rfl, _⟩ | ⟨h, h', _⟩
    · exact .inl (str_number (number_of_intLit h))
    · exact .inr ⟨h, h'⟩
  | uint w =>
    rcases h with ⟨u, z, h, rfl, _⟩ | ⟨h, h', _⟩
    · exact .inl (str_number (number_of_uintLit h))
    · exact .inr ⟨h, h'⟩
  | text i =>
    rcases h with ⟨s, x, h, _⟩ | ⟨h, h', _⟩
    · exact .inl ⟨s, h⟩
    · exact .inr ⟨h, h'⟩

theorem sliceRel_lax {b64 : List Byte → Except Err (List Byte)} {isByte : Bool} {zero : Val F} {R : Rel F}
    (hR : ∀ old t v, R {} old t v → Lax nk sp t) {o : DecOpts} {old v : Val F} {t : List Byte}
    (h : SliceRel b64 isByte zero R o old t v) : Lax nk sp t := by
  rcases h with ⟨rfl, _⟩ | ⟨_, b, s, data, hb, rfl, _⟩ | ⟨ts, vs, ht, he, _⟩
  · exact .value _ value_null
  · exact .value _ (value_str ⟨s, b, hb, rfl⟩)
  · refine .array _ ts ht fun u hu => ?_
    obtain ⟨x, _, hx⟩ := each_left he hu
    exact hR _ _ _ hx

theorem arrayRel_lax {n : Nat} {zero : Val F} {R : Rel F} (hR : ∀ old t v, R {} old t v → Lax nk sp t) {o : DecOpts} {old v : Val F}
    {t : List Byte} (h : ArrayRel n zero R o old t v) : Lax nk sp t := by
  rcases h with ⟨rfl, _⟩ | ⟨ts, vs, ht, _, hn, h1, h2, _⟩
  · exact .value _ value_null
  · refine .array _ ts ht fun u hu => ?_
    obtain ⟨i, hi⟩ := List.getElem?_of_mem hu
    by_cases hlt : n ≤ i
    · exact .value _ (h1 i u hi hlt)
    · have : vs[i]? = some (vs[i]'(by omega)) := List.getElem?_eq_getElem (by omega)
      exact hR _ _ _ (h2 i u _ hi this)

theorem mapRel_lax {K : KeyTy} {zero : Val F} {R : Rel F} (hR : ∀ old t v, R {} old t v → Lax nk sp t) (hnk : lax = true → nk = true)
    {o : DecOpts} {old v : Val F} {t : List Byte} (h : MapRel (KeyRel Γ lax K) zero R o old t v) : Lax nk sp t := by
  rcases h with ⟨rfl, _⟩ | ⟨ms, xs, ht, he, _⟩
  · exact .value _ value_null
  · refine .object _ ms ht (fun m hm => ?_) fun m hm => ?_
    · obtain ⟨x, _, hx, _⟩ := each_left he hm
      rcases keyRel_text hx with h | ⟨h, h'⟩
      · exact .inl h
      · exact .inr ⟨hnk h, h'⟩
    · obtain ⟨x, _, _, hx⟩ := each_left he hm
      exact hR _ _ _ hx

theorem visits_mem {S X : Type} {G : S → X → S → Prop} {s s' : S} {xs : List X} (h : Visits G s xs s') {x : X} (hx : x ∈ xs) :
    ∃ a b, G a x b := by
  induction h with
  | nil => cases hx
  | cons h _ ih =>
    rcases List.mem_cons.mp hx with rfl | hx
    · exact ⟨_, _, h⟩
    · exact ih hx

theorem structRel_lax {strict : Bool} {zero : Ty → Val F} {sel : List Byte → Nat → Prop} {fs : List Field} {R : Ty → Rel F}
    (hR : ∀ f ∈ fs, ∀ old t v, R f.ty { quoted := f.quoted } old t v → Lax nk sp t) {o : DecOpts} {old v : Val F} {t : List Byte}
    (h : StructRel strict zero sel fs R o old t v) : Lax nk sp t := by
  rcases h with ⟨rfl, _⟩ | ⟨ms, ht, hv⟩
  · exact .value _ value_null
  · refine .object _ ms ht (fun m hm => ?_) fun m hm => ?_
    · obtain ⟨_, _, key, hk, _⟩ := visits_mem hv hm
      exact .inl ⟨key, hk⟩
    · obtain ⟨_, _, key, hk, ⟨i, f, _, h2, h3⟩ | ⟨_, _, h, _⟩⟩ := visits_mem hv hm
      · obtain ⟨a, b, h4, _⟩ := atPath_leaf h3
        exact hR f (List.mem_of_getElem? h2) _ _ _ h4
      · exact .value _ h

theorem decodesN_lax {P : Ty → Prop} (hP : Closed Γ P) (hmap : lax = true → nk = false → ∀ T K E, P T → ¬ Is Γ T (.map K E))
    (hbool : lax = true → sp = false → ∀ i fs f, P (.named i) → Γ.defn i = .struct fs → f ∈ fs → f.quoted = true → ¬ Ptrs .bool f.ty)
    {n : Nat} {T : Ty} {o : DecOpts} {old v : Val F} {t : List Byte} (hT : P T)
    (ho : lax = true → sp = false → o.quoted = true → ¬ Ptrs .bool T)
    (h : DecodesN Γ cfg lax sel n T o old t v) : Lax nk sp t := by
  have nkey : ∀ {T K E}, P T → Is Γ T (.map K E) → lax = true → nk = true := by
    intro T K E h1 h2 h3
    cases hnk : nk with
    | true => rfl
    | false => exact absurd h2 (hmap h3 hnk T K E h1)
  have base : ∀ n, (∀ i o old t v, P (.named i) → DecodesN Γ cfg lax sel n (.named i) o old t v → Lax nk sp t) →
      ∀ T o old t v, P T → (lax = true → sp = false → o.quoted = true → ¬ Ptrs .bool T) → DecodesN Γ cfg lax sel n T o old t v → Lax nk sp t := by
    intro n hn T
    induction T with
    | named i => intro o old t v hT _ h; exact hn i o old t v hT h
    | bool =>
      intro o old t v _ ho h
      simp only [DecodesN] at h
      rcases h with h | ⟨hq, w, u, hw, rfl, h⟩
      · exact .value _ (plain_lit (boolLit_text h)).1
      · rcases hw with rfl | ⟨hlax, hw⟩
        · exact .value _ (value_str (plain_lit (boolLit_text h)).2)
        · refine .literal w u ?_ hw (boolLit_text h)
          cases hsp : sp with
          | true => rfl
          | false => exact absurd .here (ho hlax hsp hq)
    | str =>
      intro o old t v _ _ h
      simp only [DecodesN] at h
      rcases h with ⟨rfl, _⟩ | ⟨s, h, _⟩
      · exact .value _ value_null
      · exact .value _ (value_str ⟨s, h⟩)
    | int w =>
      intro o old t v _ _ h
      simp only [DecodesN] at h
      rcases h with ⟨rfl, _⟩ | ⟨u, z, h, _, rfl⟩
      · exact .value _ value_null
      · have := number_of_intLit h
        split
        · exact .value _ (value_str (str_number this))
        · exact .value _ ⟨_, .num _ this⟩
    | uint w =>
      intro o old t v _ _ h
      simp only [DecodesN] at h
      rcases h with ⟨rfl, _⟩ | ⟨u, z, h, _, rfl⟩
      · exact .value _ value_null
      · have := number_of_uintLit h
        split
        · exact .value _ (value_str (str_number this))
        · exact .value _ ⟨_, .num _ this⟩
    | float32 =>
      intro o old t v _ _ h
      simp only [DecodesN] at h
      rcases h with ⟨rfl, _⟩ | ⟨f, h, _⟩
      · exact .value _ value_null
      · exact .value _ ⟨_, .num _ h⟩
    | float64 =>
      intro o old t v _ _ h
      simp only [DecodesN] at h
      rcases h with ⟨rfl, _⟩ | ⟨f, h, _⟩
      · exact .value _ value_null
      · exact .value _ ⟨_, .num _ h⟩
    | number =>
      intro o old t v _ _ h
      simp only [DecodesN] at h
      rcases h with ⟨rfl, _⟩ | ⟨u, h, rfl | rfl, _⟩
      · exact .value _ value_null
      · exact .value _ ⟨_, .num _ h⟩
      · exact .value _ (value_str (str_number h))
    | raw =>
      intro o old t v _ _ h
      simp only [DecodesN] at h
      exact .value _ h.1
    | any =>
      intro o old t v _ _ h
      simp only [DecodesN] at h
      obtain ⟨j, _, h, _⟩ := h
      exact .value _ ⟨j, h⟩
    | ptr T ih =>
      intro o old t v hT ho h
      simp only [DecodesN] at h
      rcases h with ⟨rfl, _⟩ | ⟨_, x, h, _⟩
      · exact .value _ value_null
      · exact ih o _ t x (hP.ptr _ hT) (fun a b c d => ho a b c (.ptr _ d)) h
    | slice T ih =>
      intro o old t v hT _ h
      simp only [DecodesN] at h
      exact sliceRel_lax (fun old t v h => ih {} old t v (hP.slice _ _ hT (.slice _)) (by simp) h) h
    | array k T ih =>
      intro o old t v hT _ h
      simp only [DecodesN] at h
      exact arrayRel_lax (fun old t v h => ih {} old t v (hP.array _ _ _ hT (.array _ _)) (by simp) h) h
    | map K T ih =>
      intro o old t v hT _ h
      simp only [DecodesN] at h
      exact mapRel_lax (fun old t v h => ih {} old t v (hP.map _ _ _ hT (.map _ _)) (by simp) h) (nkey hT (.map _ _)) h
    | jsonUnmarshaler i =>
      intro o old t v _ _ h
      simp only [DecodesN] at h
      exact .value _ h.1
    | textUnmarshaler i =>
      intro o old t v _ _ h
      simp only [DecodesN] at h
      rcases h with ⟨rfl, _⟩ | ⟨s, h, _⟩
      · exact .value _ value_null
      · exact .value _ (value_str ⟨s, h⟩)
    | unsupported =>
      intro o old t v _ _ h
      simp only [DecodesN] at h
  induction n generalizing T o old t v with
  | zero => exact base 0 (fun i o old t v _ h => by simp only [DecodesN] at h) T o old t v hT ho h
  | succ n ihn =>
    refine base (n + 1) ?_ T o old t v hT ho h
    intro i o old t v hT h
    rw [DecodesN] at h
    cases hd : Γ.defn i with
    | slice T =>
      rw [hd] at h
      exact sliceRel_lax (fun old t v h => ihn (hP.slice _ _ hT (.named _ _ hd)) (by simp) h) h
    | array k T =>
      rw [hd] at h
      exact arrayRel_lax (fun old t v h => ihn (hP.array _ _ _ hT (.named _ _ hd)) (by simp) h) h
    | map K T =>
      rw [hd] at h
      exact mapRel_lax (fun old t v h => ihn (hP.map _ _ _ hT (.named _ _ hd)) (by simp) h) (nkey hT (.named _ _ hd)) h
    | struct fs =>
      rw [hd] at h
      exact structRel_lax (fun f hf old t v h => ihn (hP.field i fs f hT hd hf) (fun a b c => hbool a b i fs f hT hd hf c) h) h

end

end Jzon
