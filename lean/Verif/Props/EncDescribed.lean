import Verif.Props.Described
import Verif.Props.Marshal
import Verif.Props.RoundTrip
import Verif.Spec.EncDescribed

/-!
# C25, C36, C44: the computed fields meet the conditions of encoding

`EncDescribed S ot E`: the fields that `E` writes are those that the library computes from the declarations in `S`.
-/

set_option linter.unusedSimpArgs false

namespace Jzon.Props

open Spec Jzon

section
variable {S : StructEnv} {ot : Bool}

/-- Ways along the same path are the same. -/
theorem reach_unique {R s s' : Ty} {index index' : List Nat} {p p' : List PathStep} (h : Reach S ot R index p s)
    (h' : Reach S ot R index' p' s') (hp : p = p') : index = index' ∧ s = s' := by
  induction h generalizing index' p' s' with
  | root =>
    cases h' with
    | root => exact ⟨rfl, rfl⟩
    | step => simp at hp
  | @step index p s fs i sf t hr hf hi he ih =>
    cases h' with
    | root => simp at hp
    | @step index2 p2 s2 fs2 i2 sf2 _ hr2 hf2 hi2 he2 =>
      have key : p = p2 ∧ i = i2 := by
        cases h1 : sf.ty.isPtr <;> cases h2 : sf2.ty.isPtr <;> simp only [h1, h2, if_true, if_false, Bool.false_eq_true] at hp
        · have := List.append_inj' hp rfl
          simp at this; exact this
        · have hp : (p ++ [.member i]) = (p2 ++ [.member i2]) ++ [.deref sf2.exported s'] := by simpa using hp
          have := List.append_inj' hp rfl
          simp at this
        · have hp : (p ++ [.member i]) ++ [.deref sf.exported t] = (p2 ++ [.member i2]) := by simpa using hp
          have := List.append_inj' hp rfl
          simp at this
        · have := List.append_inj' hp rfl
          simp at this; exact ⟨this.1, this.2.1⟩
      obtain ⟨e1, e2⟩ := ih hr2 key.1
      subst e1; subst e2
      rw [hf] at hf2
      cases hf2
      rw [← key.2, hi] at hi2
      cases hi2
      refine ⟨by rw [key.2], ?_⟩
      rw [((embeds_iff _ _ _ _).mp he).2.2, ((embeds_iff _ _ _ _).mp he2).2.2]

/-- A member that a way leads through is embedded. -/
theorem reach_through {R s s' : Ty} {index index' : List Nat} {p p' : List PathStep} {j : Nat} {fs : List SField} {sf : SField}
    (h : Reach S ot R index p s) (h' : Reach S ot R index' p' s') (hp : p ++ [.member j] <+: p') (hf : S.fieldsOf s = some fs)
    (hj : fs[j]? = some sf) : ∃ t, Embeds S ot sf t := by
  induction h' with
  | root => simp at hp
  | @step index2 p2 s2 fs2 i2 sf2 t2 hr2 hf2 hi2 he2 ih =>
    have same : p ++ [.member j] = p2 ++ [.member i2] → ∃ t, Embeds S ot sf t := by
      intro e
      have e := List.append_inj' e rfl
      simp at e
      obtain ⟨_, rfl⟩ := reach_unique h hr2 e.1
      rw [hf] at hf2
      cases hf2
      rw [← e.2, hj] at hi2
      cases hi2
      exact ⟨_, he2⟩
    cases h2 : sf2.ty.isPtr <;> simp only [h2, if_true, if_false, Bool.false_eq_true] at hp
    · rcases List.prefix_concat_iff.mp hp with e | e
      · exact same e
      · exact ih e
    · have hp : p ++ [.member j] <+: (p2 ++ [.member i2]) ++ [.deref sf2.exported t2] := by simpa using hp
      rcases List.prefix_concat_iff.mp hp with e | e
      · have := List.append_inj' e rfl
        simp at this
      · rcases List.prefix_concat_iff.mp e with e | e
        · exact same e
        · exact ih e

/-- No path of a field leads through another field. -/
theorem C28_places {R : Ty} {c c' : Cand} (h : Candidate S ot R c) (h' : Candidate S ot R c') (hp : c.path <+: c'.path) :
    c.index = c'.index ∧ c.name = c'.name := by
  obtain ⟨index, path, s, fs, j, sf, g1, g2, g3, g4, g5, g6⟩ := h
  obtain ⟨index', path', s', fs', j', sf', k1, k2, k3, k4, k5, k6⟩ := h'
  rw [g6, k6] at hp
  rcases List.prefix_concat_iff.mp hp with e | e
  · have e := List.append_inj' e rfl
    simp at e
    obtain ⟨rfl, rfl⟩ := reach_unique g1 k1 e.1
    rw [g2] at k2
    cases k2
    rw [← e.2, g3] at k3
    cases k3
    refine ⟨by rw [g5, k5, e.2], ?_⟩
    have unique : ∀ n n', NamedBy S sf n → NamedBy S sf n' → n = n' := by
      rintro n n' ⟨tag, t1, t2, _⟩ ⟨tag', t1', t2', _⟩
      rw [t1] at t1'
      cases t1'
      exact (tagName_iff.mp t2).trans (tagName_iff.mp t2').symm
    rcases g4.name with ⟨n1, _⟩ | ⟨n1, n2, _⟩ <;> rcases k4.name with ⟨m1, _⟩ | ⟨m1, m2, _⟩
    · exact unique _ _ n1 m1
    · exact (m1 _ n1).elim
    · exact (n1 _ m1).elim
    · rw [n2, m2]
  · obtain ⟨t, ht⟩ := reach_through g1 k1 e g2 g3
    exact (g4.notEmbedded t ht).elim

end

section
variable {F : Type} {S : StructEnv} {ot : Bool} {Γ : TyEnv F} {L : Nat → List Ty} {E : EncEnv F} {cfg : DecCfg F} {same : Nat → Nat → Prop}

theorem encDescribed_field (h : EncDescribed S ot E) {i : Nat} {f : EncField} (hf : f ∈ E.fields i) :
    ∃ out c, StructTy S (.named i) ∧ describeStruct S ot (.named i) = some out ∧ c ∈ out ∧ f = toEncField c := by
  by_cases hs : StructTy S (.named i)
  · obtain ⟨out, ho⟩ := C28_terminates (ot := ot) hs
    rw [h.structs i out hs ho, List.mem_map] at hf
    obtain ⟨c, hc, rfl⟩ := hf
    exact ⟨out, c, hs, ho, hc, rfl⟩
  · rw [h.others i hs] at hf
    cases hf

theorem reach_begins {R s : Ty} {index : List Nat} {p : List PathStep} (h : Reach S ot R index p s) : p = [] ∨ ∃ k q, p = .member k :: q := by
  induction h with
  | root => exact .inl rfl
  | step _ _ _ _ ih =>
    rcases ih with rfl | ⟨k, q, rfl⟩
    · exact .inr ⟨_, _, rfl⟩
    · exact .inr ⟨_, _, rfl⟩

/-- The paths begin with a member. -/
theorem encDescribed_paths (h : EncDescribed S ot E) (i : Nat) (f : EncField) (hf : f ∈ E.fields i) : ∃ k p, f.path = .member k :: p := by
  obtain ⟨out, c, h1, h2, h3, rfl⟩ := encDescribed_field h hf
  obtain ⟨index, path, s, fs, j, sf, g1, _, _, _, _, g6⟩ := C28_candidates h1 h2 h3
  show ∃ k p, c.path = _
  rw [g6]
  rcases reach_begins g1 with rfl | ⟨k, q, rfl⟩
  · exact ⟨_, _, rfl⟩
  · exact ⟨_, _, rfl⟩

/-- Encoder and decoder compute the same fields. -/
theorem C28_same_fields (hΓ : Described S ot Γ L) (h : EncDescribed S ot E) {i : Nat} {fs : List Field} (hd : Γ.defn i = .struct fs) :
    fs = (E.fields i).map fun f => ⟨f.name, f.quoted, f.path, f.ty⟩ := by
  obtain ⟨sfs, out, h1, _, h3, rfl⟩ := hΓ.fields i fs hd
  rw [h.structs i out ⟨sfs, h1⟩ h3, List.map_map]
  rfl

/-- The encoder writes what is where the paths lead. -/
theorem C28_encoder_path (hΓ : Described S ot Γ L) (h : EncDescribed S ot E) {i : Nat} {fs : List Field} {f : EncField}
    (hd : Γ.defn i = .struct fs) (hf : f ∈ E.fields i) : PathTy Γ L (.named i) f.path f.ty := by
  refine C28_described_path hΓ hd (f := ⟨f.name, f.quoted, f.path, f.ty⟩) ?_
  rw [C28_same_fields hΓ h hd]
  exact List.mem_map_of_mem hf

/-- The conditions of C25 on the fields hold for the fields that the library computes.  What remains to be assumed of the program are
the zero values of its array and map types. -/
theorem encDescribed_sameTypes (hΓ : Described S ot Γ L) (h : EncDescribed S ot E) (hn : ValidNames S)
    (hza : ∀ i n U, Γ.defn i = .array n U → Γ.zeroNamed i = .arr (List.replicate n (Γ.zero cfg U)))
    (hzm : ∀ i K U, Γ.defn i = .map K U → Γ.zeroNamed i = .nilMap) : SameTypes Γ E cfg where
  fields _ _ hd := C28_same_fields hΓ h hd
  names i f hf := by
    obtain ⟨out, c, h1, h2, h3, rfl⟩ := encDescribed_field h hf
    obtain ⟨index, path, s, fs, j, sf, _, g2, g3, g4, _, _⟩ := C28_candidates h1 h2 h3
    rcases g4.name with ⟨⟨_, _, _, cs, _, e, hcs⟩, _⟩ | ⟨_, e, _⟩
    · exact ⟨cs, fun n hn => (hcs n hn).1, e⟩
    · show ValidUtf8 c.name
      rw [e]
      exact hn s fs g2 sf (List.mem_of_getElem? g3)
  places i := by
    by_cases hs : StructTy S (.named i)
    · obtain ⟨out, ho⟩ := C28_terminates (ot := ot) hs
      rw [h.structs i out hs ho, List.pairwise_map]
      have hnd := C28_names hs ho
      rw [List.Nodup, List.pairwise_map] at hnd
      refine List.Pairwise.imp_of_mem ?_ hnd
      intro a b ha hb hne
      have ca := C28_candidates hs ho ha
      have cb := C28_candidates hs ho hb
      exact ⟨fun hp => hne (C28_places ca cb hp).2, fun hp => hne (C28_places cb ca hp).2.symm⟩
    · rw [h.others i hs]
      exact .nil
  zeroArray := hza
  zeroMap := hzm

/-- C25 for struct types with computed fields: a value that its text determines comes back. -/
theorem C25_described (hE : EncLaws E) (h32 : Lawful cfg.ops32) (h64 : Lawful cfg.ops64) (hf : FoldLaws cfg.fold same)
    (hΓ : Described S ot Γ L) (h : EncDescribed S ot E) (hn : ValidNames S)
    (hza : ∀ i n U, Γ.defn i = .array n U → Γ.zeroNamed i = .arr (List.replicate n (Γ.zero cfg U)))
    (hzm : ∀ i K U, Γ.defn i = .map K U → Γ.zeroNamed i = .nilMap) {T : Ty} {v : Val F}
    (hv : Restores Γ E cfg E.escapeHTML T false v) {old : Streamer} {n : Nat} {t : List Byte} (hm : Marshal Γ E old n T v = .ok t)
    (pools : Pools) (it : It) : Unmarshal Γ cfg pools it t T (Γ.zero cfg T) = .ok v :=
  C25_value hE ⟨h32, h64, hf, fun _ _ hd => C28_described_names hΓ hd⟩ (encDescribed_sameTypes hΓ h hn hza hzm) hv hm pools it

/-- C36 for struct types with computed fields: a field with `omitempty` is left out if and only if its value is empty. -/
theorem C36_described_partial (hE : EncLaws E) (hΓ : Described S ot Γ L) (h : EncDescribed S ot E) {i : Nat} {fs : List Field}
    (hd : Γ.defn i = .struct fs) (ho : ∀ f ∈ E.fields i, f.omitEmpty = true → Ordinary Γ E f.ty)
    {old : Streamer} {n : Nat} {v : Val F} {t : List Byte} (hv : HasTy Γ L (.named i) v) (hm : Marshal Γ E old n (.named i) v = .ok t) :
    ∃ ts, t = bracketed 0x7B 0x7D ts ∧
      FieldTexts E.escapeHTML (fun T x b => b = true ↔ Empty (isZero E T) x) (FieldEncodes Γ E E.escapeHTML) v (E.fields i) ts :=
  C36_omits_partial hE hd (fun _ hf => C28_encoder_path hΓ h hd hf) ho hv hm

/-- C44 for struct types with computed fields. -/
theorem C44_described (hE : EncLaws E) (hΓ : Described S ot Γ L) (h : EncDescribed S ot E) (hr : ∀ i, E.recv i = .value)
    (ho : ∀ i f, f ∈ E.fields i → f.omitEmpty = true → ∀ j, f.ty ≠ .jsonUnmarshaler j ∧ f.ty ≠ .textUnmarshaler j)
    (hs : ∀ i k, E.under i = .str ∨ E.under i = .number → Γ.isKey i k → ∃ s, k = .str s) {T : Ty} {v : Val F} (hv : HasTy Γ L T v) (hf : FiniteVal v) :
    ∃ N, ∀ old n e, N ≤ n → Marshal Γ E old n T v = .error e →
      e = .floatIsInfinity ∨ e = .floatIsNan ∨ e = .typeNotSupported ∨
      (∃ i x, E.marshalJSON i x = .error e) ∨ ∃ i x, E.marshalText i x = .error e :=
  C44_typed hE ⟨fun _ _ _ hd hf => C28_encoder_path hΓ h hd hf, hr, hs, ho⟩ hv hf

end

/-! ## A case -/

/-- Encoding with the fields the library computes. -/
noncomputable def describedEnc : EncEnv (List Byte) := { lettersEnc with
  fields := fun i => if i < 9 then ((describeStruct sampleStructEnv false (.named i)).getD []).map toEncField else [] }

theorem describedEnc_described : EncDescribed sampleStructEnv false describedEnc := by
  constructor
  · rintro i out ⟨sfs, hs⟩ ho
    have hi : i < 9 := by
      have := sampleStructEnv.complete (.named i) (by rw [hs]; rfl)
      simpa [sampleStructEnv] using this
    simp [describedEnc, hi, ho]
  · intro i h
    by_cases hi : i < 9
    · refine absurd ?_ h
      match i, hi with
      | 0, _ | 1, _ | 2, _ | 3, _ | 4, _ | 5, _ | 6, _ | 7, _ | 8, _ => exact ⟨_, rfl⟩
    · simp [describedEnc, hi]

example : EncLaws describedEnc :=
  { entries := lettersEnc_laws.entries, finite := lettersEnc_laws.finite, shuffle := lettersEnc_laws.shuffle,
    base64 := lettersEnc_laws.base64, paths := encDescribed_paths describedEnc_described,
    float32 := lettersEnc_laws.float32, float64 := lettersEnc_laws.float64 }

example : ValidNames sampleStructEnv := by
  intro t sfs h sf hsf
  refine valid_ascii ?_
  cases t with
  | named i =>
    have hi : i < 9 := by
      have := sampleStructEnv.complete (.named i) (by rw [h]; rfl)
      simpa [sampleStructEnv] using this
    have : ∀ j : _root_.Fin 9, ∀ sf ∈ (sampleStructs j).getD [], ∀ c ∈ sf.name, c < 0x80 := by decide +kernel
    have h : sampleStructs i = some sfs := h
    exact this ⟨i, hi⟩ sf (by simp [h, hsf])
  | _ => simp [sampleStructEnv] at h

/-- Writing through an embedded pointer; the fields of a nil pointer are left out. -/
example :
    Marshal describedEnv describedEnc ⟨none, [], none, false, false⟩ 3 (.named 8)
        (.struct [.struct [.int 1, .int 2, .int 3], .ptr (.struct [.int 5, .bool true, .int 0, .nilPtr]), .str (bs! "s")]) =
      .ok (bs! "{\"X\":5,\"Z\":true,\"Y\":\"s\"}") ∧
    Marshal describedEnv describedEnc ⟨none, [], none, false, false⟩ 3 (.named 8)
        (.struct [.struct [.int 1, .int 2, .int 3], .nilPtr, .str (bs! "s")]) = .ok (bs! "{\"Y\":\"s\"}") :=
  ⟨of_okIs (by decide +kernel), of_okIs (by decide +kernel)⟩

end Jzon.Props
