import Verif.Proof.Plain
import Verif.Proof.Sample
import Verif.Props.Marshal

/-!
# C25: Unmarshal restores what Marshal wrote

`Marshal Γ E old n T v` and `Unmarshal Γ cfg pools it data T old` model the functions of the library for the declared types `Γ`
and the configurations `E` and `cfg`.  `SameTypes` says that `E` and `cfg` belong to the same declarations.  `EncLaws` and `TypeLaws`
are the assumptions about the standard library.
-/

set_option linter.unusedSimpArgs false

namespace Jzon.Props

open Jzon Spec

section
variable {F : Type} {Γ : TyEnv F} {E : EncEnv F} {cfg : DecCfg F} {L : Nat → List Ty} {same : Nat → Nat → Prop}

/-- A value that can be told apart from others by its text comes back in a fresh variable. -/
theorem C25_value (hE : EncLaws E) (hl : TypeLaws Γ cfg same) (hS : SameTypes Γ E cfg) {T : Ty} {v : Val F}
    (hv : Restores Γ E cfg E.escapeHTML T false v) {old : Streamer} {n : Nat} {t : List Byte} (h : Marshal Γ E old n T v = .ok t)
    (pools : Pools) (it : It) : Unmarshal Γ cfg pools it t T (Γ.zero cfg T) = .ok v := by
  rw [unmarshal_iff hl]
  obtain ⟨m, hm⟩ := marshal_encodes hE h
  exact ⟨[], t, [], ws_nil, ws_nil, by simp, restores_decodes hE hS hv (.inl hm)⟩

/-- All values of types made of booleans, integers, strings, pointers, slices, arrays, maps and structs come back, if the
strings are valid UTF-8 and the maps are finite: `Marshal` succeeds, and `Unmarshal` of its output into a fresh variable gives
the value.  `P` is a set of types closed under taking parts.  Pointers must not point to types that have nil values. -/
theorem C25_types (hE : EncLaws E) (hl : TypeLaws Γ cfg same) (hS : SameTypes Γ E cfg) {P : Ty → Prop}
    (hP : ∀ T, P T → Plain Γ E cfg L P T) {T : Ty} (hT : P T) {v : Val F} (hv : HasTy Γ L T v) (hu : Utf8Val v) (hf : FiniteVal v) :
    ∃ N, ∀ old n, N ≤ n → ∃ t, Marshal Γ E old n T v = .ok t ∧
      ∀ pools it, Unmarshal Γ cfg pools it t T (Γ.zero cfg T) = .ok v := by
  obtain ⟨N, hN⟩ := C44_succeeds hE (plain_encodable hE hP hv (.here T) (.here v) hT hf)
  refine ⟨N, fun old n hn => ?_⟩
  obtain ⟨t, ht⟩ := hN old n hn
  exact ⟨t, ht, C25_value hE hl hS (plain_restores hE hP hv (.here T) (.here v) hT hu false) ht⟩

/-- Two values of such a type that are written in the same way are equal. -/
theorem C25_injective (hE : EncLaws E) (hl : TypeLaws Γ cfg same) (hS : SameTypes Γ E cfg) {P : Ty → Prop}
    (hP : ∀ T, P T → Plain Γ E cfg L P T) {T : Ty} (hT : P T) {v w : Val F} (hv : HasTy Γ L T v) (hw : HasTy Γ L T w)
    (huv : Utf8Val v) (huw : Utf8Val w) {old old' : Streamer} {n n' : Nat} {t : List Byte} (h : Marshal Γ E old n T v = .ok t)
    (h' : Marshal Γ E old' n' T w = .ok t) : v = w := by
  have h1 := C25_value hE hl hS (plain_restores hE hP hv (.here T) (.here v) hT huv false) h ⟨⟨[], 0⟩, ⟨[], 0, 0, false, none⟩⟩ ⟨[], 0, 0, false, none⟩
  have h2 := C25_value hE hl hS (plain_restores hE hP hw (.here T) (.here w) hT huw false) h' ⟨⟨[], 0⟩, ⟨[], 0, 0, false, none⟩⟩ ⟨[], 0, 0, false, none⟩
  rw [h1] at h2
  cases h2
  rfl

end

/-! ## Cases that meet the assumptions -/

/-- Each byte as two letters. -/
def letters (l : List Byte) : List Byte := l.flatMap fun c => [0x41 + c / 16, 0x41 + c % 16]

def ofLetters : List Byte → Except Err (List Byte)
  | [] => .ok []
  | a :: b :: l =>
    match ofLetters l with
    | .ok r => .ok (((a - 0x41) * 16 + (b - 0x41)) :: r)
    | .error e => .error e
  | [_] => .error .panic

noncomputable def lettersEnc : EncEnv (List Byte) := { sampleEnc with base64 := letters }
def lettersCfg : DecCfg (List Byte) := { sampleCfg with base64 := ofLetters }

theorem letters_back (l : List Byte) : ofLetters (if l = [] then [] else letters l) = .ok l := by
  have hb : ∀ c : Byte, ((0x41 + c / 16) - 0x41) * 16 + ((0x41 + c % 16) - 0x41) = c := by apply forall_byte; decide +kernel
  have : ∀ l, ofLetters (letters l) = .ok l := by
    intro l
    induction l with
    | nil => rfl
    | cons c l ih =>
      show ofLetters ((0x41 + c / 16) :: (0x41 + c % 16) :: letters l) = _
      rw [ofLetters, ih]
      simp only [hb]
  split
  · rename_i h; rw [h]; rfl
  · exact this l

theorem lettersEnc_laws : EncLaws lettersEnc := { sampleEnc_laws with
  base64 := fun l c hc => by
    have hb : ∀ c : Byte, (0x20 ≤ 0x41 + c / 16 ∧ 0x41 + c / 16 ≠ 0x22 ∧ 0x41 + c / 16 ≠ 0x5C) ∧
        (0x20 ≤ 0x41 + c % 16 ∧ 0x41 + c % 16 ≠ 0x22 ∧ 0x41 + c % 16 ≠ 0x5C) := by apply forall_byte; decide +kernel
    obtain ⟨a, _, ha⟩ := List.mem_flatMap.mp hc
    simp only [List.mem_cons, List.not_mem_nil, or_false] at ha
    rcases ha with rfl | rfl
    · exact (hb a).1
    · exact (hb a).2 }

theorem valid_ascii {l : List Byte} (h : ∀ c ∈ l, c < 0x80) : ValidUtf8 l := by
  refine ⟨l.map (·.toNat), ?_, ?_⟩
  · intro n hn
    obtain ⟨c, hc, rfl⟩ := List.mem_map.mp hn
    have : c.toNat < 0x80 := by simpa using UInt8.lt_iff_toNat_lt.mp (h c hc)
    unfold Scalar
    omega
  · induction l with
    | nil => rfl
    | cons c l ih =>
      have : c.toNat < 0x80 := by simpa using UInt8.lt_iff_toNat_lt.mp (h c List.mem_cons_self)
      rw [List.map_cons, List.flatMap_cons, ← ih fun c hc => h c (by simp [hc])]
      simp [utf8, this]

theorem letters_same : SameTypes sampleEnv lettersEnc lettersCfg where
  fields i fs h := by
    match i with
    | 0 => cases h; rfl
    | 1 => cases h
    | 2 => cases h; rfl
    | _ + 3 => cases h; rfl
  names i f hf := by
    match i with
    | 0 =>
      simp only [lettersEnc, sampleEnc, List.mem_cons, List.not_mem_nil, or_false] at hf
      rcases hf with rfl | rfl | rfl <;> exact valid_ascii (by decide)
    | 1 => cases hf
    | 2 => cases hf
    | _ + 3 =>
      simp only [lettersEnc, sampleEnc, List.mem_cons, List.not_mem_nil, or_false] at hf
      subst hf
      exact valid_ascii (by decide)
  places i := by
    match i with
    | 0 => simp [lettersEnc, sampleEnc]
    | 1 => exact .nil
    | 2 => exact .nil
    | _ + 3 => simp [lettersEnc, sampleEnc]
  zeroArray i n U h := by
    match i with
    | 0 => cases h
    | 1 => cases h
    | 2 => cases h
    | _ + 3 => cases h
  zeroMap i K U h := by
    match i with
    | 0 => cases h
    | 1 => rfl
    | 2 => cases h
    | _ + 3 => cases h

/-- The types of the linked list. -/
def listTypes (T : Ty) : Prop := T = .named 0 ∨ T = .int .w8 ∨ T = .slice (.uint .w8) ∨ T = .ptr (.named 0)

theorem listTypes_plain (T : Ty) (h : listTypes T) : Plain sampleEnv lettersEnc lettersCfg sampleMembers listTypes T := by
  rcases h with rfl | rfl | rfl | rfl
  · refine .struct 0 _ rfl ?_ (.struct _ 0 _ rfl rfl ?_ ?_)
    · intro f hf
      simp only [lettersEnc, sampleEnc, List.mem_cons, List.not_mem_nil, or_false] at hf
      rcases hf with rfl | rfl | rfl <;> exact ⟨.member _ _ _ _ _ _ rfl rfl (.here _), by simp [listTypes]⟩
    · rintro U b ⟨f, hf, h, _⟩
      simp only [lettersEnc, sampleEnc, List.mem_cons, List.not_mem_nil, or_false] at hf
      rcases hf with rfl | rfl | rfl <;> cases h
    · intro k T hT
      match k with
      | 0 =>
        cases hT
        refine .field _ _ true (fun p U b => ?_) (fun _ => trivial)
        simp [lettersEnc, sampleEnc]
        grind
      | 1 =>
        cases hT
        refine .field _ _ false (fun p U b => ?_) (fun h => by cases h)
        simp [lettersEnc, sampleEnc]
        grind
      | 2 =>
        cases hT
        refine .field _ _ true (fun p U b => ?_) (fun _ => trivial)
        simp [lettersEnc, sampleEnc]
        grind
      | _ + 3 => cases hT
  · exact .int _
  · exact .bytes _ (.slice _) letters_back
  · exact .ptr _ (.inl rfl) trivial

/-- Concrete case for `C25_types`: `T0{Bs: []byte{1, 2}, Next: &T0{A: -3}}`, where fields are left out that are empty. -/
example : ∃ N, ∀ old n, N ≤ n → ∃ t, Marshal sampleEnv lettersEnc old n (.named 0) sampleList = .ok t ∧
    ∀ pools it, Unmarshal sampleEnv lettersCfg pools it t (.named 0) (.struct [.int 0, .nilSlice, .nilPtr]) = .ok sampleList := by
  refine C25_types lettersEnc_laws (sampleLaws _ rfl rfl rfl) letters_same listTypes_plain (.inl rfl) sampleList_hasTy ?_ sampleList_finite
  unfold sampleList
  refine .struct _ ?_
  simp only [List.mem_cons, List.not_mem_nil, or_false, forall_eq_or_imp, forall_eq]
  refine ⟨.int _, .slice _ ?_, .ptr _ (.struct _ ?_)⟩
  · simp only [List.mem_cons, List.not_mem_nil, or_false, forall_eq_or_imp, forall_eq]
    exact ⟨.int _, .int _⟩
  · simp only [List.mem_cons, List.not_mem_nil, or_false, forall_eq_or_imp, forall_eq]
    exact ⟨.int _, .nilSlice, .nilPtr⟩

example : Marshal sampleEnv lettersEnc ⟨none, bs! "old", none, true, false⟩ 5 (.named 0) sampleList =
    .ok (bs! "{\"bs\":\"ABAC\",\"next\":{\"A\":-3,\"bs\":null}}") := of_okIs (by decide +kernel)

/-- Concrete case for `C25_value`: an interface with an object and a number, which is no value of the types above. -/
example : Restores sampleEnv lettersEnc lettersCfg true (.slice .any) false
    (.slice [.any (.arr [.number (bs! "1.50"), .nil]), .any (.str (bs! "x"))]) := by
  refine .slice _ _ .any _ (.slice _) (by simp) ?_
  simp only [List.mem_cons, List.not_mem_nil, or_false, forall_eq_or_imp, forall_eq]
  refine ⟨.any _ (.arr _ ?_), .any _ (.str _ (valid_ascii (by decide)))⟩
  simp only [List.mem_cons, List.not_mem_nil, or_false, forall_eq_or_imp, forall_eq]
  exact ⟨.number _ (.inl ⟨bs! "1", bs! ".50", [], rfl, .pos _ _ (by decide) (by decide), .some _ ⟨by decide, by decide⟩, .none⟩) rfl, .nil⟩

/-- `type T0 struct { *T1; X bool }` and `type T1 struct { Y int8; Z [2]string }` -/
def embedEnv : TyEnv (List Byte) := { sampleEnv with
  defn
    | 0 => .struct [⟨bs! "Y", false, [.member 0, .deref true (.named 1), .member 0], .int .w8⟩,
        ⟨bs! "Z", false, [.member 0, .deref true (.named 1), .member 1], .array 2 .str⟩, ⟨bs! "X", false, [.member 1], .bool⟩]
    | _ => .struct [⟨bs! "Y", false, [.member 0], .int .w8⟩, ⟨bs! "Z", false, [.member 1], .array 2 .str⟩]
  zeroNamed
    | 0 => .struct [.nilPtr, .bool false]
    | _ => .struct [.int 0, .arr [.str [], .str []]] }

def embedMembers : Nat → List Ty
  | 0 => [.ptr (.named 1), .bool]
  | _ => [.int .w8, .array 2 .str]

noncomputable def embedEnc : EncEnv (List Byte) := { lettersEnc with
  fields
    | 0 => [⟨bs! "Y", false, false, [.member 0, .deref true (.named 1), .member 0], .int .w8⟩,
        ⟨bs! "Z", false, false, [.member 0, .deref true (.named 1), .member 1], .array 2 .str⟩, ⟨bs! "X", false, false, [.member 1], .bool⟩]
    | _ => [⟨bs! "Y", false, false, [.member 0], .int .w8⟩, ⟨bs! "Z", false, false, [.member 1], .array 2 .str⟩] }

/-- Concrete case for the embedded pointers of `C25_types`. -/
example : Covered embedEnv lettersCfg embedMembers
    (fun p T b => ∃ f ∈ embedEnc.fields 0, f.path = p ∧ f.ty = T ∧ f.omitEmpty = b) (.named 0) := by
  refine .struct _ 0 _ rfl rfl ?_ ?_
  · rintro U b ⟨f, hf, h, _⟩
    simp only [embedEnc, List.mem_cons, List.not_mem_nil, or_false] at hf
    rcases hf with rfl | rfl | rfl <;> cases h
  · intro k T hT
    match k with
    | 0 =>
      cases hT
      refine .ptr _ _ ?_ ⟨[.member 0], .int .w8, ?_, by simp⟩ ?_ (.struct _ 1 _ rfl rfl ?_ ?_)
      · rintro p U b ⟨f, hf, h, _⟩
        simp only [embedEnc, List.mem_cons, List.not_mem_nil, or_false] at hf
        rcases hf with rfl | rfl | rfl
        · injection h with _ h; exact ⟨_, h.symm⟩
        · injection h with _ h; exact ⟨_, h.symm⟩
        · cases h
      · simp [embedEnc]
      · rintro p U b ⟨f, hf, h, h2, _⟩
        simp only [embedEnc, List.mem_cons, List.not_mem_nil, or_false] at hf
        rcases hf with rfl | rfl | rfl
        · cases h; cases h2; exact .member 1 0 _ _ _ _ rfl rfl (.here _)
        · cases h; cases h2; exact .member 1 1 _ _ _ _ rfl rfl (.here _)
        · cases h
      · rintro U b ⟨f, hf, h, _⟩
        simp only [embedEnc, List.mem_cons, List.not_mem_nil, or_false] at hf
        rcases hf with rfl | rfl | rfl <;> cases h
      · intro k T hT
        match k with
        | 0 =>
          cases hT
          refine .field _ _ false (fun p U b => ?_) (fun h => by cases h)
          simp [embedEnc]
          grind
        | 1 =>
          cases hT
          refine .field _ _ false (fun p U b => ?_) (fun h => by cases h)
          simp [embedEnc]
          grind
        | _ + 2 => cases hT
    | 1 =>
      cases hT
      refine .field _ _ false (fun p U b => ?_) (fun h => by cases h)
      simp [embedEnc]
      grind
    | _ + 2 => cases hT

/-- Without the condition on pointers the statement is false, as for `encoding/json`: a pointer to a nil pointer comes back as
a nil pointer. -/
theorem C25_pointer_to_nil : Marshal sampleEnv lettersEnc ⟨none, [], none, false, false⟩ 3 (.ptr (.ptr .bool)) (.ptr .nilPtr) = .ok (bs! "null") ∧
    Unmarshal sampleEnv lettersCfg samplePools sampleIt (bs! "null") (.ptr (.ptr .bool)) .nilPtr = .ok .nilPtr :=
  ⟨of_okIs (by decide +kernel), rfl⟩

/-- Without the condition on strings as well: invalid bytes are replaced. -/
theorem C25_invalid_string : Marshal sampleEnv lettersEnc ⟨none, [], none, false, false⟩ 3 .str (.str [0x80]) = .ok (bs! "\"\\ufffd\"") ∧
    Unmarshal sampleEnv lettersCfg samplePools sampleIt (bs! "\"\\ufffd\"") .str (.str []) = .ok (.str [0xEF, 0xBF, 0xBD]) :=
  ⟨of_okIs (by decide +kernel), rfl⟩

end Jzon.Props
