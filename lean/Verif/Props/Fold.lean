import Verif.Proof.Fold

/-!
# C27, C37: which field a key selects

The tables of the Unicode package are parameters, constrained by `FoldLaws`: `same` is the equivalence of simple case
folding.  `asciiLib` is a table with these laws (`asciiLib_lawful`).
-/

set_option linter.unusedSimpArgs false

namespace Jzon.Props

open Spec Jzon

variable {lib : FoldLib} {same : Nat → Nat → Prop}

/-- C37: the upper case form of a name is always computed, does not depend on what precedes it in the buffer, and two
names have the same upper case form exactly if they are equal under case folding. -/
theorem C37_upper_canonical (hl : FoldLaws lib same) (s t p : List Byte) :
    ∃ u v, toUpper lib s p = some (p ++ u) ∧ toUpper lib t p = some (p ++ v) ∧ (u = v ↔ KeyEq same s t) :=
  ⟨_, _, toUpper_eq hl s p, toUpper_eq hl t p, upperOf_iff hl s t⟩

example : toUpper asciiLib (bs! "aKs1é") [] = some (bs! "AKS1é") := by decide +kernel

example : ∃ u v, toUpper asciiLib (bs! "kilo") [0x22] = some ([0x22] ++ u) ∧
    toUpper asciiLib (bs! "Kilo") [0x22] = some ([0x22] ++ v) ∧ u = v :=
  ⟨bs! "KILO", bs! "KILO", by decide +kernel, by decide +kernel, rfl⟩

/-- C37: the comparison selected for a name holds exactly of the keys equal to it under case folding. -/
theorem C37_fold_func (hl : FoldLaws lib same) (name key : List Byte) :
    foldFunc lib name name key = true ↔ KeyEq same name key := foldFunc_iff hl name key

example : foldFunc asciiLib (bs! "is_ok") (bs! "is_ok") (bs! "Iſ_OK") = true := by decide +kernel
example : foldFunc asciiLib (bs! "is_ok") (bs! "is_ok") (bs! "IſxOK") = false := by decide +kernel

/-- C27 without the structs of one field: the field found is the one with the name itself, else the first one whose name
is equal under case folding, unless names are case sensitive.  The statement for every number of fields does not hold,
see `C27_violated_one_field`. -/
theorem C27_find_partial (hl : FoldLaws lib same) {names : List (List Byte)} (hn : names.Nodup) (h1 : names.length ≠ 1)
    (key : List Byte) (caseSensitive : Bool) :
    ∃ o, findField lib caseSensitive names key = .ok o ∧ ∀ i, o = some i ↔ Selects same caseSensitive names key i :=
  findField_spec hl hn h1 key caseSensitive

/-- Two names. -/
example : findField asciiLib false [bs! "ID", bs! "id"] (bs! "id") = .ok (some 1) ∧
    findField asciiLib false [bs! "ID", bs! "id"] (bs! "Id") = .ok (some 0) ∧
    findField asciiLib true [bs! "ID", bs! "id"] (bs! "Id") = .ok none := ⟨rfl, rfl, rfl⟩

/-- Eleven names. -/
example : ([bs! "a", bs! "b", bs! "c", bs! "d", bs! "e", bs! "f", bs! "g", bs! "h", bs! "i", bs! "j", bs! "k"] :
    List (List Byte)).Nodup := by decide +kernel

/-- C27 for structs of one field, exactly: as for more fields, except that a name of ASCII characters is not found under
case folding by keys with other characters. -/
theorem C27_one_field_partial (hl : FoldLaws lib same) (name key : List Byte) (caseSensitive : Bool) :
    ∃ o, findField lib caseSensitive [name] key = .ok o ∧
      ∀ i, o = some i ↔ Selects same caseSensitive [name] key i ∧
        (caseSensitive = true ∨ (∀ c ∈ key, c < 0x80) ∨ ∃ c ∈ name, ¬ c < 0x80) := by
  refine ⟨_, rfl, ?_⟩
  have zero : ∀ {i : Nat} {n : List Byte}, [name][i]? = some n → i = 0 ∧ name = n := by
    intro i n h
    rw [List.getElem?_singleton] at h
    split at h
    · next h0 => exact ⟨h0, by simpa using h⟩
    · cases h
  obtain ⟨h1, h2⟩ := foldFunc_swapped hl name key
  unfold oneFieldMatch
  intro i
  cases caseSensitive with
  | true =>
    simp only [if_true, beq_iff_eq, true_or, and_true]
    constructor
    · intro h
      split at h
      · next he => cases h; subst he; exact .inl rfl
      · cases h
    · rintro (h | ⟨_, h, _⟩)
      · obtain ⟨rfl, rfl⟩ := zero h
        simp
      · cases h
  | false =>
    simp only [Bool.false_eq_true, if_false, false_or]
    constructor
    · intro h
      split at h
      · next he =>
        cases h
        refine ⟨?_, foldFunc_swapped_ascii he⟩
        by_cases hk : key = name
        · subst hk; exact .inl rfl
        · exact .inr ⟨by simpa using hk, rfl, ⟨name, rfl, h1 he⟩, fun j n hj => absurd hj (Nat.not_lt_zero _)⟩
      · cases h
    · rintro ⟨h, hc⟩
      have hke : i = 0 ∧ KeyEq same name key := by
        rcases h with h | ⟨_, _, ⟨n, hn, hke⟩, _⟩
        · obtain ⟨rfl, rfl⟩ := zero h
          refine ⟨rfl, (foldFunc_iff hl _ _).mp ?_⟩
          rw [foldFunc_iff hl]
          exact (upperOf_iff hl _ _).mp rfl
        · obtain ⟨rfl, rfl⟩ := zero hn
          exact ⟨rfl, hke⟩
      rw [if_pos (h2 hke.2 hc), hke.1]

/-- C27 for every number of fields, with the exception for one field. -/
theorem C27_find_exact (hl : FoldLaws lib same) {names : List (List Byte)} (hn : names.Nodup) (key : List Byte)
    (caseSensitive : Bool) :
    ∃ o, findField lib caseSensitive names key = .ok o ∧ ∀ i, o = some i ↔ SelectsHere same caseSensitive names key i := by
  by_cases h1 : names.length = 1
  · obtain ⟨name, rfl⟩ := List.length_eq_one_iff.mp h1
    obtain ⟨o, h2, h3⟩ := C27_one_field_partial hl name key caseSensitive
    exact ⟨o, h2, fun i => by rw [h3]; simp [SelectsHere]⟩
  · obtain ⟨o, h2, h3⟩ := C27_find_partial hl hn h1 key caseSensitive
    exact ⟨o, h2, fun i => by rw [h3]; simp [SelectsHere, h1]⟩

example : findField asciiLib false [bs! "id"] (bs! "ID") = .ok (some 0) := rfl

/-- C27 does not hold: the Kelvin sign selects the field `k` of a struct with fields `k` and `x`, but not the field `k`
of a struct without other fields, whatever the Unicode tables. -/
theorem C27_violated_one_field (hl : FoldLaws lib same) :
    Selects same false [bs! "k"] (utf8 0x212A) 0 ∧
    findField lib false [bs! "k"] (utf8 0x212A) = .ok none ∧
    findField lib false [bs! "k", bs! "x"] (utf8 0x212A) = .ok (some 0) := by
  have hke : KeyEq same (bs! "k") (utf8 0x212A) :=
    ⟨[0x6B], [0x212A], .char 0x6B [] [] (by unfold Scalar; omega) .nil,
      .char 0x212A [] [] (by unfold Scalar; omega) .nil,
      .cons ((hl.ascii _ _ (by decide)).mpr (by unfold AsciiSame; omega)) .nil⟩
  have hsel : ∀ names : List (List Byte), utf8 0x212A ∉ names → names[0]? = some (bs! "k") →
      Selects same false names (utf8 0x212A) 0 := fun names h1 h2 =>
    .inr ⟨h1, rfl, ⟨_, h2, hke⟩, fun j n hj => absurd hj (Nat.not_lt_zero _)⟩
  refine ⟨hsel _ (by decide) rfl, rfl, ?_⟩
  obtain ⟨o, h1, h2⟩ := findField_spec hl (names := [bs! "k", bs! "x"]) (by decide) (by decide) (utf8 0x212A) false
  rw [h1, (h2 0).mpr (hsel _ (by decide) rfl)]

end Jzon.Props
