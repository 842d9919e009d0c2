import Verif.Spec.Encode
import Verif.Model.Fold

/-!
# Specification: keys that are equal under case folding
-/

namespace Spec

open Jzon (Byte FoldLib)

/-- The characters of a byte string; a byte that does not belong to the encoding of a character counts as U+FFFD. -/
inductive Runes : List Byte → List Nat → Prop
  | nil : Runes [] []
  | char (n : Nat) (l : List Byte) (ns : List Nat) (hn : Scalar n) (h : Runes l ns) : Runes (utf8 n ++ l) (n :: ns)
  | bad (c : Byte) (l : List Byte) (ns : List Nat) (hc : ∀ n, Scalar n → ¬ utf8 n <+: c :: l) (h : Runes l ns) :
      Runes (c :: l) (0xFFFD :: ns)

/-- Two lists of the same length, related element by element. -/
inductive Each {α β : Type} (R : α → β → Prop) : List α → List β → Prop
  | nil : Each R [] []
  | cons {a : α} {b : β} {as : List α} {bs : List β} (h : R a b) (hr : Each R as bs) : Each R (a :: as) (b :: bs)

/-- Two byte strings are equal up to `same`, character by character. -/
def KeyEq (same : Nat → Nat → Prop) (s t : List Byte) : Prop :=
  ∃ ns ms, Runes s ns ∧ Runes t ms ∧ Each same ns ms

/-- The characters equal to the ASCII character `a` under simple case folding: itself, the other case of a letter, the
Kelvin sign for K and the long s for S. -/
def AsciiSame (a b : Nat) : Prop :=
  b = a ∨ (0x41 ≤ a ∧ a ≤ 0x5A ∧ b = a + 0x20) ∨ (0x61 ≤ a ∧ a ≤ 0x7A ∧ a = b + 0x20) ∨
    ((a = 0x4B ∨ a = 0x6B) ∧ b = 0x212A) ∨ ((a = 0x53 ∨ a = 0x73) ∧ b = 0x17F)

/-- What is assumed of the Unicode tables: `same` is the equivalence of simple case folding on characters, which agrees
with `AsciiSame` on ASCII; `SimpleFold` goes to the next larger equivalent character, and from the largest to the
smallest; `EqualFold` compares character by character. -/
structure FoldLaws (lib : FoldLib) (same : Nat → Nat → Prop) : Prop where
  refl : ∀ a, same a a
  symm : ∀ a b, same a b → same b a
  trans : ∀ a b c, same a b → same b c → same a c
  scalar : ∀ a b, Scalar a → same a b → Scalar b
  ascii : ∀ a b, a < 0x80 → (same a b ↔ AsciiSame a b)
  fold_same : ∀ a, same a (lib.simpleFold a)
  fold_next : ∀ a b, same a b → a < b → a < lib.simpleFold a ∧ lib.simpleFold a ≤ b
  fold_first : ∀ a, lib.simpleFold a ≤ a → ∀ b, same a b → lib.simpleFold a ≤ b
  equalFold : ∀ s t, lib.equalFold s t = true ↔ KeyEq same s t

/-- The field a key has to select: the one with exactly that name, else, unless names are case sensitive, the first one
whose name is equal under case folding. -/
def Selects (same : Nat → Nat → Prop) (caseSensitive : Bool) (names : List (List Byte)) (key : List Byte) (i : Nat) : Prop :=
  names[i]? = some key ∨
  (key ∉ names ∧ caseSensitive = false ∧ (∃ n, names[i]? = some n ∧ KeyEq same n key) ∧
    ∀ j n, j < i → names[j]? = some n → ¬ KeyEq same n key)

/-- The field a key selects in this library: as above, except that the field of a struct with a single field, whose name
consists of ASCII characters, is not selected under case folding by keys with other characters. -/
def SelectsHere (same : Nat → Nat → Prop) (caseSensitive : Bool) (names : List (List Byte)) (key : List Byte) (i : Nat) : Prop :=
  Selects same caseSensitive names key i ∧
    (names.length = 1 → caseSensitive = true ∨ (∀ c ∈ key, c < 0x80) ∨ ∃ n ∈ names, ∃ c ∈ n, ¬ c < 0x80)

end Spec
