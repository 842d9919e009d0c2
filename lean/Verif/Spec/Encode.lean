import Verif.Spec.Int

/-!
# Specification: what encoding has to produce
-/

namespace Spec

open Jzon (Byte)

/-- The decimal representation of a natural number. -/
def decimal (n : Nat) : List Byte :=
  if n < 10 then [UInt8.ofNat (0x30 + n)] else decimal (n / 10) ++ [UInt8.ofNat (0x30 + n % 10)]

/-- The decimal representation of an integer. -/
def decimalInt (z : Int) : List Byte := if z < 0 then 0x2D :: decimal z.natAbs else decimal z.natAbs

/-- `t` is an integer literal of the JSON grammar (no superfluous leading zero) denoting `z`, with a minus sign only if `z`
is negative.  There is exactly one such text, see `canonical_unique`. -/
def Canonical (z : Int) (t : List Byte) : Prop :=
  (0 ≤ z ∧ IntPart t ∧ (dec t : Int) = z) ∨ (z < 0 ∧ ∃ u, t = 0x2D :: u ∧ IntPart u ∧ (dec u : Int) = -z)

/-- Unicode scalar values. -/
def Scalar (n : Nat) : Prop := n < 0xD800 ∨ (0xDFFF < n ∧ n < 0x110000)

/-- UTF-8 texts. -/
def ValidUtf8 (l : List Byte) : Prop := ∃ ns : List Nat, (∀ n ∈ ns, Scalar n) ∧ l = ns.flatMap utf8

/-- `s` is `l` with every byte that does not belong to the encoding of a character replaced by U+FFFD. -/
inductive Sanitized : List Byte → List Byte → Prop
  | nil : Sanitized [] []
  | char (n : Nat) (l s : List Byte) (hn : Scalar n) (h : Sanitized l s) : Sanitized (utf8 n ++ l) (utf8 n ++ s)
  | bad (c : Byte) (l s : List Byte) (hc : ∀ n, Scalar n → ¬ utf8 n <+: c :: l) (h : Sanitized l s) :
      Sanitized (c :: l) (replacement ++ s)

/-- What may occur in an encoded string: no control characters, no line separators, and none of the HTML characters. -/
def OutChar (html : Bool) (n : Nat) : Prop :=
  Scalar n ∧ 0x20 ≤ n ∧ n ≠ 0x2028 ∧ n ≠ 0x2029 ∧ (html = true → n ≠ 0x3C ∧ n ≠ 0x3E ∧ n ≠ 0x26)

end Spec
