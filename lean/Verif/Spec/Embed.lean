import Verif.Spec.Marshal

/-!
# Specification: texts that can be put into a web page or a line
-/

namespace Spec

open Jzon (Byte)

/-- UTF-8 text without control characters (so without line feeds) and line separators, and, with HTML escaping, without `<`,
`>` and `&`. -/
def Embeddable (html : Bool) (t : List Byte) : Prop := ∃ ns : List Nat, (∀ n ∈ ns, OutChar html n) ∧ t = ns.flatMap utf8

/-- The alphabet of RFC 4648, section 4, with the padding character. -/
def Base64Char (c : Byte) : Prop :=
  (0x41 ≤ c ∧ c ≤ 0x5A) ∨ (0x61 ≤ c ∧ c ≤ 0x7A) ∨ (0x30 ≤ c ∧ c ≤ 0x39) ∨ c = 0x2B ∨ c = 0x2F ∨ c = 0x3D

/-- A byte that neither begins nor ends a line, nor means something in HTML. -/
def SafeByte (html : Bool) (c : Byte) : Prop := 0x20 ≤ c ∧ (html = true → c ≠ 0x3C ∧ c ≠ 0x3E ∧ c ≠ 0x26)

end Spec
