import Verif.Spec.Encode

/-!
# Specification: what the text of an error has to tell
-/

namespace Spec

open Jzon (Byte Err)

/-- The fields of the error are ones the package fills in: no second byte is asked for where no first one is, and the type
named in an overflow error is a type of Go or not given. -/
def FromPackage : Err → Prop
  | .unexpectedByte _ exp exp2 => exp = 0 → exp2 = 0
  | .intOverflow typ _ => typ ∈ [[], bs! "int8", bs! "int16", bs! "int32", bs! "int64"]
  | _ => True

instance (x : Err) : Decidable (FromPackage x) := by
  cases x <;> unfold FromPackage <;> infer_instance

/-- No control characters, so that the text stays on its line. -/
def OneLine (t : List Byte) : Prop := ∀ c ∈ t, 0x20 ≤ c ∧ c ≠ 0x7F

/-- What the text of an overflow error should be: the type and the number. -/
def OverflowText (typ : List Byte) (z : Int) : List Byte := bs! "overflow " ++ typ ++ bs! ": " ++ decimalInt z

end Spec
