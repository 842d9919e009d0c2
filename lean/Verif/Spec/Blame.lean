import Verif.Basic

/-!
# Specification: the byte that an error names
-/

namespace Spec

open Jzon (Byte Err)

/-- The error says that it was `c` that is not as it should be. -/
def NamesByte : Err → Byte → Prop
  | .invalidStringChar d, c => d = c
  | .invalidEscapeChar d, c => d = c
  | .invalidUnicodeChar d, c => d = c
  | .unexpectedByte d _ _, c => d = c
  | .invalidDigit d, c => d = c
  | .invalidFloat d, c => d = c
  | _, _ => False

/-- The error says that `y` would have been right. -/
def AsksByte : Err → Byte → Prop
  | .unexpectedByte _ a b, y => y ≠ 0 ∧ (y = a ∨ y = b)
  | _, _ => False

end Spec
