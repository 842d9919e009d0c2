import Verif.Model.Setting
import Verif.Spec.Marshal

/-!
# Specification: the option EscapeHTML of an encoder
-/

namespace Spec

open Jzon (Byte Ty Val EncEnv EncCall)

section
variable {F : Type}

/-- The same configuration with another value of the option `EscapeHTML`. -/
def withHTML (E : EncEnv F) (html : Bool) : EncEnv F := { E with escapeHTML := html }

/-- The values that are to be written, each with the setting at that time: `html` to begin with, later what was last set. -/
def underSettings (html : Bool) : List (EncCall F) → List (Bool × Ty × Val F)
  | [] => []
  | .setEscapeHTML on :: cs => underSettings on cs
  | .encode T v :: cs => (html, T, v) :: underSettings html cs

/-- No field of the kind string has the option `string`. -/
def NoQuotedStrings (E : EncEnv F) : Prop := ∀ i, ∀ f ∈ E.fields i, f.quoted = true →
  match f.ty with
  | .bool | .int _ | .uint _ | .float32 | .float64 | .number => True
  | .ptr .bool | .ptr (.int _) | .ptr (.uint _) | .ptr .float32 | .ptr .float64 | .ptr .number => True
  | _ => False

end

end Spec
