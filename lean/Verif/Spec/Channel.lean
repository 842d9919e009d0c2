import Verif.Spec.Restores
import Verif.Spec.Lazy

/-!
# Specification: values on their way from an encoder to a decoder
-/

namespace Spec

open Jzon (Byte RdRes Val Ty TyEnv EncEnv)

/-- The lines for some values: a text of each value and a line feed. -/
def Lines {F : Type} (Γ : TyEnv F) (E : EncEnv F) (html : Bool) : List (Ty × Val F) → List (List Byte) → Prop :=
  Each fun q l => ∃ t, l = t ++ [0x0A] ∧ Encodes Γ E html q.1 false q.2 t

/-- Each line is delivered by its own calls of `Read`. -/
def Carried : List (List Byte) → List (List RdRes) → Prop :=
  Each fun l m => (∀ r ∈ m, r.err = none) ∧ readBytes m = l

end Spec
