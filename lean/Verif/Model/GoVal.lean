import Verif.Basic

/-!
# Generic Go values

The values of type `interface{}` that decoding produces.
-/

namespace Jzon

/-- The Go values `Read` returns: `nil`, `bool`, `json.Number`, `float64`, `string`, `[]interface{}`,
`map[string]interface{}`.  A Go map is a partial function; its iteration order is not part of the value. -/
inductive GoVal (F : Type) where
  | nil
  | bool (b : Bool)
  | number (lit : List Byte)
  | float (f : F)
  | str (s : List Byte)
  | arr (l : List (GoVal F))
  | obj (m : List Byte → Option (GoVal F))

abbrev GoMap (F : Type) := List Byte → Option (GoVal F)

/-- `map[string]interface{}{}`. -/
def GoMap.empty {F : Type} : GoMap F := fun _ => none

/-- `m[k] = v`. -/
def GoMap.set {F : Type} (m : GoMap F) (k : List Byte) (v : GoVal F) : GoMap F :=
  fun k' => if k' = k then some v else m k'

end Jzon
