import Verif.Spec.Json
import Verif.Model.GoVal

/-!
# Specification: the Go value a JSON value denotes
-/

namespace Spec

open Jzon (Byte GoVal)

/-- The map with the given members: the last member with a key counts. -/
def lastWins {F : Type} (ms : List (List Byte × GoVal F)) : List Byte → Option (GoVal F) :=
  fun k => (ms.reverse.find? fun m => m.1 == k).map (·.2)

mutual
/-- The Go value of a JSON value; `num` says what a number literal becomes (`none` if it is out of range). -/
def toGo {F : Type} (num : List Byte → Option (GoVal F)) : JVal → Option (GoVal F)
  | .null => some .nil
  | .bool b => some (.bool b)
  | .num t => num t
  | .str s => some (.str s)
  | .arr vs => (toGoList num vs).map .arr
  | .obj ms => (toGoMembers num ms).map fun l => .obj (lastWins l)
def toGoList {F : Type} (num : List Byte → Option (GoVal F)) : List JVal → Option (List (GoVal F))
  | [] => some []
  | v :: vs =>
    match toGo num v, toGoList num vs with
    | some g, some gs => some (g :: gs)
    | _, _ => none
def toGoMembers {F : Type} (num : List Byte → Option (GoVal F)) :
    List (List Byte × JVal) → Option (List (List Byte × GoVal F))
  | [] => some []
  | (k, v) :: ms =>
    match toGo num v, toGoMembers num ms with
    | some g, some gs => some ((k, g) :: gs)
    | _, _ => none
end

end Spec
