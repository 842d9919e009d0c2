import Verif.Model.Typed
import Verif.Spec.Float
import Verif.Spec.HasTy
import Verif.Proof.Fold

/-!
# A program to try the statements on

```go
type T0 struct {            // list with data
    A    int8
    Bs   [] uint8           // json:"bs"
    Next *T0                // json:"next"
}
type T1 map[string]T1
type T2 struct{}
type T3 struct { On bool }  // json:"on,string"
```
-/

namespace Spec

open Jzon

def sampleEnv : TyEnv (List Byte) where
  defn
    | 0 => .struct [⟨bs! "A", false, [.member 0], .int .w8⟩, ⟨bs! "bs", false, [.member 1], .slice (.uint .w8)⟩,
        ⟨bs! "next", false, [.member 2], .ptr (.named 0)⟩]
    | 1 => .map .str (.named 1)
    | 2 => .struct []
    | _ => .struct [⟨bs! "on", true, [.member 0], .bool⟩]
  zeroNamed
    | 0 => .struct [.int 0, .nilSlice, .nilPtr]
    | 1 => .nilMap
    | 2 => .struct []
    | _ => .struct [.bool false]
  zeroOther
    | 1 => .str []
    | _ => .other 0
  isKey i k := i = 1 → ∃ s, k = .str s
  unmarshalJSON _ v _ := .ok v
  unmarshalText _ v _ := .ok v

/-- The types of the members. -/
def sampleMembers : Nat → List Ty
  | 0 => [.int .w8, .slice (.uint .w8), .ptr (.named 0)]
  | 1 => []
  | 2 => []
  | _ => [.bool]

def sampleCfg : DecCfg (List Byte) :=
  { caseSensitive := false, useNumber := true, disallowUnknownFields := false, ops32 := textOps, ops64 := textOps,
    fold := asciiLib, base64 := fun b => .ok b }

def samplePools : Pools := ⟨⟨[], 0⟩, ⟨[], 0, 0, false, none⟩⟩
def sampleIt : It := ⟨[], 0, 0, false, none⟩

end Spec
