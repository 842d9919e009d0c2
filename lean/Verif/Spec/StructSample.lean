import Verif.Spec.Struct

/-!
# Struct types for the examples
-/

namespace Spec

open Jzon

/-- An exported field without tag. -/
def plain (name : List Byte) (ty : Ty) : SField := { name := name, exported := true, anonymous := false, tag := none, ty := ty }

/-- An exported field with a tag. -/
def tagged (name tag : List Byte) (ty : Ty) : SField :=
  { name := name, exported := true, anonymous := false, tag := some tag, ty := ty }

/-- An embedded struct or pointer. -/
def embedded (name : List Byte) (ty : Ty) : SField := { name := name, exported := true, anonymous := true, tag := none, ty := ty }

/-- ```
type T0 struct {
    A int64 `json:"a,omitempty,string"`
    b int64
    C bool `json:"-"`
    D bool `json:"-,"`
    E string `json:"x\"y"`
}
type U struct { X int64 }                                       // 1
type T struct { U }                                             // 2
type A struct { T }                                             // 3
type B struct { T }                                             // 4
type S struct { A; B }                                          // 5
type P struct { X, Y, W int64 }                                 // 6
type Q struct { X int64 `json:"X"`; Z bool; W int64; *R }       // 7
type R struct { P; *Q; Y string }                               // 8
``` -/
def sampleStructs : Nat → Option (List SField)
  | 0 => some [tagged (bs! "A") (bs! "a,omitempty,string") (.int .w64),
      { name := bs! "b", exported := false, anonymous := false, tag := none, ty := .int .w64 },
      tagged (bs! "C") (bs! "-") .bool, tagged (bs! "D") (bs! "-,") .bool, tagged (bs! "E") (bs! "x\"y") .str]
  | 1 => some [plain (bs! "X") (.int .w64)]
  | 2 => some [embedded (bs! "U") (.named 1)]
  | 3 => some [embedded (bs! "T") (.named 2)]
  | 4 => some [embedded (bs! "T") (.named 2)]
  | 5 => some [embedded (bs! "A") (.named 3), embedded (bs! "B") (.named 4)]
  | 6 => some [plain (bs! "X") (.int .w64), plain (bs! "Y") (.int .w64), plain (bs! "W") (.int .w64)]
  | 7 => some [tagged (bs! "X") (bs! "X") (.int .w64), plain (bs! "Z") .bool, plain (bs! "W") (.int .w64),
      embedded (bs! "R") (.ptr (.named 8))]
  | 8 => some [embedded (bs! "P") (.named 6), embedded (bs! "Q") (.ptr (.named 7)), plain (bs! "Y") .str]
  | _ => none

/-- The letters and digits of ASCII. -/
def asciiLetter (c : Nat) : Bool := (0x30 ≤ c && c ≤ 0x39) || (0x41 ≤ c && c ≤ 0x5A) || (0x61 ≤ c && c ≤ 0x7A)

def sampleStructEnv : StructEnv where
  fieldsOf
    | .named i => sampleStructs i
    | _ => none
  all := (List.range 9).map .named
  complete := by
    intro t h
    cases t with
    | named i =>
      simp only at h
      have : i < 9 := by
        apply Classical.byContradiction
        intro hi
        match i, hi with
        | i + 9, _ => simp [sampleStructs] at h
      simp [this]
    | _ => simp at h
  letter := asciiLetter
  replacement := rfl

end Spec
