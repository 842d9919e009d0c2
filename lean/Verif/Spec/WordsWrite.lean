import Verif.Spec.Words
import Verif.Spec.Marshal
import Verif.Model.WordsWrite

/-!
# Specification: the texts for a tree

Which texts may be written for the trees of `Spec.Words`, and which error stops the writing.
-/

namespace Jzon.Words
open Spec

/-- A basic value, with the option `string` or without. -/
def PrimText (M : Meaning) (html q : Bool) (n : Nat) : Prim → List Byte → Prop
  | .bool, t => t = quotedIf q (if M.bool n then trueText else falseText)
  | .string, t =>
    if q then ∃ u, StringText M.escapeHTML (M.string n) u ∧ StringText html u t else StringText html (M.string n) t
  | .int, t => t = quotedIf q (decimalInt (M.int n).value)
  | .uint8, t => t = quotedIf q (decimal (n % 256))
  | .float, t => (M.float n).isInf = false ∧ (M.float n).isNaN = false ∧
      ∃ small big, FloatLaws (M.float n) small big ∧ FloatText (M.float n) small big t

/-- The name of the member for a key. -/
inductive KeyOutText (M : Meaning) (html : Bool) : KeyOut → List Byte → Prop
  | string {n t} : StringText html (M.string n) t → KeyOutText M html (.prim .string n) t
  | int {n} : KeyOutText M html (.prim .int n) (inQuotes (decimalInt (M.int n).value))
  | uint8 {n} : KeyOutText M html (.prim .uint8 n) (inQuotes (decimal (n % 256)))
  | text {ty v x t} : M.text ty v = .ok x → StringText html x t → KeyOutText M html (.text ty v) t
  | empty {t} : StringText html [] t → KeyOutText M html .empty t

mutual
/-- `OutText M html o t`: the text `t` may be written for the tree `o`, by a streamer that escapes HTML or does not. -/
inductive OutText (M : Meaning) (html : Bool) : Out → List Byte → Prop
  | null : OutText M html .null nullText
  | prim {q k n t} : PrimText M html q n k t → OutText M html (.prim q k n) t
  | number {n} : OutText M html (.number n) (if M.string n = [] then [0x30] else M.string n)
  | raw {bs} : OutText M html (.raw bs) (bs.map byteOf)
  | base64 {bs} : OutText M html (.base64 bs) (inQuotes (if bs = [] then [] else M.base64 (bs.map byteOf)))
  | arr {os ts} : OutTexts M html os ts → OutText M html (.arr os) (bracketed 0x5B 0x5D ts)
  | obj {os ts} : OutFields M html os ts → OutText M html (.obj os) (bracketed 0x7B 0x7D ts)
  | dict {os ts} : OutEntries M html os ts → OutText M html (.dict os) (bracketed 0x7B 0x7D ts)
  | json {ty v t} : M.json ty v = .ok t → OutText M html (.json ty v) t
  | text {ty v x t} : M.text ty v = .ok x → StringText html x t → OutText M html (.text ty v) t
  | custom {q ty v t} : M.custom html q ty (some v) = .ok t → OutText M html (.custom q ty v) t
  | customNil {q ty t} : M.custom html q ty none = .ok t → OutText M html (.customNil q ty) t
inductive OutTexts (M : Meaning) (html : Bool) : List Out → List (List Byte) → Prop
  | nil : OutTexts M html [] []
  | cons {o os t ts} : OutText M html o t → OutTexts M html os ts → OutTexts M html (o :: os) (t :: ts)
inductive OutFields (M : Meaning) (html : Bool) : List (Nat × Out) → List (List Byte) → Prop
  | nil : OutFields M html [] []
  | cons {n o os k t ts} : StringText html (M.name n) k → OutText M html o t → OutFields M html os ts →
      OutFields M html ((n, o) :: os) ((k ++ 0x3A :: t) :: ts)
inductive OutEntries (M : Meaning) (html : Bool) : List (KeyOut × Out) → List (List Byte) → Prop
  | nil : OutEntries M html [] []
  | cons {x o os k t ts} : KeyOutText M html x k → OutText M html o t → OutEntries M html os ts →
      OutEntries M html ((x, o) :: os) ((k ++ 0x3A :: t) :: ts)
end

/-- Keys that cannot be written. -/
inductive KeyFails (M : Meaning) : KeyOut → EncErr → Prop
  | text {ty v e} : M.text ty v = .error e → KeyFails M (.text ty v) e
  | panic : KeyFails M .panic .panic
  /-- not a kind of a key -/
  | bool {n} : KeyFails M (.prim .bool n) .panic
  | float {n} : KeyFails M (.prim .float n) .panic

mutual
/-- `OutFails M html o e`: the first part of the tree `o` that cannot be written fails with `e`. -/
inductive OutFails (M : Meaning) (html : Bool) : Out → EncErr → Prop
  | infinite {q n} : (M.float n).isInf = true → OutFails M html (.prim q .float n) .floatIsInfinity
  | nan {q n} : (M.float n).isInf = false → (M.float n).isNaN = true → OutFails M html (.prim q .float n) .floatIsNan
  | json {ty v e} : M.json ty v = .error e → OutFails M html (.json ty v) e
  | text {ty v e} : M.text ty v = .error e → OutFails M html (.text ty v) e
  | custom {q ty v e} : M.custom html q ty (some v) = .error e → OutFails M html (.custom q ty v) e
  | customNil {q ty e} : M.custom html q ty none = .error e → OutFails M html (.customNil q ty) e
  | notSupported : OutFails M html .notSupported .typeNotSupported
  | panic : OutFails M html .panic .panic
  | arr {os e} : ElemsFail M html os e → OutFails M html (.arr os) e
  | obj {os e} : FieldsFail M html os e → OutFails M html (.obj os) e
  | dict {os e} : EntriesFail M html os e → OutFails M html (.dict os) e
inductive ElemsFail (M : Meaning) (html : Bool) : List Out → EncErr → Prop
  | head {o os e} : OutFails M html o e → ElemsFail M html (o :: os) e
  | tail {o os t e} : OutText M html o t → ElemsFail M html os e → ElemsFail M html (o :: os) e
inductive FieldsFail (M : Meaning) (html : Bool) : List (Nat × Out) → EncErr → Prop
  | head {n o os e} : OutFails M html o e → FieldsFail M html ((n, o) :: os) e
  | tail {n o os t e} : OutText M html o t → FieldsFail M html os e → FieldsFail M html ((n, o) :: os) e
inductive EntriesFail (M : Meaning) (html : Bool) : List (KeyOut × Out) → EncErr → Prop
  | key {k o os e} : KeyFails M k e → EntriesFail M html ((k, o) :: os) e
  | head {k o os x e} : KeyOutText M html k x → OutFails M html o e → EntriesFail M html ((k, o) :: os) e
  | tail {k o os x t e} : KeyOutText M html k x → OutText M html o t → EntriesFail M html os e → EntriesFail M html ((k, o) :: os) e
end

/-- `Carries M html o t`: somewhere in `o` the text `t` is written as it was given. -/
inductive Carries (M : Meaning) (html : Bool) : Out → List Byte → Prop
  | number {n} : M.string n ≠ [] → Carries M html (.number n) (M.string n)
  | raw {bs} : Carries M html (.raw bs) (bs.map byteOf)
  | json {ty v t} : M.json ty v = .ok t → Carries M html (.json ty v) t
  | custom {q ty v t} : M.custom html q ty (some v) = .ok t → Carries M html (.custom q ty v) t
  | customNil {q ty t} : M.custom html q ty none = .ok t → Carries M html (.customNil q ty) t
  | arr {o os t} : o ∈ os → Carries M html o t → Carries M html (.arr os) t
  | obj {n o os t} : (n, o) ∈ os → Carries M html o t → Carries M html (.obj os) t
  | dict {k o os t} : (k, o) ∈ os → Carries M html o t → Carries M html (.dict os) t

/-- `e` is an error about a float or a type, or an answer of a method or an encoder of the user. -/
inductive Source (M : Meaning) (html : Bool) : EncErr → Prop
  | infinity : Source M html .floatIsInfinity
  | nan : Source M html .floatIsNan
  | type : Source M html .typeNotSupported
  | json {t v e} : M.json t v = .error e → Source M html e
  | text {t v e} : M.text t v = .error e → Source M html e
  | custom {q t v e} : M.custom html q t v = .error e → Source M html e

/-- What is assumed about the meaning: integers are in the range of their type, the texts of base64 need no escapes, and `strconv`
formats numbers. -/
structure Meaning.Lawful (M : Meaning) : Prop where
  int : ∀ n, if (M.int n).signed then Fits (M.int n).width.bits (M.int n).value else FitsUnsigned (M.int n).width.bits (M.int n).value
  base64 : ∀ l, ∀ c ∈ M.base64 l, 0x20 ≤ c ∧ c ≠ 0x22 ∧ c ≠ 0x5C
  float : ∀ n, (M.float n).isInf = false → (M.float n).isNaN = false → ∃ small big, FloatLaws (M.float n) small big

end Jzon.Words
