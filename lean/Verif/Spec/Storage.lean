import Verif.Model.Typed

/-!
# Specification: types that are decoded on the fly
-/

namespace Spec

open Jzon

/-- Decoding into the type never needs the text of a value in one piece: the type has no floating point number, no `json.Number`, no
`json.RawMessage`, no `interface{}`, no `[]byte` and no type with `UnmarshalJSON`.  The set `S` holds the named types of this kind. -/
def OnTheFly (S : Nat → Prop) : Ty → Prop
  | .bool => True
  | .str => True
  | .int _ => True
  | .uint _ => True
  | .float32 => False
  | .float64 => False
  | .number => False
  | .raw => False
  | .any => False
  | .ptr t => OnTheFly S t
  | .slice t => t ≠ .uint .w8 ∧ OnTheFly S t
  | .array _ t => OnTheFly S t
  | .map _ t => OnTheFly S t
  | .named i => S i
  | .jsonUnmarshaler _ => False
  | .textUnmarshaler _ => True
  | .unsupported => True

/-- The same for the definition of a named type. -/
def OnTheFlyDef (S : Nat → Prop) : Def → Prop
  | .struct fs => ∀ f ∈ fs, OnTheFly S f.ty
  | .slice t => t ≠ .uint .w8 ∧ OnTheFly S t
  | .array _ t => OnTheFly S t
  | .map _ t => OnTheFly S t

/-- All named types in `S` are defined in terms of such types. -/
def Streams {F : Type} (Γ : TyEnv F) (S : Nat → Prop) : Prop := ∀ i, S i → OnTheFlyDef S (Γ.defn i)

end Spec
