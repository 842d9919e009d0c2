import Verif.Spec.Described
import Verif.Spec.Restores

/-!
# Specification: encoders whose fields the library computed
-/

namespace Spec

open Jzon

/-- What encoding uses of a field, `/repo/val_encoder_native_struct.go:41-57`. -/
def toEncField (c : Cand) : EncField := { name := c.name, quoted := c.quoted, omitEmpty := c.omitEmpty, path := c.path, ty := c.ty }

/-- The encoder writes the fields that the library computes from the declarations in `S`. -/
structure EncDescribed {F : Type} (S : StructEnv) (ot : Bool) (E : EncEnv F) : Prop where
  structs : ∀ i out, StructTy S (.named i) → describeStruct S ot (.named i) = some out → E.fields i = out.map toEncField
  others : ∀ i, ¬ StructTy S (.named i) → E.fields i = []

/-- The names of the fields in a Go program are valid UTF-8. -/
def ValidNames (S : StructEnv) : Prop := ∀ t sfs, S.fieldsOf t = some sfs → ∀ sf ∈ sfs, ValidUtf8 sf.name

end Spec
