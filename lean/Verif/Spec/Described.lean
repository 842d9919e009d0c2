import Verif.Spec.Struct
import Verif.Spec.HasTy

/-!
# Specification: struct types whose fields the library computed
-/

namespace Spec

open Jzon

/-- What decoding uses of a field, `/repo/val_decoder_native_struct.go:105-128`. -/
def toField (c : Cand) : Field := { name := c.name, quoted := c.quoted, path := c.path, ty := c.ty }

/-- The struct types of `Γ` with the member types `L` are those of `E`, and their fields are the ones that the library computes
from their declaration. -/
structure Described {F : Type} (E : StructEnv) (ot : Bool) (Γ : TyEnv F) (L : Nat → List Ty) : Prop where
  structs : ∀ t sfs, E.fieldsOf t = some sfs → ∃ i fs, t = .named i ∧ Γ.defn i = .struct fs
  fields : ∀ i fs, Γ.defn i = .struct fs → ∃ sfs out, E.fieldsOf (.named i) = some sfs ∧ L i = sfs.map (·.ty) ∧
    describeStruct E ot (.named i) = some out ∧ fs = out.map toField

end Spec
