import Verif.Model.EncLinked

/-!
# Specification: what is stored directly in interfaces
-/

namespace Spec

open Jzon

/-- The values of these types are stored directly in interfaces, or not; for structs and arrays of length 1 it depends. -/
structure DirectOk {F : Type} (Γ : TyEnv F) (E : EncEnv F) (direct : Ty → Bool) : Prop where
  ptr : ∀ t, direct (.ptr t) = true
  map : ∀ k t, direct (.map k t) = true
  plain : ∀ t, t ∈ [Ty.bool, .str, .float32, .float64, .number, .raw, .any] → direct t = false
  int : ∀ w, direct (.int w) = false
  uint : ∀ w, direct (.uint w) = false
  slice : ∀ t, direct (.slice t) = false
  noElem : ∀ t, direct (.array 0 t) = false
  named : ∀ i, match Γ.defn i with
    | .map _ _ => direct (.named i) = true
    | .slice _ => direct (.named i) = false
    | .array n _ => n = 0 → direct (.named i) = false
    | .struct _ => True
  /-- a type with methods is stored like the type without them -/
  json : ∀ i, direct (.jsonUnmarshaler i) = direct (E.under i)
  text : ∀ i, direct (.textUnmarshaler i) = direct (E.under i)

/-- The types whose methods have pointers as receivers are structs, or named slices, arrays or maps; and a name for `[]byte` is
replaced by that type (names are needed for structs and for recursive types only). -/
structure NamesOk {F : Type} (Γ : TyEnv F) (E : EncEnv F) : Prop where
  under : ∀ i, E.recv i = .pointer → ∃ j, E.under i = .named j
  bytes : ∀ i, Γ.defn i ≠ .slice (.uint .w8)

/-- A struct that is stored directly in interfaces though it has no fields to encode, as `struct{ p *int }`. -/
def EmptyDirect {F : Type} (Γ : TyEnv F) (E : EncEnv F) (direct : Ty → Bool) (T : Ty) : Prop :=
  direct T = true ∧ ∃ i fs, encoderTy E T = .named i ∧ Γ.defn i = .struct fs ∧ E.fields i = []

end Spec
