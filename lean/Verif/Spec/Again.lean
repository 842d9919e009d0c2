import Verif.Spec.HasTy

/-!
# Specification: decoding into a variable that has been decoded into before
-/

namespace Spec

open Jzon (Byte Err Val Ty PathStep TyEnv)

section
variable {F : Type}

/-- A method that replaces the value or leaves it alone: for each text, its result does not depend on the old value, or is the
old value. -/
def Overwrites (f : Val F → List Byte → Except Err (Val F)) : Prop :=
  ∀ t, (∃ r, ∀ a, f a t = r) ∨ ∀ a, f a t = .ok a

/-- All methods `UnmarshalJSON` and `UnmarshalText` are of this kind. -/
structure MethodsOverwrite (Γ : TyEnv F) : Prop where
  json : ∀ i, Overwrites (Γ.unmarshalJSON i)
  text : ∀ i, Overwrites (Γ.unmarshalText i)

/-- All pointers to embedded structs can be allocated: the types of the structs are exported. -/
def AllExported (Γ : TyEnv F) : Prop := ∀ i fs f, Γ.defn i = .struct fs → f ∈ fs → ∀ T, .deref false T ∉ f.path

/-- The texts are decoded one after the other into the same variable; `D text old new`. -/
inductive InTurn (D : List Byte → Val F → Val F → Prop) : List (List Byte) → Val F → Val F → Prop
  | nil (v : Val F) : InTurn D [] v v
  | cons (t : List Byte) (ts : List (List Byte)) (u v w : Val F) (h : D t u v) (hs : InTurn D ts v w) : InTurn D (t :: ts) u w

end

end Spec
