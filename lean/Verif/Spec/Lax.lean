import Verif.Spec.Unknown

/-!
# Specification: what typed decoding accepts beyond JSON
-/

namespace Spec

open Jzon (Byte Ty Field TyEnv KeyTy)

/-- JSON values, except that, if `nullKeys`, `null` may be the key of a member, and, if `spaces`, white space may precede
a literal in a string. -/
inductive Lax (nullKeys spaces : Bool) : List Byte → Prop
  | value (t : List Byte) (h : IsValue t) : Lax nullKeys spaces t
  | literal (w u : List Byte) (hs : spaces = true) (hw : Ws w) (hu : u = nullText ∨ u = trueText ∨ u = falseText) :
      Lax nullKeys spaces (inQuotes (w ++ u))
  | array (t : List Byte) (ts : List (List Byte)) (ht : ArrayOf t ts) (h : ∀ u ∈ ts, Lax nullKeys spaces u) : Lax nullKeys spaces t
  | object (t : List Byte) (ms : List (List Byte × List Byte)) (ht : ObjectOf t ms)
      (hk : ∀ m ∈ ms, (∃ key, Str m.1 key) ∨ (nullKeys = true ∧ m.1 = nullText)) (h : ∀ m ∈ ms, Lax nullKeys spaces m.2) :
      Lax nullKeys spaces t

/-- `T` is `U`, a pointer to it, a pointer to a pointer to it, ... -/
inductive Ptrs (U : Ty) : Ty → Prop
  | here : Ptrs U U
  | ptr (T : Ty) (h : Ptrs U T) : Ptrs U (.ptr T)

/-- Decoding the type involves no map. -/
def NoMap {F : Type} (Γ : TyEnv F) (T : Ty) : Prop := ∃ P, Closed Γ P ∧ P T ∧ ∀ U K E, P U → ¬ Is Γ U (.map K E)

/-- Decoding the type involves no `bool` with the option `string`. -/
def NoQuotedBool {F : Type} (Γ : TyEnv F) (T : Ty) : Prop :=
  ∃ P, Closed Γ P ∧ P T ∧ ∀ i fs f, P (.named i) → Γ.defn i = .struct fs → f ∈ fs → f.quoted = true → ¬ Ptrs .bool f.ty

end Spec
