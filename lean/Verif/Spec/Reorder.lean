import Verif.Spec.Alike

/-!
# Specification: texts that differ in the order of the members of objects
-/

namespace Spec

open Jzon (Byte Ty KeyTy Key Field PathStep TyEnv)

/-- The same text up to the order of members of objects, at any depth, and white space.  Only neighbours whose names are `apart`
may change places, and that as often as wanted. -/
inductive Reordered (apart : List Byte → List Byte → Prop) : List Byte → List Byte → Prop
  | same (t : List Byte) (h : IsValue t) : Reordered apart t t
  | trans (t u t' : List Byte) (h : Reordered apart t u) (h' : Reordered apart u t') : Reordered apart t t'
  | array (t t' : List Byte) (ts ts' : List (List Byte)) (h : ArrayOf t ts) (h' : ArrayOf t' ts') (hn : ts.length = ts'.length)
      (hs : ∀ (i : Nat) (u u' : List Byte), ts[i]? = some u → ts'[i]? = some u' → Reordered apart u u') : Reordered apart t t'
  | object (t t' : List Byte) (ms ms' : List (List Byte × List Byte)) (h : ObjectOf t ms) (h' : ObjectOf t' ms')
      (hn : ms.length = ms'.length)
      (hk : ∀ (i : Nat) (m m' : List Byte × List Byte), ms[i]? = some m → ms'[i]? = some m' → m.1 = m'.1 ∧ ∃ s, Str m.1 s)
      (hs : ∀ (i : Nat) (m m' : List Byte × List Byte), ms[i]? = some m → ms'[i]? = some m' → Reordered apart m.2 m'.2) : Reordered apart t t'
  | swap (t t' : List Byte) (xs ys : List (List Byte × List Byte)) (m n : List Byte × List Byte) (s s' : List Byte)
      (h : ObjectOf t (xs ++ m :: n :: ys)) (h' : ObjectOf t' (xs ++ n :: m :: ys))
      (hv : ∀ x ∈ xs ++ m :: n :: ys, (∃ s, Str x.1 s) ∧ IsValue x.2) (hm : Str m.1 s) (hn : Str n.1 s') (ha : apart s s') : Reordered apart t t'

/-- Names that do not belong together: they are different, also under case folding unless names are case sensitive. -/
def Apart (same : Nat → Nat → Prop) (caseSensitive : Bool) (s s' : List Byte) : Prop :=
  s ≠ s' ∧ (caseSensitive = false → ¬ KeyEq same s s')

section
variable {F : Type}

/-- Names that are apart are different keys of a map. -/
def DistinctKeys (Γ : TyEnv F) (apart : List Byte → List Byte → Prop) (K : KeyTy) : Prop :=
  ∀ m m' s s' k k', Str m s → Str m' s' → apart s s' → KeyRel Γ true K m k → KeyRel Γ true K m' k' → k ≠ k'

/-- Decoding the type involves no `json.RawMessage`, no method `UnmarshalJSON`, and only maps the keys of which are different
if their names are apart. -/
def OrderFree (Γ : TyEnv F) (apart : List Byte → List Byte → Prop) (T : Ty) : Prop :=
  ∃ P, Closed Γ P ∧ P T ∧ ∀ U, P U → U ≠ .raw ∧ (∀ i, U ≠ .jsonUnmarshaler i) ∧ ∀ K E, Is Γ U (.map K E) → DistinctKeys Γ apart K

/-- Where two paths go through a pointer after the same steps, it is the same pointer. -/
def Consistent (p q : List PathStep) : Prop :=
  ∀ r e t p' e' t' q', p = r ++ .deref e t :: p' → q = r ++ .deref e' t' :: q' → e = e' ∧ t = t'

/-- The fields of a struct are at different places, none within another. -/
def Layout (Γ : TyEnv F) : Prop := ∀ i fs, Γ.defn i = .struct fs → fs.Pairwise fun f g =>
  ¬ f.path <+: g.path ∧ ¬ g.path <+: f.path ∧ Consistent f.path g.path ∧ Consistent g.path f.path

end

end Spec
