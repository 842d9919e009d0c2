import Verif.Model.Cache

/-!
# Specification: complete coders
-/

namespace Spec

open Jzon (TypeId Coder DecTypes DecShape DecObj)

/-- The decoder that a type should have: a certain decoder without links, or one with links to the decoders of other types.
A custom decoder for the type, or for the native type of its kind, is used instead of the default one. -/
def wanted (tt : DecTypes) (t : TypeId) : Nat ⊕ List TypeId :=
  match tt.custom t with
  | some p => .inl p
  | none =>
    match tt.shape t with
    | .prim p => .inl p
    | .native k p => .inl ((tt.custom k).getD p)
    | .node kids => .inr kids

/-- As far as links are followed `n` times, `c` is a decoder for the type `t`: at each place there is the decoder that the type of
that place should have, and no link is missing. -/
def Complete (tt : DecTypes) (g : List DecObj) : Nat → TypeId → Coder → Prop
  | 0, _, _ => True
  | n + 1, t, c =>
    match wanted tt t with
    | .inl p => c = .prim p
    | .inr kids => ∃ (a : Nat) (ds : List Coder), c = .obj a ∧ g[a]? = some ⟨t, some (ds.map some)⟩ ∧ ds.length = kids.length ∧
        ∀ (i : Nat) (k : TypeId) (d : Coder), kids[i]? = some k → ds[i]? = some d → Complete tt g n k d

/-- The objects that can be reached from a coder through links. -/
inductive LinksTo (g : List DecObj) : Coder → Nat → Prop
  | here (a : Nat) : LinksTo g (.obj a) a
  | link (a : Nat) (t : TypeId) (ls : List (Option Coder)) (c : Coder) (b : Nat) (ho : g[a]? = some ⟨t, some ls⟩) (hc : some c ∈ ls)
      (h : LinksTo g c b) : LinksTo g (.obj a) b

/-- The types of each kind are decoded like the native type of that kind, which is of that kind itself. -/
def NativeSelf (tt : DecTypes) : Prop := ∀ t k p, tt.shape t = .native k p → tt.shape k = .native k p

/-- The types that a type leads to are among the types `S`. -/
def ClosedTypes (tt : DecTypes) (S : List TypeId) : Prop := ∀ t ∈ S, ∀ kids, tt.shape t = .node kids → ∀ k ∈ kids, k ∈ S

end Spec
