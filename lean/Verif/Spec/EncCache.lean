import Verif.Model.EncCache

/-!
# Specification: complete encoders
-/

namespace Spec

open Jzon (TypeId ECoder EncTypes EncShape EncObj)

/-- The encoder that a type should have. -/
inductive EncWant where
  /-- the encoder `p`, inside a `directEncoder` for values in interfaces if `direct` -/
  | prim (p : Nat) (direct : Bool)
  | ptr (elem : TypeId)
  | map (elem : TypeId)
  | slice (elem : TypeId)
  | node (elems : List TypeId) (direct : Bool)
  deriving DecidableEq, Repr

/-- Pointers to `e` are not encoded by following the pointer: they have a custom encoder or are marshalers themselves. -/
def specialPtr (tt : EncTypes) (e : TypeId) : Bool :=
  (tt.custom (tt.ptrTo e)).isSome || !(tt.shape (tt.ptrTo e)).isPtr

/-- The encoder without links of a type that is not a slice. -/
def plainCoder (tt : EncTypes) (t : TypeId) : Option Nat :=
  match tt.custom t with
  | some p => some p
  | none =>
    match tt.shape t with
    | .prim p _ _ => some p
    | .native k p => some ((tt.custom k).getD p)
    | _ => none

/-- The encoder that a type should have.  A custom encoder for the type, or for the native type of its kind, is used instead of the
default one; a slice whose elements are of kind `Uint8` and are encoded as such is written in base64. -/
def ewanted (tt : EncTypes) (t : TypeId) : EncWant :=
  match tt.custom t with
  | some p => .prim p false
  | none =>
    match tt.shape t with
    | .prim p d _ => .prim p d
    | .native k p => .prim ((tt.custom k).getD p) false
    | .ptr e => .ptr e
    | .map e => .map e
    | .slice e bytes => if bytes = true ∧ specialPtr tt e = false ∧ plainCoder tt e = some Jzon.uint8Coder then .prim Jzon.base64Coder false else .slice e
    | .node es d => .node es d

/-- As far as links are followed `n` times, `c` encodes values of the type `t` that are in memory. -/
def EncodesAt (tt : EncTypes) (h : List EncObj) : Nat → TypeId → ECoder → Prop
  | 0, _, _ => True
  | n + 1, t, c =>
    /- an element is encoded through the pointer to it if pointers to its type are special -/
    let elem (e : TypeId) (d : ECoder) : Prop :=
      if specialPtr tt e = true then ∃ x, d = .direct x ∧ EncodesAt tt h n (tt.ptrTo e) x else EncodesAt tt h n e d
    match ewanted tt t with
    | .prim p _ => c = .prim p
    | .ptr e => ∃ a d, c = .obj a ∧ h[a]? = some ⟨t, true, [some d]⟩ ∧ EncodesAt tt h n e d
    | .map e => ∃ a d, c = .obj a ∧ h[a]? = some ⟨t, false, [some d]⟩ ∧ EncodesAt tt h n e d
    | .slice e => ∃ a d, c = .obj a ∧ h[a]? = some ⟨t, false, [some d]⟩ ∧ elem e d
    | .node es _ => ∃ (a : Nat) (ds : List ECoder), c = .obj a ∧ h[a]? = some ⟨t, false, ds.map some⟩ ∧ ds.length = es.length ∧
        ∀ (i : Nat) (e : TypeId) (d : ECoder), es[i]? = some e → ds[i]? = some d → elem e d

/-- As far as links are followed `n` times, `c` encodes values of the type `t` that are in interfaces: the encoder of the element
for pointers; through the address of the word in the interface for maps and whatever else is stored directly. -/
def EncodesRoot (tt : EncTypes) (h : List EncObj) (n : Nat) (t : TypeId) (c : ECoder) : Prop :=
  match ewanted tt t with
  | .prim p d => c = if d then .direct (.prim p) else .prim p
  | .ptr e => EncodesAt tt h n e c
  | .map _ => ∃ x, c = .direct x ∧ EncodesAt tt h n t x
  | .slice _ => EncodesAt tt h n t c
  | .node _ d => if d then ∃ x, c = .direct x ∧ EncodesAt tt h n t x else EncodesAt tt h n t c

/-- The objects that can be reached from an encoder through links. -/
inductive EncLinksTo (h : List EncObj) : ECoder → Nat → Prop
  | here (a : Nat) : EncLinksTo h (.obj a) a
  | direct (c : ECoder) (b : Nat) (hc : EncLinksTo h c b) : EncLinksTo h (.direct c) b
  | link (a : Nat) (o : EncObj) (c : ECoder) (b : Nat) (ho : h[a]? = some o) (hc : some c ∈ o.links) (hb : EncLinksTo h c b) :
      EncLinksTo h (.obj a) b

/-- The types of each kind are encoded like the native type of that kind, which is of that kind itself; and a pointer type that is
encoded by following the pointer leads to the type that it points to. -/
structure EncTypesOk (tt : EncTypes) : Prop where
  native : ∀ t k p, tt.shape t = .native k p → tt.shape k = .native k p
  ptr : ∀ e e', tt.shape (tt.ptrTo e) = .ptr e' → e' = e

/-- The types that a type leads to are among the types `S`. -/
def EncClosed (tt : EncTypes) (S : List TypeId) : Prop := ∀ t ∈ S, ∀ k ∈ tt.pushes t, k ∈ S

end Spec
