import Verif.Spec.Reorder

/-!
# Specification: decoding in two steps

A `json.RawMessage` keeps the text of a value, to be decoded later.
-/

namespace Spec

open Jzon (Byte Ty KeyTy Key Val Field PathStep TyEnv DecCfg)

/-- A JSON value such that the names of the members of every object in it are `apart` from each other. -/
inductive Unrepeated (apart : List Byte → List Byte → Prop) : List Byte → Prop
  | scalar (t : List Byte) (h : IsValue t) (ha : ∀ u, t ≠ 0x5B :: u) (ho : ∀ u, t ≠ 0x7B :: u) : Unrepeated apart t
  | array (t : List Byte) (ts : List (List Byte)) (h : ArrayOf t ts) (hs : ∀ u ∈ ts, Unrepeated apart u) : Unrepeated apart t
  | object (t : List Byte) (ms : List (List Byte × List Byte)) (h : ObjectOf t ms) (hk : ∀ m ∈ ms, ∃ s, Str m.1 s)
      (ha : ms.Pairwise fun m n => ∀ s s', Str m.1 s → Str n.1 s' → apart s s') (hs : ∀ m ∈ ms, Unrepeated apart m.2) : Unrepeated apart t

section
variable {F : Type}

/-- A kept text and what becomes of it: the value that decoding the text gives, or the zero value if there was no text. -/
def TextLater (dec : List Byte → Val F → Prop) (zero : Val F) (r v : Val F) : Prop :=
  (∃ s, r = .str s ∧ dec s v) ∨ (r = .str [] ∧ v = zero)

/-- Both are nil, or both point to something. -/
def PtrLater (R : Val F → Val F → Prop) (r v : Val F) : Prop :=
  (r = .nilPtr ∧ v = .nilPtr) ∨ ∃ x y, r = .ptr x ∧ v = .ptr y ∧ R x y

/-- Both are nil, or the elements belong together. -/
def SliceLater (R : Val F → Val F → Prop) (r v : Val F) : Prop :=
  (r = .nilSlice ∧ v = .nilSlice) ∨ ∃ xs ys, r = .slice xs ∧ v = .slice ys ∧ Each R xs ys

/-- The elements belong together. -/
def ArrayLater (R : Val F → Val F → Prop) (r v : Val F) : Prop :=
  ∃ xs ys, r = .arr xs ∧ v = .arr ys ∧ Each R xs ys

/-- Both are nil, or they have the same keys and the values belong together. -/
def MapLater (R : Val F → Val F → Prop) (r v : Val F) : Prop :=
  (r = .nilMap ∧ v = .nilMap) ∨ ∃ m m', r = .map m ∧ v = .map m' ∧
    ∀ k, (m k = none ∧ m' k = none) ∨ ∃ x y, m k = some x ∧ m' k = some y ∧ R x y

/-- The members belong together. -/
def StructLater (R : Nat → Val F → Val F → Prop) (r v : Val F) : Prop :=
  ∃ xs ys, r = .struct xs ∧ v = .struct ys ∧ xs.length = ys.length ∧ ∀ k x y, xs[k]? = some x → ys[k]? = some y → R k x y

/-- `T'` is `T` with `json.RawMessage` in some places.  The relation tells which values of `T` belong to a value of `T'`: they are the
same except that the kept texts are decoded, where `dec` says what this gives.

In a struct, the members `kept` are the same in both types; there may be embedded structs and fields with the option `string` among
them.  The other members are fields of the two structs with the same name, and their types `U` and `U'` stand in this relation. -/
inductive Deferred (Γ : TyEnv F) (cfg : DecCfg F) (apart : List Byte → List Byte → Prop) (dec : Ty → List Byte → Val F → Prop) :
    Ty → Ty → (Val F → Val F → Prop) → Prop
  | same (T : Ty) : Deferred Γ cfg apart dec T T Eq
  | raw (T : Ty) : Deferred Γ cfg apart dec T .raw (TextLater (dec T) (Γ.zero cfg T))
  | ptr (T T' : Ty) (R : Val F → Val F → Prop) (h : Deferred Γ cfg apart dec T T' R) : Deferred Γ cfg apart dec (.ptr T) (.ptr T') (PtrLater R)
  | slice (T T' E E' : Ty) (R : Val F → Val F → Prop) (hT : Is Γ T (.slice E)) (hT' : Is Γ T' (.slice E'))
      (hz : Γ.zero cfg T = .nilSlice) (hz' : Γ.zero cfg T' = .nilSlice) (hE : E ≠ .uint .w8) (h : Deferred Γ cfg apart dec E E' R) :
      Deferred Γ cfg apart dec T T' (SliceLater R)
  | array (T T' E E' : Ty) (n : Nat) (R : Val F → Val F → Prop) (hT : Is Γ T (.array n E)) (hT' : Is Γ T' (.array n E'))
      (hz : Γ.zero cfg T = .arr (List.replicate n (Γ.zero cfg E))) (hz' : Γ.zero cfg T' = .arr (List.replicate n (Γ.zero cfg E')))
      (h : Deferred Γ cfg apart dec E E' R) : Deferred Γ cfg apart dec T T' (ArrayLater R)
  | map (T T' E E' : Ty) (K : KeyTy) (R : Val F → Val F → Prop) (hT : Is Γ T (.map K E)) (hT' : Is Γ T' (.map K E'))
      (hz : Γ.zero cfg T = .nilMap) (hz' : Γ.zero cfg T' = .nilMap) (hK : DistinctKeys Γ apart K) (h : Deferred Γ cfg apart dec E E' R) :
      Deferred Γ cfg apart dec T T' (MapLater R)
  | struct (i j : Nat) (fs fs' : List Field) (zs zs' : List (Val F)) (U U' : Nat → Ty) (R : Nat → Val F → Val F → Prop) (kept : Nat → Prop)
      (hd : Γ.defn i = .struct fs) (hd' : Γ.defn j = .struct fs') (hz : Γ.zero cfg (.named i) = .struct zs)
      (hz' : Γ.zero cfg (.named j) = .struct zs') (hn : zs.length = zs'.length)
      (h1 : ∀ k, kept k → R k = Eq ∧ zs[k]? = zs'[k]?)
      (h2 : ∀ k, ¬ kept k → zs[k]? = some (Γ.zero cfg (U k)) ∧ zs'[k]? = some (Γ.zero cfg (U' k)))
      (hf : fs.map Field.name = fs'.map Field.name)
      (hp : ∀ (n : Nat) (f f' : Field), fs[n]? = some f → fs'[n]? = some f' → ∃ k p, f.path = .member k :: p ∧ (kept k → f = f') ∧
        (¬ kept k → p = [] ∧ f'.path = f.path ∧ f.ty = U k ∧ f'.ty = U' k ∧ f.quoted = false ∧ f'.quoted = false))
      (hu : ∀ (n m : Nat) (f g : Field) (k : Nat) (p q : List PathStep), fs[n]? = some f → fs[m]? = some g → f.path = .member k :: p →
        g.path = .member k :: q → ¬ kept k → n = m)
      (h : ∀ k, ¬ kept k → Deferred Γ cfg apart dec (U k) (U' k) (R k)) :
      Deferred Γ cfg apart dec (.named i) (.named j) (StructLater R)

end

end Spec
