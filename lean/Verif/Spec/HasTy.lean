import Verif.Spec.Typed

/-!
# Specification: values of a type

The members of the struct types are given by `L`: the types of all members, also of those that decoding does not see.
-/

namespace Spec

open Jzon (Byte Err Val Key Ty KeyTy Width PathStep Field Def TyEnv DecCfg)

section
variable {F : Type}

/-- Keys of a type. -/
def KeyOk : KeyTy → Key → Prop
  | .str, k => ∃ s, k = .str s
  | .int w, k => ∃ z, k = .int z ∧ Fits w.bits z
  | .uint w, k => ∃ z, k = .int z ∧ 0 ≤ z ∧ z < 2 ^ w.bits
  | .text _, _ => True

/-- Keys of a type, also of one with own methods. -/
def KeyOf (Γ : TyEnv F) (K : KeyTy) (k : Key) : Prop := KeyOk K k ∧ ∀ i, K = .text i → Γ.isKey i k

/-- `v` is a value of the type. -/
inductive HasTy (Γ : TyEnv F) (L : Nat → List Ty) : Ty → Val F → Prop
  | bool (b : Bool) : HasTy Γ L .bool (.bool b)
  | str (s : List Byte) : HasTy Γ L .str (.str s)
  | int (w : Width) (z : Int) (h : Fits w.bits z) : HasTy Γ L (.int w) (.int z)
  | uint (w : Width) (z : Int) (h0 : 0 ≤ z) (h : z < 2 ^ w.bits) : HasTy Γ L (.uint w) (.int z)
  | float32 (f : F) : HasTy Γ L .float32 (.float f)
  | float64 (f : F) : HasTy Γ L .float64 (.float f)
  | number (s : List Byte) : HasTy Γ L .number (.str s)
  | raw (s : List Byte) : HasTy Γ L .raw (.str s)
  | any (g : Jzon.GoVal F) : HasTy Γ L .any (.any g)
  | nilPtr (T : Ty) : HasTy Γ L (.ptr T) .nilPtr
  | ptr (T : Ty) (v : Val F) (h : HasTy Γ L T v) : HasTy Γ L (.ptr T) (.ptr v)
  | nilSlice (T E : Ty) (hT : Is Γ T (.slice E)) : HasTy Γ L T .nilSlice
  | slice (T E : Ty) (vs : List (Val F)) (hT : Is Γ T (.slice E)) (h : ∀ v ∈ vs, HasTy Γ L E v) : HasTy Γ L T (.slice vs)
  | arr (T E : Ty) (n : Nat) (vs : List (Val F)) (hT : Is Γ T (.array n E)) (hn : vs.length = n) (h : ∀ v ∈ vs, HasTy Γ L E v) :
      HasTy Γ L T (.arr vs)
  | nilMap (T E : Ty) (K : KeyTy) (hT : Is Γ T (.map K E)) : HasTy Γ L T .nilMap
  | map (T E : Ty) (K : KeyTy) (m : Key → Option (Val F)) (hT : Is Γ T (.map K E)) (hk : ∀ k v, m k = some v → KeyOf Γ K k)
      (h : ∀ k v, m k = some v → HasTy Γ L E v) : HasTy Γ L T (.map m)
  | struct (i : Nat) (fs : List Field) (vs : List (Val F)) (hT : Γ.defn i = .struct fs) (hn : vs.length = (L i).length)
      (h : ∀ (k : Nat) (v : Val F) (T : Ty), vs[k]? = some v → (L i)[k]? = some T → HasTy Γ L T v) : HasTy Γ L (.named i) (.struct vs)
  | jsonUnmarshaler (i : Nat) (v : Val F) : HasTy Γ L (.jsonUnmarshaler i) v
  | textUnmarshaler (i : Nat) (v : Val F) : HasTy Γ L (.textUnmarshaler i) v
  | unsupported (v : Val F) : HasTy Γ L .unsupported v

/-- A path leads from a type to a type. -/
inductive PathTy (Γ : TyEnv F) (L : Nat → List Ty) : Ty → List PathStep → Ty → Prop
  | here (T : Ty) : PathTy Γ L T [] T
  | member (i k : Nat) (fs : List Field) (T T' : Ty) (p : List PathStep) (hd : Γ.defn i = .struct fs) (h : (L i)[k]? = some T)
      (hp : PathTy Γ L T p T') : PathTy Γ L (.named i) (.member k :: p) T'
  | deref (e : Bool) (T T' : Ty) (p : List PathStep) (hp : PathTy Γ L T p T') : PathTy Γ L (.ptr T) (.deref e T :: p) T'

/-- The declarations fit together: the fields of the structs are where the paths lead, the zero values of the named
types are values of these types, and the methods for map keys give keys of their types. -/
structure Declared (Γ : TyEnv F) (L : Nat → List Ty) : Prop where
  fields : ∀ i fs f, Γ.defn i = .struct fs → f ∈ fs → PathTy Γ L (.named i) f.path f.ty
  zero : ∀ i, HasTy Γ L (.named i) (Γ.zeroNamed i)
  keys : ∀ i, Γ.isKey i (keyValue (Γ.zeroOther i)) ∧ ∀ s x, Γ.unmarshalText i (Γ.zeroOther i) s = .ok x → Γ.isKey i (keyValue x)

end

end Spec
