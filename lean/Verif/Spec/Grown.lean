import Verif.Spec.Deferred
import Verif.Spec.HasTy

/-!
# Specification: types with further fields

An older and a newer program have struct types with the same name; the newer type has further fields.
-/

namespace Spec

open Jzon (Byte Ty KeyTy Key Val Field PathStep TyEnv DecCfg)

/-- A JSON value such that all names of members of objects in it have the property. -/
inductive Naming (ok : List Byte → Prop) : List Byte → Prop
  | scalar (t : List Byte) (h : IsValue t) (ha : ∀ u, t ≠ 0x5B :: u) (ho : ∀ u, t ≠ 0x7B :: u) : Naming ok t
  | array (t : List Byte) (ts : List (List Byte)) (h : ArrayOf t ts) (hs : ∀ u ∈ ts, Naming ok u) : Naming ok t
  | object (t : List Byte) (ms : List (List Byte × List Byte)) (h : ObjectOf t ms) (hk : ∀ m ∈ ms, ∃ s, Str m.1 s ∧ ok s)
      (hs : ∀ m ∈ ms, Naming ok m.2) : Naming ok t

/-- The second list has the elements of the first one in the same order, and further ones between them. -/
inductive Merged {A : Type} (old : A → A → Prop) (new : A → Prop) : List A → List A → Prop
  | nil : Merged old new [] []
  | old (a b : A) (as bs : List A) (h : old a b) (hr : Merged old new as bs) : Merged old new (a :: as) (b :: bs)
  | new (b : A) (as bs : List A) (h : new b) (hr : Merged old new as bs) : Merged old new as (b :: bs)

section
variable {F : Type}

/-- The zero values of the declared types: nil, or put together from those of the elements and members. -/
structure ZeroValues (Γ : TyEnv F) (cfg : DecCfg F) (L : Nat → List Ty) : Prop where
  slice : ∀ i E, Γ.defn i = .slice E → Γ.zeroNamed i = .nilSlice
  map : ∀ i K E, Γ.defn i = .map K E → Γ.zeroNamed i = .nilMap
  array : ∀ i n E, Γ.defn i = .array n E → Γ.zeroNamed i = .arr (List.replicate n (Γ.zero cfg E))
  struct : ∀ i fs, Γ.defn i = .struct fs → Γ.zeroNamed i = .struct ((L i).map (Γ.zero cfg))

/-- The struct type `j` is the struct type `i` with further members; the member `k` of `i` is the member `place k` of `j`.  The types of
the members are given by `L`.

A field of `i` is a field of `j` with the same name and the same options.  If it is a field of an embedded struct, the embedded struct
is the same in both.  The names of the further fields do not belong together with those of `i`.  If `i` has one field only, it is needed
that this field is found in the same way among others (see `C27_violated_one_field`). -/
structure Wider (same : Nat → Nat → Prop) (caseSensitive : Bool) (L : Nat → List Ty) (P : Ty → Ty → Prop) (place : Nat → Nat) (i j : Nat)
    (fs fs' : List Field) : Prop where
  members : ∀ (k : Nat) (T : Ty), (L i)[k]? = some T → ∃ T', (L j)[place k]? = some T' ∧ P T T'
  inj : ∀ k k', k < (L i).length → k' < (L i).length → place k = place k' → k = k'
  fields : Merged
    (fun f f' => f.name = f'.name ∧ f.quoted = f'.quoted ∧ ∃ k p, f.path = .member k :: p ∧ f'.path = .member (place k) :: p ∧
      (p = [] ∨ f.ty = f'.ty ∧ (L i)[k]? = (L j)[place k]?))
    (fun f' => (∃ l p, f'.path = .member l :: p ∧ ∀ k, k < (L i).length → place k ≠ l) ∧ ∀ f ∈ fs, Apart same caseSensitive f.name f'.name)
    fs fs'
  single : ∀ f, fs = [f] → (∃ f', fs' = [f']) ∨ caseSensitive = true ∨ (∃ c ∈ f.name, ¬ c < 0x80) ∨
    ∀ key, KeyEq same f.name key → ∀ c ∈ key, c < 0x80

/-- `T'` is `T` with further members in structs, if parts of the types are related by `P`. -/
inductive GrownBy (Γ : TyEnv F) (same : Nat → Nat → Prop) (caseSensitive : Bool) (L : Nat → List Ty) (place : Nat → Nat → Nat → Nat)
    (P : Ty → Ty → Prop) : Ty → Ty → Prop
  | same (T : Ty) : GrownBy Γ same caseSensitive L place P T T
  | ptr (T T' : Ty) (h : P T T') : GrownBy Γ same caseSensitive L place P (.ptr T) (.ptr T')
  | slice (S S' T T' : Ty) (hS : Is Γ S (.slice T)) (hS' : Is Γ S' (.slice T')) (hb : T ≠ .uint .w8) (hb' : T' ≠ .uint .w8) (h : P T T') :
      GrownBy Γ same caseSensitive L place P S S'
  | array (S S' T T' : Ty) (n : Nat) (hS : Is Γ S (.array n T)) (hS' : Is Γ S' (.array n T')) (h : P T T') :
      GrownBy Γ same caseSensitive L place P S S'
  | map (S S' T T' : Ty) (K : KeyTy) (hS : Is Γ S (.map K T)) (hS' : Is Γ S' (.map K T')) (h : P T T') :
      GrownBy Γ same caseSensitive L place P S S'
  | struct (i j : Nat) (fs fs' : List Field) (hd : Γ.defn i = .struct fs) (hd' : Γ.defn j = .struct fs')
      (h : Wider same caseSensitive L P (place i j) i j fs fs') : GrownBy Γ same caseSensitive L place P (.named i) (.named j)

/-- The value of `T` is that of `T'` without the further members; these, the members `l` of the struct types `j`, have values that are
`extra j l`. -/
inductive Narrowed (Γ : TyEnv F) (L : Nat → List Ty) (place : Nat → Nat → Nat → Nat) (extra : Nat → Nat → Val F → Prop) :
    Ty → Ty → Val F → Val F → Prop
  | same (T : Ty) (v : Val F) : Narrowed Γ L place extra T T v v
  | nilPtr (T T' : Ty) : Narrowed Γ L place extra (.ptr T) (.ptr T') .nilPtr .nilPtr
  | ptr (T T' : Ty) (v v' : Val F) (hne : T ≠ T') (h : Narrowed Γ L place extra T T' v v') : Narrowed Γ L place extra (.ptr T) (.ptr T') (.ptr v) (.ptr v')
  | nilSlice (S S' T T' : Ty) (hS : Is Γ S (.slice T)) (hS' : Is Γ S' (.slice T')) : Narrowed Γ L place extra S S' .nilSlice .nilSlice
  | slice (S S' T T' : Ty) (vs vs' : List (Val F)) (hne : S ≠ S') (hS : Is Γ S (.slice T)) (hS' : Is Γ S' (.slice T')) (hn : vs.length = vs'.length)
      (h : ∀ (k : Nat) v v', vs[k]? = some v → vs'[k]? = some v' → Narrowed Γ L place extra T T' v v') : Narrowed Γ L place extra S S' (.slice vs) (.slice vs')
  | arr (S S' T T' : Ty) (n : Nat) (vs vs' : List (Val F)) (hne : S ≠ S') (hS : Is Γ S (.array n T)) (hS' : Is Γ S' (.array n T'))
      (hn : vs.length = vs'.length) (h : ∀ (k : Nat) v v', vs[k]? = some v → vs'[k]? = some v' → Narrowed Γ L place extra T T' v v') :
      Narrowed Γ L place extra S S' (.arr vs) (.arr vs')
  | nilMap (S S' T T' : Ty) (K : KeyTy) (hS : Is Γ S (.map K T)) (hS' : Is Γ S' (.map K T')) : Narrowed Γ L place extra S S' .nilMap .nilMap
  | map (S S' T T' : Ty) (K : KeyTy) (m m' : Key → Option (Val F)) (hne : S ≠ S') (hS : Is Γ S (.map K T)) (hS' : Is Γ S' (.map K T'))
      (hk : ∀ k, (m k).isSome = (m' k).isSome) (h : ∀ k v v', m k = some v → m' k = some v' → Narrowed Γ L place extra T T' v v') :
      Narrowed Γ L place extra S S' (.map m) (.map m')
  | struct (i j : Nat) (fs fs' : List Field) (vs vs' : List (Val F)) (hne : i ≠ j) (hd : Γ.defn i = .struct fs) (hd' : Γ.defn j = .struct fs')
      (hn : vs.length = (L i).length) (hn' : vs'.length = (L j).length)
      (h : ∀ (k : Nat) (T T' : Ty) v v', (L i)[k]? = some T → (L j)[place i j k]? = some T' → vs[k]? = some v → vs'[place i j k]? = some v' →
        Narrowed Γ L place extra T T' v v')
      (hx : ∀ (l : Nat) v', (∀ k, k < (L i).length → place i j k ≠ l) → vs'[l]? = some v' → extra j l v') :
      Narrowed Γ L place extra (.named i) (.named j) (.struct vs) (.struct vs')

/-- The name does not belong together with that of a further field. -/
def Unadded (Γ : TyEnv F) (same : Nat → Nat → Prop) (caseSensitive : Bool) (L : Nat → List Ty) (place : Nat → Nat → Nat → Nat)
    (P : Ty → Ty → Prop) (s : List Byte) : Prop :=
  ∀ i j fs', P (.named i) (.named j) → i ≠ j → Γ.defn j = .struct fs' → ∀ f ∈ fs', ∀ l p, f.path = .member l :: p →
    (∀ k, k < (L i).length → place i j k ≠ l) → Apart same caseSensitive f.name s

/-- The further members have their zero values. -/
def StillZero (Γ : TyEnv F) (cfg : DecCfg F) (L : Nat → List Ty) (j l : Nat) (v : Val F) : Prop :=
  ∀ T, (L j)[l]? = some T → v = Γ.zero cfg T

end

end Spec
