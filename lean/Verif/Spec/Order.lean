import Verif.Spec.Marshal
import Verif.Spec.Reorder

/-!
# Specification: the order in which maps are visited

Go visits the entries of a map in an order that may be another one each time.
-/

namespace Spec

open Jzon (Byte GoVal Val Key Ty KeyTy TyEnv EncEnv Streamer)

section
variable {F : Type}

/-- The same program, with another order. -/
def _root_.Jzon.EncEnv.visiting (E : EncEnv F) (order : Streamer → List Key → List Key) : EncEnv F := { E with shuffle := order }

/-- `x` is `v` or a part of it. -/
inductive Within : Val F → Val F → Prop
  | self (v : Val F) : Within v v
  | ptr (x v : Val F) (h : Within x v) : Within x (.ptr v)
  | slice (x v : Val F) (vs : List (Val F)) (hv : v ∈ vs) (h : Within x v) : Within x (.slice vs)
  | arr (x v : Val F) (vs : List (Val F)) (hv : v ∈ vs) (h : Within x v) : Within x (.arr vs)
  | struct (x v : Val F) (vs : List (Val F)) (hv : v ∈ vs) (h : Within x v) : Within x (.struct vs)
  | map (x v : Val F) (m : Key → Option (Val F)) (k : Key) (hv : m k = some v) (h : Within x v) : Within x (.map m)
  | anyArr (x : Val F) (g : GoVal F) (gs : List (GoVal F)) (hg : g ∈ gs) (h : Within x (.any g)) : Within x (.any (.arr gs))
  | anyObj (x : Val F) (g : GoVal F) (m : List Byte → Option (GoVal F)) (s : List Byte) (hg : m s = some g) (h : Within x (.any g)) :
      Within x (.any (.obj m))

/-- If it is a map, it has at most one entry. -/
def AtMostOne : Val F → Prop
  | .map m => ∀ k k', (m k).isSome → (m k').isSome → k = k'
  | .any (.obj m) => ∀ s s', (m s).isSome → (m s').isSome → s = s'
  | _ => True

/-- The value contains no map with more than one entry. -/
def NoOrder (v : Val F) : Prop := ∀ x, Within x v → AtMostOne x

/-- When `v` is written as a `T`, `x` is written as a `U`. -/
inductive WrittenIn (Γ : TyEnv F) (E : EncEnv F) : Ty → Val F → Ty → Val F → Prop
  | self (T : Ty) (v : Val F) : WrittenIn Γ E T v T v
  | ptr (T U : Ty) (v x : Val F) (h : WrittenIn Γ E T v U x) : WrittenIn Γ E (.ptr T) (.ptr v) U x
  | slice (S T U : Ty) (vs : List (Val F)) (v x : Val F) (hS : Is Γ S (.slice T)) (hv : v ∈ vs) (h : WrittenIn Γ E T v U x) : WrittenIn Γ E S (.slice vs) U x
  | arr (S T U : Ty) (n : Nat) (vs : List (Val F)) (v x : Val F) (hS : Is Γ S (.array n T)) (hv : v ∈ vs) (h : WrittenIn Γ E T v U x) :
      WrittenIn Γ E S (.arr vs) U x
  | map (S T U : Ty) (K : KeyTy) (m : Key → Option (Val F)) (k : Key) (v x : Val F) (hS : Is Γ S (.map K T)) (hv : m k = some v)
      (h : WrittenIn Γ E T v U x) : WrittenIn Γ E S (.map m) U x
  | field (i : Nat) (f : Jzon.EncField) (U : Ty) (w v x : Val F) (hf : f ∈ E.fields i) (hv : Reaches f.path w v) (h : WrittenIn Γ E f.ty v U x) :
      WrittenIn Γ E (.named i) w U x
  | anyArr (gs : List (GoVal F)) (U : Ty) (x : Val F) (h : WrittenIn Γ E (.slice .any) (.slice (gs.map Val.any)) U x) : WrittenIn Γ E .any (.any (.arr gs)) U x
  | anyObj (m : List Byte → Option (GoVal F)) (U : Ty) (x : Val F) (h : WrittenIn Γ E (.map .str .any) (.map (anyMap m)) U x) :
      WrittenIn Γ E .any (.any (.obj m)) U x
  | json (i : Nat) (U : Ty) (v x : Val F) (hp : E.recv i = .pointer) (h : WrittenIn Γ E (E.under i) v U x) : WrittenIn Γ E (.jsonUnmarshaler i) v U x
  | text (i : Nat) (U : Ty) (v x : Val F) (hp : E.recv i = .pointer) (h : WrittenIn Γ E (E.under i) v U x) : WrittenIn Γ E (.textUnmarshaler i) v U x

/-- The names that are written for different keys of the same map are apart. -/
def NamesApart (Γ : TyEnv F) (E : EncEnv F) (apart : List Byte → List Byte → Prop) (T : Ty) (v : Val F) : Prop :=
  ∀ S K U m k k' n n' s s', WrittenIn Γ E T v S (.map m) → Is Γ S (.map K U) → k ≠ k' → (m k).isSome → (m k').isSome →
    KeyText E E.escapeHTML K k n → KeyText E E.escapeHTML K k' n' → Str n s → Str n' s' → apart s s'

end

end Spec
