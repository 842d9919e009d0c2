import Verif.Spec.Marshal
import Verif.Spec.HasTy

/-!
# Specification: values that can be encoded
-/

namespace Spec

open Jzon (Byte GoVal Val Key Ty KeyTy Width PathStep Def TyEnv EncEnv EncField FloatArg EncErr Recv Streamer Field)

section
variable {F : Type}

/-- A map has finitely many entries. -/
def FiniteMap {K V : Type} (m : K → Option V) : Prop := ∃ keys : List K, ∀ k, (m k).isSome → k ∈ keys

/-- The content of an `interface{}` has finite maps, and its floats are finite unless the errors for them are allowed. -/
inductive EncodableAny (A : EncErr → Prop) (arg : F → FloatArg) : GoVal F → Prop
  | nil : EncodableAny A arg .nil
  | bool (b : Bool) : EncodableAny A arg (.bool b)
  | number (l : List Byte) : EncodableAny A arg (.number l)
  | float (f : F) (hi : (arg f).isInf = true → A .floatIsInfinity) (hn : (arg f).isNaN = true → A .floatIsNan) :
      EncodableAny A arg (.float f)
  | str (s : List Byte) : EncodableAny A arg (.str s)
  | arr (l : List (GoVal F)) (h : ∀ g ∈ l, EncodableAny A arg g) : EncodableAny A arg (.arr l)
  | obj (m : List Byte → Option (GoVal F)) (hm : FiniteMap m) (h : ∀ k g, m k = some g → EncodableAny A arg g) :
      EncodableAny A arg (.obj m)

/-- The values whose emptiness the library can determine by the kind of the type. -/
def Shaped (Γ : TyEnv F) (T : Ty) (v : Val F) : Prop :=
  match T with
  | .bool => ∃ b, v = .bool b
  | .int _ | .uint _ => ∃ z, v = .int z
  | .float32 | .float64 => ∃ f, v = .float f
  | .slice _ => v = .nilSlice ∨ ∃ vs, v = .slice vs
  | .array _ _ => True
  | .map _ _ => v = .nilMap ∨ ∃ m, v = .map m ∧ FiniteMap m
  | .named i =>
    match Γ.defn i with
    | .slice _ => v = .nilSlice ∨ ∃ vs, v = .slice vs
    | .map _ _ => v = .nilMap ∨ ∃ m, v = .map m ∧ FiniteMap m
    | _ => True
  | _ => False

/-- The emptiness of a value of a field with `omitempty` can be determined: types whose values have the encoding method
must have one of the kinds above. -/
def EmptyKnown (Γ : TyEnv F) (E : EncEnv F) (T : Ty) (v : Val F) : Prop :=
  match T with
  | .jsonUnmarshaler i | .textUnmarshaler i => E.recv i = .value → Shaped Γ (E.under i) v
  | _ => True

/-- `k` is a key of the type, and if the method of the type fails, then with an error in `A`. -/
def KeyFine (E : EncEnv F) (A : EncErr → Prop) : KeyTy → Key → Prop
  | .text i, k =>
    match E.under i with
    | .str | .number => ∃ s, k = .str s
    | U =>
      match E.recv i with
      | .value => ∀ e, E.marshalText i (keyAsValue k) = .error e → A e
      | .pointer =>
        match U with
        | .int w => KeyOk (.int w) k
        | .uint w => KeyOk (.uint w) k
        | _ => True
  | K, k => KeyOk K k

/-- `v` is a value of the type with finite maps, and every reason for an error is in `A`: infinities and NaNs, unsupported
types, and failing methods. -/
inductive Encodable (Γ : TyEnv F) (E : EncEnv F) (A : EncErr → Prop) : Ty → Val F → Prop
  | bool (b : Bool) : Encodable Γ E A .bool (.bool b)
  | str (s : List Byte) : Encodable Γ E A .str (.str s)
  | int (w : Width) (z : Int) (h : Fits w.bits z) : Encodable Γ E A (.int w) (.int z)
  | uint (w : Width) (z : Int) (h : FitsUnsigned w.bits z) : Encodable Γ E A (.uint w) (.int z)
  | float32 (f : F) (hi : (E.float32 f).isInf = true → A .floatIsInfinity) (hn : (E.float32 f).isNaN = true → A .floatIsNan) :
      Encodable Γ E A .float32 (.float f)
  | float64 (f : F) (hi : (E.float64 f).isInf = true → A .floatIsInfinity) (hn : (E.float64 f).isNaN = true → A .floatIsNan) :
      Encodable Γ E A .float64 (.float f)
  | number (s : List Byte) : Encodable Γ E A .number (.str s)
  | raw (s : List Byte) : Encodable Γ E A .raw (.str s)
  | any (g : GoVal F) (h : EncodableAny A E.float64 g) : Encodable Γ E A .any (.any g)
  | nilPtr (T : Ty) (h : T = .unsupported → A .typeNotSupported)
      (hK : ∀ K U, Is Γ T (.map K U) → ¬ KeysKnown E K → A .typeNotSupported) : Encodable Γ E A (.ptr T) .nilPtr
  | ptr (T : Ty) (v : Val F) (h : Encodable Γ E A T v) : Encodable Γ E A (.ptr T) (.ptr v)
  | nilSlice (T U : Ty) (hT : Is Γ T (.slice U)) : Encodable Γ E A T .nilSlice
  | slice (T U : Ty) (vs : List (Val F)) (hT : Is Γ T (.slice U)) (h : ∀ v ∈ vs, Encodable Γ E A U v) : Encodable Γ E A T (.slice vs)
  | arr (T U : Ty) (n : Nat) (vs : List (Val F)) (hT : Is Γ T (.array n U)) (hn : vs.length = n) (h : ∀ v ∈ vs, Encodable Γ E A U v) :
      Encodable Γ E A T (.arr vs)
  | nilMap (T U : Ty) (K : KeyTy) (hT : Is Γ T (.map K U)) (hK : ¬ KeysKnown E K → A .typeNotSupported) : Encodable Γ E A T .nilMap
  | map (T U : Ty) (K : KeyTy) (m : Key → Option (Val F)) (hT : Is Γ T (.map K U)) (hm : FiniteMap m)
      (hK : ¬ KeysKnown E K → A .typeNotSupported) (hk : ∀ k v, m k = some v → KeyFine E A K k)
      (h : ∀ k v, m k = some v → Encodable Γ E A U v) : Encodable Γ E A T (.map m)
  | struct (i : Nat) (fs : List Field) (vs : List (Val F)) (hT : Γ.defn i = .struct fs)
      (hp : ∀ f ∈ E.fields i, Missing f.path (.struct vs) ∨ ∃ x, Reaches f.path (.struct vs) x)
      (he : ∀ f ∈ E.fields i, f.omitEmpty = true → ∀ x, Reaches f.path (.struct vs) x → EmptyKnown Γ E f.ty x)
      (h : ∀ f ∈ E.fields i, ∀ x, Reaches f.path (.struct vs) x → Encodable Γ E A f.ty x) : Encodable Γ E A (.named i) (.struct vs)
  | json (i : Nat) (v : Val F) (hj : ∀ e, E.marshalJSON i v = .error e → A e)
      (h : E.recv i = .pointer → Encodable Γ E A (E.under i) v) : Encodable Γ E A (.jsonUnmarshaler i) v
  | text (i : Nat) (v : Val F) (hj : ∀ e, E.marshalText i v = .error e → A e)
      (h : E.recv i = .pointer → Encodable Γ E A (E.under i) v) : Encodable Γ E A (.textUnmarshaler i) v
  | unsupported (v : Val F) (h : A .typeNotSupported) : Encodable Γ E A .unsupported v

/-- All maps in an `interface{}` are finite. -/
inductive FiniteAny : GoVal F → Prop
  | nil : FiniteAny .nil
  | bool (b : Bool) : FiniteAny (.bool b)
  | number (l : List Byte) : FiniteAny (.number l)
  | float (f : F) : FiniteAny (.float f)
  | str (s : List Byte) : FiniteAny (.str s)
  | arr (l : List (GoVal F)) (h : ∀ g ∈ l, FiniteAny g) : FiniteAny (.arr l)
  | obj (m : List Byte → Option (GoVal F)) (hm : FiniteMap m) (h : ∀ k g, m k = some g → FiniteAny g) : FiniteAny (.obj m)

/-- All maps in a value are finite. -/
inductive FiniteVal : Val F → Prop
  | bool (b : Bool) : FiniteVal (.bool b)
  | str (s : List Byte) : FiniteVal (.str s)
  | int (z : Int) : FiniteVal (.int z)
  | float (f : F) : FiniteVal (.float f)
  | any (g : GoVal F) (h : FiniteAny g) : FiniteVal (.any g)
  | nilPtr : FiniteVal .nilPtr
  | ptr (v : Val F) (h : FiniteVal v) : FiniteVal (.ptr v)
  | nilSlice : FiniteVal .nilSlice
  | slice (vs : List (Val F)) (h : ∀ v ∈ vs, FiniteVal v) : FiniteVal (.slice vs)
  | arr (vs : List (Val F)) (h : ∀ v ∈ vs, FiniteVal v) : FiniteVal (.arr vs)
  | nilMap : FiniteVal .nilMap
  | map (m : Key → Option (Val F)) (hm : FiniteMap m) (h : ∀ k v, m k = some v → FiniteVal v) : FiniteVal (.map m)
  | struct (vs : List (Val F)) (h : ∀ v ∈ vs, FiniteVal v) : FiniteVal (.struct vs)
  | other (n : Nat) : FiniteVal (.other n)

/-- The declarations fit together: the fields of the structs are where the paths lead, methods with a value as receiver
belong to the types themselves, the map keys of string types are strings, and no field with `omitempty` has a type with own methods. -/
structure EncDeclared (Γ : TyEnv F) (E : EncEnv F) (L : Nat → List Ty) : Prop where
  fields : ∀ i fs f, Γ.defn i = .struct fs → f ∈ E.fields i → PathTy Γ L (.named i) f.path f.ty
  values : ∀ i, E.recv i = .value
  strings : ∀ i k, E.under i = .str ∨ E.under i = .number → Γ.isKey i k → ∃ s, k = .str s
  omitEmpty : ∀ i f, f ∈ E.fields i → f.omitEmpty = true → ∀ j, f.ty ≠ .jsonUnmarshaler j ∧ f.ty ≠ .textUnmarshaler j

end

end Spec
