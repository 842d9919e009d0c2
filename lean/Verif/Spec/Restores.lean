import Verif.Spec.Encodable

/-!
# Specification: values that are the same after they have been written and read

Several values have the same text, so not every value can come back: a pointer to a nil pointer is written as `null`, an
empty slice in a field with `omitempty` is not written at all, and so on.  `Restores` describes those that are told apart.
-/

namespace Spec

open Jzon (Byte GoVal Val Key Ty KeyTy Width PathStep Def Field TyEnv DecCfg EncEnv EncField FloatArg Recv)

section
variable {F : Type}

/-- The content of an `interface{}` comes back: strings are valid UTF-8, and numbers have the type that decoding gives
them. -/
inductive RestoresAny (cfg : DecCfg F) (arg : F → FloatArg) : GoVal F → Prop
  | nil : RestoresAny cfg arg .nil
  | bool (b : Bool) : RestoresAny cfg arg (.bool b)
  | number (l : List Byte) (h : Number l) (hu : cfg.useNumber = true) : RestoresAny cfg arg (.number l)
  | float (f : F) (hu : cfg.useNumber = false) (h : ∀ t, NumText arg false (.float f) t → literal cfg.ops64 t = .ok f) :
      RestoresAny cfg arg (.float f)
  | str (s : List Byte) (h : ValidUtf8 s) : RestoresAny cfg arg (.str s)
  | arr (l : List (GoVal F)) (h : ∀ g ∈ l, RestoresAny cfg arg g) : RestoresAny cfg arg (.arr l)
  | obj (m : List Byte → Option (GoVal F)) (hk : ∀ k g, m k = some g → ValidUtf8 k)
      (h : ∀ k g, m k = some g → RestoresAny cfg arg g) : RestoresAny cfg arg (.obj m)

/-- Map keys that come back: strings are valid UTF-8, and `UnmarshalText` gives back the key from the text of the key. -/
def KeyRestores (Γ : TyEnv F) (E : EncEnv F) : KeyTy → Key → Prop
  | .text i, k => ∀ s, TextKey E i k s → ValidUtf8 s ∧ ∃ x, Γ.unmarshalText i (Γ.zeroOther i) s = .ok x ∧ keyValue x = k
  | _, .str s => ValidUtf8 s
  | _, _ => True

/-- The value is not written as `null`. -/
def NotNull (E : EncEnv F) (T : Ty) (v : Val F) : Prop :=
  match T with
  | .jsonUnmarshaler i => E.marshalJSON i v ≠ .ok nullText ∧ E.recv i = .value
  | .textUnmarshaler i => E.recv i = .value
  | .raw => v ≠ .str nullText
  | _ => v ≠ .nilPtr ∧ v ≠ .nilSlice ∧ v ≠ .nilMap ∧ v ≠ .any .nil

/-- The field is written for the struct `v`. -/
def Written (Γ : TyEnv F) (E : EncEnv F) (v : Val F) (f : EncField) : Prop :=
  ∃ x, Reaches f.path v x ∧ (f.omitEmpty = true → EmptyHere Γ E f.ty x false)

/-- `v` is `z` outside of the paths in `ps`; at the ends of the paths `z` is the zero value of the type.  Pointers are nil in `z`
and not in `v`, if there is a path through them. -/
inductive Elsewhere (zero : Ty → Val F) : (ps : List PathStep → Ty → Prop) → Val F → Val F → Prop
  | nothing (ps : List PathStep → Ty → Prop) (z : Val F) (h : ∀ p T, ¬ ps p T) : Elsewhere zero ps z z
  | here (ps : List PathStep → Ty → Prop) (T : Ty) (v : Val F) (h : ps [] T) : Elsewhere zero ps (zero T) v
  | struct (ps : List PathStep → Ty → Prop) (zs vs : List (Val F)) (h0 : ∀ T, ¬ ps [] T) (hlen : zs.length = vs.length)
      (h : ∀ (k : Nat) (z v : Val F), zs[k]? = some z → vs[k]? = some v → Elsewhere zero (fun p T => ps (.member k :: p) T) z v) :
      Elsewhere zero ps (.struct zs) (.struct vs)
  | ptr (ps : List PathStep → Ty → Prop) (T : Ty) (v : Val F) (hn : ∃ p U, ps p U)
      (h0 : ∀ p U, ps p U → ∃ p', p = .deref true T :: p')
      (h : Elsewhere zero (fun p U => ps (.deref true T :: p) U) (zero T) v) : Elsewhere zero ps .nilPtr (.ptr v)

/-- The value `v` of type `T`, with the option `string` or not, comes back from its text.  `html` tells whether `EscapeHTML` is set. -/
inductive Restores (Γ : TyEnv F) (E : EncEnv F) (cfg : DecCfg F) (html : Bool) : Ty → Bool → Val F → Prop
  | bool (q b : Bool) : Restores Γ E cfg html .bool q (.bool b)
  | str (q : Bool) (s : List Byte) (h : ValidUtf8 s) : Restores Γ E cfg html .str q (.str s)
  | int (q : Bool) (w : Width) (z : Int) : Restores Γ E cfg html (.int w) q (.int z)
  | uint (q : Bool) (w : Width) (z : Int) : Restores Γ E cfg html (.uint w) q (.int z)
  | float32 (q : Bool) (f : F) (h : ∀ t, NumText E.float32 q (.float f) t → literal cfg.ops32 t = .ok f) :
      Restores Γ E cfg html .float32 q (.float f)
  | float64 (q : Bool) (f : F) (h : ∀ t, NumText E.float64 q (.float f) t → literal cfg.ops64 t = .ok f) :
      Restores Γ E cfg html .float64 q (.float f)
  | number (q : Bool) (s : List Byte) (h : Number s) : Restores Γ E cfg html .number q (.str s)
  | raw (q : Bool) (s : List Byte) (h : IsValue s) : Restores Γ E cfg html .raw q (.str s)
  | any (g : GoVal F) (h : RestoresAny cfg E.float64 g) : Restores Γ E cfg html .any false (.any g)
  | nilPtr (q : Bool) (T : Ty) : Restores Γ E cfg html (.ptr T) q .nilPtr
  | ptr (q : Bool) (T : Ty) (v : Val F) (hn : NotNull E T v) (h : Restores Γ E cfg html T q v) : Restores Γ E cfg html (.ptr T) q (.ptr v)
  | nilSlice (q : Bool) (T U : Ty) (hT : Is Γ T (.slice U)) : Restores Γ E cfg html T q .nilSlice
  | bytes (q : Bool) (T : Ty) (bytes : List Byte) (hT : Is Γ T (.slice (.uint .w8)))
      (h : cfg.base64 (if bytes = [] then [] else E.base64 bytes) = .ok bytes) :
      Restores Γ E cfg html T q (.slice (bytes.map fun c => .int c.toNat))
  | slice (q : Bool) (T U : Ty) (vs : List (Val F)) (hT : Is Γ T (.slice U)) (hU : U ≠ .uint .w8)
      (h : ∀ v ∈ vs, Restores Γ E cfg html U false v) : Restores Γ E cfg html T q (.slice vs)
  | arr (q : Bool) (T U : Ty) (n : Nat) (vs : List (Val F)) (hT : Is Γ T (.array n U))
      (h : ∀ v ∈ vs, Restores Γ E cfg html U false v) : Restores Γ E cfg html T q (.arr vs)
  | nilMap (q : Bool) (T U : Ty) (K : KeyTy) (hT : Is Γ T (.map K U)) : Restores Γ E cfg html T q .nilMap
  | map (q : Bool) (T U : Ty) (K : KeyTy) (m : Key → Option (Val F)) (hT : Is Γ T (.map K U))
      (hk : ∀ k v, m k = some v → KeyRestores Γ E K k) (h : ∀ k v, m k = some v → Restores Γ E cfg html U false v) : Restores Γ E cfg html T q (.map m)
  | struct (q : Bool) (i : Nat) (fs : List Field) (vs : List (Val F)) (hT : Γ.defn i = .struct fs)
      (hz : Elsewhere (Γ.zero cfg) (fun p T => ∃ f ∈ E.fields i, f.path = p ∧ f.ty = T ∧ Written Γ E (.struct vs) f) (Γ.zeroNamed i)
        (.struct vs))
      (h : ∀ f ∈ E.fields i, ∀ x, Reaches f.path (.struct vs) x → (f.omitEmpty = true → EmptyHere Γ E f.ty x false) →
        Restores Γ E cfg html f.ty f.quoted x) : Restores Γ E cfg html (.named i) q (.struct vs)
  | json (q : Bool) (i : Nat) (v : Val F)
      (h : ∀ t, E.marshalJSON i v = .ok t → IsValue t ∧ Γ.unmarshalJSON i (Γ.zeroOther i) t = .ok v)
      (hp : E.recv i = .pointer → ∀ t, Encodes Γ E html (E.under i) q v t →
        IsValue t ∧ Γ.unmarshalJSON i (Γ.zeroOther i) t = .ok v) : Restores Γ E cfg html (.jsonUnmarshaler i) q v
  | text (q : Bool) (i : Nat) (v : Val F)
      (h : ∀ s, E.marshalText i v = .ok s → ValidUtf8 s ∧ Γ.unmarshalText i (Γ.zeroOther i) s = .ok v)
      (hv : E.recv i = .value) : Restores Γ E cfg html (.textUnmarshaler i) q v

/-- The encoder and the decoder see the same program: the same fields of structs, with valid names and at different
places, and the zero values of the named types. -/
structure SameTypes (Γ : TyEnv F) (E : EncEnv F) (cfg : DecCfg F) : Prop where
  fields : ∀ i fs, Γ.defn i = .struct fs → fs = (E.fields i).map fun f => ⟨f.name, f.quoted, f.path, f.ty⟩
  names : ∀ i, ∀ f ∈ E.fields i, ValidUtf8 f.name
  places : ∀ i, (E.fields i).Pairwise fun f g => ¬ f.path <+: g.path ∧ ¬ g.path <+: f.path
  zeroArray : ∀ i n U, Γ.defn i = .array n U → Γ.zeroNamed i = .arr (List.replicate n (Γ.zero cfg U))
  zeroMap : ∀ i K U, Γ.defn i = .map K U → Γ.zeroNamed i = .nilMap

/-! ## Types all values of which come back -/

/-- All strings in the value are valid UTF-8. -/
inductive Utf8Val : Val F → Prop
  | bool (b : Bool) : Utf8Val (.bool b)
  | str (s : List Byte) (h : ValidUtf8 s) : Utf8Val (.str s)
  | int (z : Int) : Utf8Val (.int z)
  | nilPtr : Utf8Val .nilPtr
  | ptr (v : Val F) (h : Utf8Val v) : Utf8Val (.ptr v)
  | nilSlice : Utf8Val .nilSlice
  | slice (vs : List (Val F)) (h : ∀ v ∈ vs, Utf8Val v) : Utf8Val (.slice vs)
  | arr (vs : List (Val F)) (h : ∀ v ∈ vs, Utf8Val v) : Utf8Val (.arr vs)
  | nilMap : Utf8Val .nilMap
  | map (m : Key → Option (Val F)) (hk : ∀ s v, m (.str s) = some v → ValidUtf8 s) (h : ∀ k v, m k = some v → Utf8Val v) : Utf8Val (.map m)
  | struct (vs : List (Val F)) (h : ∀ v ∈ vs, Utf8Val v) : Utf8Val (.struct vs)

/-- The types with one empty value only. -/
def OneEmpty : Ty → Prop
  | .bool | .str | .int _ | .uint _ | .ptr _ => True
  | _ => False

/-- The types no value of which is written as `null`. -/
def NeverNull (Γ : TyEnv F) : Ty → Prop
  | .bool | .str | .int _ | .uint _ | .array _ _ => True
  | .named i =>
    match Γ.defn i with
    | .struct _ | .array _ _ => True
    | _ => False
  | _ => False

/-- A struct consists of the fields with the paths in `ps` (with their types and the option `omitempty`) and nothing else.
An embedded pointer leads to at least one field that is always written. -/
inductive Covered (Γ : TyEnv F) (cfg : DecCfg F) (L : Nat → List Ty) : (ps : List PathStep → Ty → Bool → Prop) → Ty → Prop
  | field (ps : List PathStep → Ty → Bool → Prop) (T : Ty) (o : Bool) (h : ∀ p U b, ps p U b ↔ p = [] ∧ U = T ∧ b = o)
      (ho : o = true → OneEmpty T) : Covered Γ cfg L ps T
  | struct (ps : List PathStep → Ty → Bool → Prop) (i : Nat) (fs : List Field) (hd : Γ.defn i = .struct fs)
      (hz : Γ.zeroNamed i = .struct ((L i).map (Γ.zero cfg))) (h0 : ∀ U b, ¬ ps [] U b)
      (h : ∀ (k : Nat) (T : Ty), (L i)[k]? = some T → Covered Γ cfg L (fun p U b => ps (.member k :: p) U b) T) :
      Covered Γ cfg L ps (.named i)
  | ptr (ps : List PathStep → Ty → Bool → Prop) (T : Ty) (h0 : ∀ p U b, ps p U b → ∃ p', p = .deref true T :: p')
      (hn : ∃ p U, ps (.deref true T :: p) U false ∧ ∀ s ∈ p, ∃ k, s = .member k)
      (hm : ∀ p U b, ps (.deref true T :: p) U b → PathTy Γ L T p U)
      (h : Covered Γ cfg L (fun p U b => ps (.deref true T :: p) U b) T) : Covered Γ cfg L ps (.ptr T)

/-- The keys of a type with own methods can be written, and they come back if the strings among them are valid UTF-8. -/
def PlainKey (Γ : TyEnv F) (E : EncEnv F) (K : KeyTy) : Prop :=
  ∀ i, K = .text i → KeysKnown E K ∧ ∀ k, Γ.isKey i k →
    KeyFine E (fun _ => False) K k ∧ ((∀ s, k = .str s → ValidUtf8 s) → KeyRestores Γ E K k)

/-- The types of the universe of C25, built from types in `P`. -/
inductive Plain (Γ : TyEnv F) (E : EncEnv F) (cfg : DecCfg F) (L : Nat → List Ty) (P : Ty → Prop) : Ty → Prop
  | bool : Plain Γ E cfg L P .bool
  | str : Plain Γ E cfg L P .str
  | int (w : Width) : Plain Γ E cfg L P (.int w)
  | uint (w : Width) : Plain Γ E cfg L P (.uint w)
  | ptr (U : Ty) (h : P U) (hn : NeverNull Γ U) : Plain Γ E cfg L P (.ptr U)
  | bytes (T : Ty) (hT : Is Γ T (.slice (.uint .w8)))
      (h : ∀ b, cfg.base64 (if b = [] then [] else E.base64 b) = .ok b) : Plain Γ E cfg L P T
  | slice (T U : Ty) (hT : Is Γ T (.slice U)) (hU : U ≠ .uint .w8) (h : P U) : Plain Γ E cfg L P T
  | array (T U : Ty) (n : Nat) (hT : Is Γ T (.array n U)) (h : P U) : Plain Γ E cfg L P T
  | map (T U : Ty) (K : KeyTy) (hT : Is Γ T (.map K U)) (hK : PlainKey Γ E K) (h : P U) : Plain Γ E cfg L P T
  | struct (i : Nat) (fs : List Field) (hd : Γ.defn i = .struct fs)
      (h : ∀ f ∈ E.fields i, PathTy Γ L (.named i) f.path f.ty ∧ P f.ty)
      (hc : Covered Γ cfg L (fun p T b => ∃ f ∈ E.fields i, f.path = p ∧ f.ty = T ∧ f.omitEmpty = b) (.named i)) :
      Plain Γ E cfg L P (.named i)

end

end Spec
