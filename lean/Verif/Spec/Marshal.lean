import Verif.Model.Marshal
import Verif.Spec.Stream
import Verif.Spec.Typed

/-!
# Specification: the texts a Go value may be written as

For every type a relation between values and texts.  The order of the members of a map and the way in which strings are
escaped are left open.  The types and values are those of `Verif.Model.Typed`.
-/

namespace Spec

open Jzon (Byte GoVal Val Key Ty KeyTy Width PathStep Def TyEnv EncEnv EncField FloatArg EncErr Recv Streamer)

/-- The texts, separated by commas. -/
def joined : List (List Byte) → List Byte
  | [] => []
  | [t] => t
  | t :: ts => t ++ 0x2C :: joined ts

/-- The texts, separated by commas and between brackets. -/
def bracketed (opening closing : Byte) (ts : List (List Byte)) : List Byte := opening :: (joined ts ++ [closing])

/-- In quotation marks, if the first argument says so. -/
def quotedIf (q : Bool) (t : List Byte) : List Byte := if q then inQuotes t else t

/-- `t` is a string of the JSON grammar for `s`, with invalid bytes replaced, and made of allowed characters only. -/
def StringText (html : Bool) (s t : List Byte) : Prop :=
  ∃ s', Sanitized s s' ∧ Str t s' ∧ ∃ ns : List Nat, (∀ n ∈ ns, OutChar html n) ∧ t = ns.flatMap utf8

section
variable {F : Type}

/-- For the option `string` and a value: the texts. -/
abbrev TextRel' (F : Type) := Bool → Val F → List Byte → Prop

def BoolText : TextRel' F := fun q v t => ∃ b, v = .bool b ∧ t = quotedIf q (if b then trueText else falseText)

/-- A string; with the option `string`, a string whose content is the text of the string. -/
def StrText (inner html : Bool) : TextRel' F := fun q v t =>
  ∃ s, v = .str s ∧ if q then ∃ u, StringText inner s u ∧ StringText html u t else StringText html s t

def IntText (fits : Int → Prop) : TextRel' F := fun q v t => ∃ z, v = .int z ∧ fits z ∧ t = quotedIf q (decimalInt z)

/-- The integers of the unsigned type of `w` bits. -/
def FitsUnsigned (w : Nat) (z : Int) : Prop := 0 ≤ z ∧ z < 2 ^ w

/-- A finite number, with or without exponent according to its size. -/
def NumText (arg : F → FloatArg) : TextRel' F := fun _ v t =>
  ∃ f small big, v = .float f ∧ (arg f).isInf = false ∧ (arg f).isNaN = false ∧ FloatLaws (arg f) small big ∧
    FloatText (arg f) small big t

/-- A `json.Number` is written as it is; the empty one as zero. -/
def NumberText : TextRel' F := fun _ v t => ∃ s, v = .str s ∧ t = if s = [] then [0x30] else s

/-- A `json.RawMessage` is written as it is. -/
def RawText : TextRel' F := fun _ v t => v = .str t

/-- A pointer is written as what it points to. -/
def PtrText (R : TextRel' F) : TextRel' F := fun q v t =>
  (v = .nilPtr ∧ t = nullText) ∨ ∃ x, v = .ptr x ∧ R q x t

def SliceText (R : TextRel' F) : TextRel' F := fun _ v t =>
  (v = .nilSlice ∧ t = nullText) ∨
  ∃ vs ts, v = .slice vs ∧ Each (R false) vs ts ∧ t = bracketed 0x5B 0x5D ts

/-- Bytes are written in base64. -/
def BytesText (base64 : List Byte → List Byte) : TextRel' F := fun _ v t =>
  (v = .nilSlice ∧ t = nullText) ∨
  ∃ bytes : List Byte, v = .slice (bytes.map fun c => .int c.toNat) ∧
    t = inQuotes (if bytes = [] then [] else base64 bytes)

def ArrayText (n : Nat) (R : TextRel' F) : TextRel' F := fun _ v t =>
  ∃ vs ts, v = .arr vs ∧ vs.length = n ∧ Each (R false) vs ts ∧ t = bracketed 0x5B 0x5D ts

/-- A map key as a value. -/
def keyAsValue : Key → Val F
  | .str s => .str s
  | .int z => .int z
  | .other n => .other n

/-- The content of the member name for a key of a type with own methods: a string is taken as it is; otherwise the type may have the
method `MarshalText`, or it is an integer type. -/
def TextKey (E : EncEnv F) (i : Nat) (k : Key) (s : List Byte) : Prop :=
  match E.under i with
  | .str | .number => k = .str s
  | U =>
    match E.recv i with
    | .value => E.marshalText i (keyAsValue k) = .ok s
    | .pointer =>
      match U with
      | .int w => ∃ z, k = .int z ∧ Fits w.bits z ∧ s = decimalInt z
      | .uint w => ∃ z, k = .int z ∧ FitsUnsigned w.bits z ∧ s = decimalInt z
      | _ => False

/-- The maps with keys of this type can be written. -/
def KeysKnown (E : EncEnv F) : KeyTy → Prop
  | .text i =>
    match E.under i with
    | .str | .number | .int _ | .uint _ => True
    | _ => E.recv i = .value
  | _ => True

/-- The text of a member name for a map key. -/
def KeyText (E : EncEnv F) (html : Bool) : KeyTy → Key → List Byte → Prop
  | .str, k, t => ∃ s, k = .str s ∧ StringText html s t
  | .int w, k, t => ∃ z, k = .int z ∧ Fits w.bits z ∧ t = inQuotes (decimalInt z)
  | .uint w, k, t => ∃ z, k = .int z ∧ FitsUnsigned w.bits z ∧ t = inQuotes (decimalInt z)
  | .text i, k, t => ∃ s, TextKey E i k s ∧ StringText html s t

/-- Every entry of a map becomes a member, in any order. -/
def MapText (K : Key → List Byte → Prop) (R : TextRel' F) : TextRel' F := fun _ v t =>
  (v = .nilMap ∧ t = nullText) ∨
  ∃ m keys ts, v = .map m ∧ keys.Nodup ∧ (∀ k, k ∈ keys ↔ (m k).isSome) ∧
    Each (fun k u => ∃ x kt xt, m k = some x ∧ K k kt ∧ R false x xt ∧ u = kt ++ 0x3A :: xt) keys ts ∧
    t = bracketed 0x7B 0x7D ts

def MapTextOf (E : EncEnv F) (html : Bool) (K : KeyTy) (R : TextRel' F) : TextRel' F := fun q v t =>
  KeysKnown E K ∧ MapText (KeyText E html K) R q v t

/-- The path leads to a nil pointer to an embedded struct. -/
inductive Missing : List PathStep → Val F → Prop
  | member (i : Nat) (p : List PathStep) (vs : List (Val F)) (v : Val F) (hi : vs[i]? = some v) (h : Missing p v) :
      Missing (.member i :: p) (.struct vs)
  | nil (e : Bool) (t : Ty) (p : List PathStep) : Missing (.deref e t :: p) .nilPtr
  | deref (e : Bool) (t : Ty) (p : List PathStep) (v : Val F) (h : Missing p v) : Missing (.deref e t :: p) (.ptr v)

/-- `x` is the value at the end of the path. -/
inductive Reaches : List PathStep → Val F → Val F → Prop
  | here (v : Val F) : Reaches [] v v
  | member (i : Nat) (p : List PathStep) (vs : List (Val F)) (v x : Val F) (hi : vs[i]? = some v) (h : Reaches p v x) :
      Reaches (.member i :: p) (.struct vs) x
  | deref (e : Bool) (t : Ty) (p : List PathStep) (v x : Val F) (h : Reaches p v x) : Reaches (.deref e t :: p) (.ptr v) x

/-- The members for the fields of a struct, in the order of the fields.  Fields of embedded structs that are not there are
left out, so are empty values of fields with `omitempty`; `Em T x b`: the value `x` of type `T` is empty or not. -/
inductive FieldTexts (html : Bool) (Em : Ty → Val F → Bool → Prop) (R : Ty → TextRel' F) (v : Val F) :
    List EncField → List (List Byte) → Prop
  | nil : FieldTexts html Em R v [] []
  | missing (f : EncField) (fs : List EncField) (ts : List (List Byte)) (h : Missing f.path v)
      (hr : FieldTexts html Em R v fs ts) : FieldTexts html Em R v (f :: fs) ts
  | omitted (f : EncField) (fs : List EncField) (ts : List (List Byte)) (x : Val F) (h : Reaches f.path v x)
      (ho : f.omitEmpty = true) (he : Em f.ty x true) (hr : FieldTexts html Em R v fs ts) : FieldTexts html Em R v (f :: fs) ts
  | written (f : EncField) (fs : List EncField) (ts : List (List Byte)) (x : Val F) (k u : List Byte) (h : Reaches f.path v x)
      (he : f.omitEmpty = true → Em f.ty x false) (hk : StringText html f.name k) (hu : R f.ty f.quoted x u)
      (hr : FieldTexts html Em R v fs ts) : FieldTexts html Em R v (f :: fs) ((k ++ 0x3A :: u) :: ts)

def StructText (html : Bool) (Em : Ty → Val F → Bool → Prop) (R : Ty → TextRel' F) (fs : List EncField) : TextRel' F :=
  fun _ v t => ∃ vs ts, v = .struct vs ∧ FieldTexts html Em R v fs ts ∧ t = bracketed 0x7B 0x7D ts

/-- The result of `MarshalJSON`. -/
def JsonText (f : Val F → Except EncErr (List Byte)) : TextRel' F := fun _ v t => f v = .ok t

/-- The result of `MarshalText` as a string. -/
def MethodText (html : Bool) (f : Val F → Except EncErr (List Byte)) : TextRel' F := fun _ v t =>
  ∃ s, f v = .ok s ∧ StringText html s t

/-- The value of a `map[string]interface{}` as a variable of its type. -/
def anyMap (m : List Byte → Option (GoVal F)) : Key → Option (Val F)
  | .str s => (m s).map Val.any
  | _ => none

/-- What is stored in an `interface{}`; `RA` and `RM` are for `[]interface{}` and `map[string]interface{}`. -/
def AnyText (inner html : Bool) (arg : F → FloatArg) (RA RM : TextRel' F) : TextRel' F := fun q v t =>
  ∃ g, v = .any g ∧
    match g with
    | .nil => t = nullText
    | .bool b => BoolText q (F := F) (.bool b) t
    | .number l => NumberText q (F := F) (.str l) t
    | .float f => NumText arg q (.float f) t
    | .str s => StrText inner html q (F := F) (.str s) t
    | .arr l => RA q (.slice (l.map Val.any)) t
    | .obj m => RM q (.map (anyMap m)) t

/-! ## Emptiness -/

/-- False, zero, a nil pointer or interface, or something of length zero. -/
inductive Empty (zero : F → Prop) : Val F → Prop
  | bool : Empty zero (.bool false)
  | str : Empty zero (.str [])
  | int : Empty zero (.int 0)
  | float (f : F) (h : zero f) : Empty zero (.float f)
  | any : Empty zero (.any .nil)
  | nilPtr : Empty zero .nilPtr
  | nilSlice : Empty zero .nilSlice
  | slice : Empty zero (.slice [])
  | arr : Empty zero (.arr [])
  | nilMap : Empty zero .nilMap
  | map (m : Key → Option (Val F)) (h : ∀ k, m k = none) : Empty zero (.map m)

/-- The numbers that are zero; `float32` is the only type with another representation. -/
def isZero (E : EncEnv F) (T : Ty) (f : F) : Prop :=
  if T = .float32 then (E.float32 f).nonZero = false else (E.float64 f).nonZero = false

/-- The kinds for which the library cannot tell whether a value of a type with own methods is empty. -/
def NoKind : Ty → Prop
  | .str | .number | .raw | .any | .ptr _ | .jsonUnmarshaler _ | .textUnmarshaler _ | .unsupported => True
  | _ => False

/-- What this library finds empty (`b`) or not: as `Empty`, except that a struct without fields is empty, an array type
is empty only if its length is zero, and a type whose pointer has the encoding method or that cannot be encoded is never empty.  A type with own
methods is treated as the type below, but there is no answer for some kinds. -/
def EmptyHere (Γ : TyEnv F) (E : EncEnv F) (T : Ty) (v : Val F) (b : Bool) : Prop :=
  match T with
  | .jsonUnmarshaler i | .textUnmarshaler i =>
    match E.recv i with
    | .pointer => b = false
    | .value =>
      match E.under i with
      | .named j =>
        match Γ.defn j with
        | .struct _ => b = false
        | .array _ _ => b = false
        | _ => b = true ↔ Empty (isZero E (.named j)) v
      | .array _ _ => b = false
      | U => ¬ NoKind U ∧ (b = true ↔ Empty (isZero E U) v)
  | .named j =>
    match Γ.defn j with
    | .struct _ => b = (E.fields j).isEmpty
    | .array n _ => b = (n == 0)
    | .map K _ => (KeysKnown E K → (b = true ↔ Empty (isZero E T) v)) ∧ (¬ KeysKnown E K → b = false)
    | _ => b = true ↔ Empty (isZero E T) v
  | .map K _ => (KeysKnown E K → (b = true ↔ Empty (isZero E T) v)) ∧ (¬ KeysKnown E K → b = false)
  | .array n _ => b = (n == 0)
  | .unsupported => b = false
  | T => b = true ↔ Empty (isZero E T) v

/-! ## Types -/

/-- The encoding method of the pointer type goes before the type, for elements and fields. -/
def Preferred (E : EncEnv F) (html : Bool) (T : Ty) (R : TextRel' F) : TextRel' F :=
  match T with
  | .jsonUnmarshaler i => if E.recv i = .pointer then JsonText (E.marshalJSON i) else R
  | .textUnmarshaler i => if E.recv i = .pointer then MethodText html (E.marshalText i) else R
  | _ => R

def SliceTextOf (E : EncEnv F) (html : Bool) (T : Ty) (R : TextRel' F) : TextRel' F :=
  if T = .uint .w8 then BytesText E.base64 else SliceText (Preferred E html T R)

/-- The relation of a type, with names and interfaces unfolded at most as often as the number says. -/
def EncodesStep (E : EncEnv F) (html : Bool) (rest : Ty → TextRel' F) : Ty → TextRel' F
  | .bool => BoolText
  | .str => StrText E.escapeHTML html
  | .int w => IntText (Fits w.bits)
  | .uint w => IntText (FitsUnsigned w.bits)
  | .float32 => NumText E.float32
  | .float64 => NumText E.float64
  | .number => NumberText
  | .raw => RawText
  | .any => AnyText E.escapeHTML html E.float64 (rest (.slice .any)) (rest (.map .str .any))
  | .ptr t => PtrText (Preferred E html t (EncodesStep E html rest t))
  | .slice t => SliceTextOf E html t (EncodesStep E html rest t)
  | .array n t => ArrayText n (Preferred E html t (EncodesStep E html rest t))
  | .map k t => MapTextOf E html k (EncodesStep E html rest t)
  | .jsonUnmarshaler i => if E.recv i = .value then JsonText (E.marshalJSON i) else rest (.jsonUnmarshaler i)
  | .textUnmarshaler i => if E.recv i = .value then MethodText html (E.marshalText i) else rest (.textUnmarshaler i)
  | .unsupported => fun _ _ _ => False
  | .named i => rest (.named i)

def EncodesN (Γ : TyEnv F) (E : EncEnv F) (html : Bool) : Nat → Ty → TextRel' F
  | 0, _ => fun _ _ _ => False
  | n + 1, .named i =>
    match Γ.defn i with
    | .slice t => SliceTextOf E html t (EncodesStep E html (EncodesN Γ E html n) t)
    | .array k t => ArrayText k (Preferred E html t (EncodesStep E html (EncodesN Γ E html n) t))
    | .map k t => MapTextOf E html k (EncodesStep E html (EncodesN Γ E html n) t)
    | .struct _ =>
      StructText html (EmptyHere Γ E) (fun t => Preferred E html t (EncodesStep E html (EncodesN Γ E html n) t)) (E.fields i)
  | n + 1, .jsonUnmarshaler i => EncodesStep E html (EncodesN Γ E html n) (E.under i)
  | n + 1, .textUnmarshaler i => EncodesStep E html (EncodesN Γ E html n) (E.under i)
  | n + 1, t => EncodesStep E html (EncodesN Γ E html n) t

/-- The value `v` of type `T`, with the option `string` or not, may be written as `t`. -/
def Encodes (Γ : TyEnv F) (E : EncEnv F) (html : Bool) (T : Ty) (q : Bool) (v : Val F) (t : List Byte) : Prop :=
  ∃ n, EncodesStep E html (EncodesN Γ E html n) T q v t

/-- What is assumed about the parameters: a map is visited entry by entry, the fields of a struct are inside of
it, base64 texts have no quotation marks, reverse solidi or control characters, and `strconv` formats numbers. -/
structure EncLaws (E : EncEnv F) : Prop where
  entries : ∀ m keys, E.entries m = some keys → keys.Nodup ∧ ∀ k, k ∈ keys ↔ (m k).isSome
  finite : ∀ m, (∃ keys : List Key, ∀ k, (m k).isSome → k ∈ keys) → E.entries m ≠ none
  shuffle : ∀ s keys, (E.shuffle s keys).Perm keys
  base64 : ∀ l, ∀ c ∈ E.base64 l, 0x20 ≤ c ∧ c ≠ 0x22 ∧ c ≠ 0x5C
  paths : ∀ i, ∀ f ∈ E.fields i, ∃ k p, f.path = .member k :: p
  float32 : ∀ f, (E.float32 f).isInf = false → (E.float32 f).isNaN = false → ∃ small big, FloatLaws (E.float32 f) small big
  float64 : ∀ f, (E.float64 f).isInf = false → (E.float64 f).isNaN = false → ∃ small big, FloatLaws (E.float64 f) small big

/-! ## Ready-made texts -/

/-- The numbers (`json.Number`) in an `interface{}` have the property `N`. -/
inductive NumbersAny (N : List Byte → Prop) : GoVal F → Prop
  | nil : NumbersAny N .nil
  | bool (b : Bool) : NumbersAny N (.bool b)
  | number (l : List Byte) (h : N l) : NumbersAny N (.number l)
  | float (f : F) : NumbersAny N (.float f)
  | str (s : List Byte) : NumbersAny N (.str s)
  | arr (l : List (GoVal F)) (h : ∀ g ∈ l, NumbersAny N g) : NumbersAny N (.arr l)
  | obj (m : List Byte → Option (GoVal F)) (h : ∀ k g, m k = some g → NumbersAny N g) : NumbersAny N (.obj m)

/-- What is in the value and written as it is: every `json.RawMessage` and every result of a method `MarshalJSON` has the
property `V`, every `json.Number` the property `N`. -/
inductive ReadyMade (V N : List Byte → Prop) (Γ : TyEnv F) (E : EncEnv F) : Ty → Val F → Prop
  | bool (v : Val F) : ReadyMade V N Γ E .bool v
  | str (v : Val F) : ReadyMade V N Γ E .str v
  | int (w : Width) (v : Val F) : ReadyMade V N Γ E (.int w) v
  | uint (w : Width) (v : Val F) : ReadyMade V N Γ E (.uint w) v
  | float32 (v : Val F) : ReadyMade V N Γ E .float32 v
  | float64 (v : Val F) : ReadyMade V N Γ E .float64 v
  | number (s : List Byte) (h : N s) : ReadyMade V N Γ E .number (.str s)
  | raw (s : List Byte) (h : V s) : ReadyMade V N Γ E .raw (.str s)
  | any (g : GoVal F) (h : NumbersAny N g) : ReadyMade V N Γ E .any (.any g)
  | nilPtr (T : Ty) : ReadyMade V N Γ E (.ptr T) .nilPtr
  | ptr (T : Ty) (v : Val F) (h : ReadyMade V N Γ E T v) : ReadyMade V N Γ E (.ptr T) (.ptr v)
  | nilSlice (T U : Ty) (hT : Is Γ T (.slice U)) : ReadyMade V N Γ E T .nilSlice
  | slice (T U : Ty) (vs : List (Val F)) (hT : Is Γ T (.slice U)) (h : ∀ v ∈ vs, ReadyMade V N Γ E U v) : ReadyMade V N Γ E T (.slice vs)
  | arr (T U : Ty) (n : Nat) (vs : List (Val F)) (hT : Is Γ T (.array n U)) (h : ∀ v ∈ vs, ReadyMade V N Γ E U v) : ReadyMade V N Γ E T (.arr vs)
  | nilMap (T U : Ty) (K : KeyTy) (hT : Is Γ T (.map K U)) : ReadyMade V N Γ E T .nilMap
  | map (T U : Ty) (K : KeyTy) (m : Key → Option (Val F)) (hT : Is Γ T (.map K U)) (h : ∀ k v, m k = some v → ReadyMade V N Γ E U v) :
      ReadyMade V N Γ E T (.map m)
  | struct (i : Nat) (fs : List Jzon.Field) (v : Val F) (hT : Γ.defn i = .struct fs)
      (h : ∀ f ∈ E.fields i, ∀ x, Reaches f.path v x → ReadyMade V N Γ E f.ty x) : ReadyMade V N Γ E (.named i) v
  | json (i : Nat) (v : Val F) (h : ∀ t, E.marshalJSON i v = .ok t → V t)
      (hp : E.recv i = .pointer → ReadyMade V N Γ E (E.under i) v) : ReadyMade V N Γ E (.jsonUnmarshaler i) v
  | text (i : Nat) (v : Val F) (hp : E.recv i = .pointer → ReadyMade V N Γ E (E.under i) v) : ReadyMade V N Γ E (.textUnmarshaler i) v

/-- The text of a number that has been filled in or not. -/
def NumberOrEmpty (s : List Byte) : Prop := s = [] ∨ Number s

/-- Everything in the value that is written as it is, is JSON: every `json.RawMessage` and every result of a method
`MarshalJSON` is a JSON value, every `json.Number` a number or empty. -/
abbrev Clean (Γ : TyEnv F) (E : EncEnv F) : Ty → Val F → Prop := ReadyMade IsValue NumberOrEmpty Γ E

/-- A set of types of which no value contains a ready-made text: no `json.RawMessage`, `json.Number`, `interface{}` or type
with a method `MarshalJSON`. -/
structure NoReadyMade (Γ : TyEnv F) (E : EncEnv F) (P : Ty → Prop) : Prop where
  raw : ¬ P .raw
  number : ¬ P .number
  any : ¬ P .any
  json : ∀ i, ¬ P (.jsonUnmarshaler i)
  ptr : ∀ T, P (.ptr T) → P T
  slice : ∀ T U, Is Γ T (.slice U) → P T → P U
  array : ∀ T U n, Is Γ T (.array n U) → P T → P U
  map : ∀ T U K, Is Γ T (.map K U) → P T → P U
  field : ∀ i fs, Γ.defn i = .struct fs → P (.named i) → ∀ f ∈ E.fields i, P f.ty
  under : ∀ i, P (.textUnmarshaler i) → P (E.under i)

/-- How a field of type `T` with value `v` is written. -/
def FieldEncodes (Γ : TyEnv F) (E : EncEnv F) (html : Bool) (T : Ty) : TextRel' F := fun q v t =>
  ∃ n, Preferred E html T (EncodesStep E html (EncodesN Γ E html n) T) q v t

/-- The types for which `omitempty` is documented: no types with own methods, no structs without fields,
no maps that cannot be written. -/
def Ordinary (Γ : TyEnv F) (E : EncEnv F) : Ty → Prop
  | .jsonUnmarshaler _ | .textUnmarshaler _ | .unsupported => False
  | .named i => (∀ fs, Γ.defn i = .struct fs → E.fields i ≠ []) ∧ ∀ K U, Γ.defn i = .map K U → KeysKnown E K
  | .map K _ => KeysKnown E K
  | _ => True

end

end Spec
