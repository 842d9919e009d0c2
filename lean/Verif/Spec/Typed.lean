import Verif.Model.Typed
import Verif.Spec.Container
import Verif.Spec.Float
import Verif.Spec.Fold
import Verif.Spec.GoValue
import Verif.Spec.Int

/-!
# Specification: the values a JSON text may give to a Go variable

For every type a relation between the old value of the variable, the text, and the new value.  Nothing here refers to
the order in which the text is read.  The types and values are those of `Verif.Model.Typed`.
-/

namespace Spec

open Jzon (Byte Err FloatOps GoVal Val Key Ty KeyTy Width PathStep Field Def TyEnv DecCfg DecOpts)

/-! ## Arrays and objects as lists of texts -/

/-- Texts separated by commas, with white space around them. -/
inductive Items : List Byte → List (List Byte) → Prop
  | one (w1 t w2 : List Byte) (h1 : Ws w1) (h2 : Ws w2) : Items (w1 ++ (t ++ w2)) [t]
  | cons (w1 t w2 b : List Byte) (ts : List (List Byte)) (h1 : Ws w1) (h2 : Ws w2) (hb : Items b ts) :
      Items (w1 ++ (t ++ (w2 ++ 0x2C :: b))) (t :: ts)

/-- Items between brackets. -/
inductive Enclosed (opening closing : Byte) : List Byte → List (List Byte) → Prop
  | empty (w : List Byte) (hw : Ws w) : Enclosed opening closing (opening :: (w ++ [closing])) []
  | items (b : List Byte) (ts : List (List Byte)) (h : Items b ts) : Enclosed opening closing (opening :: (b ++ [closing])) ts

/-- An array with the texts of its elements. -/
def ArrayOf : List Byte → List (List Byte) → Prop := Enclosed 0x5B 0x5D

/-- A member with the texts of its key and its value. -/
def MemberOf (t : List Byte) (m : List Byte × List Byte) : Prop :=
  ∃ w1 w2, Ws w1 ∧ Ws w2 ∧ t = m.1 ++ (w1 ++ 0x3A :: (w2 ++ m.2))

/-- An object with the texts of its members. -/
def ObjectOf (t : List Byte) (ms : List (List Byte × List Byte)) : Prop :=
  ∃ ts, Enclosed 0x7B 0x7D t ts ∧ Each MemberOf ts ms

/-- `t` is a JSON value. -/
def IsValue (t : List Byte) : Prop := ∃ v, Value t v

def nullText : List Byte := [0x6E, 0x75, 0x6C, 0x6C]
def trueText : List Byte := [0x74, 0x72, 0x75, 0x65]
def falseText : List Byte := [0x66, 0x61, 0x6C, 0x73, 0x65]

/-- `t` between quotation marks. -/
def inQuotes (t : List Byte) : List Byte := 0x22 :: (t ++ [0x22])

/-! ## Types -/

section
variable {F : Type}

/-- For given options, old value and text: the new values. -/
abbrev Rel (F : Type) := DecOpts → Val F → List Byte → Val F → Prop

/-- `true`, `false`, or `null`, which changes nothing. -/
def BoolLit (old : Val F) (t : List Byte) (v : Val F) : Prop :=
  (t = nullText ∧ v = old) ∨ (t = trueText ∧ v = .bool true) ∨ (t = falseText ∧ v = .bool false)

/-- A literal, or, with the option `string`, a literal in quotation marks.  If `lax`, white space may follow the first
quotation mark. -/
def BoolRel (lax : Bool) : Rel F := fun o old t v =>
  BoolLit old t v ∨
    (o.quoted = true ∧ ∃ w u, (w = [] ∨ (lax = true ∧ Ws w)) ∧ t = inQuotes (w ++ u) ∧ BoolLit old u v)

/-- A string; with the option `string`, a string whose content is a string literal or `null`. -/
def StrRel : Rel F := fun o old t v =>
  (t = nullText ∧ v = old) ∨
    ∃ s, Str t s ∧
      (if o.quoted then (s = nullText ∧ v = old) ∨ (∃ s', Str s s' ∧ v = .str s')
       else v = .str s)

/-- The literals of the signed type of `w` bits. -/
def IntLit (w : Nat) (t : List Byte) (z : Int) : Prop := ∃ ds, Signed t ds z ∧ IntPart ds ∧ Fits w z

/-- The literals of the unsigned type of `w` bits. -/
def UintLit (w : Nat) (t : List Byte) (z : Int) : Prop := IntPart t ∧ dec t < 2 ^ w ∧ z = dec t

/-- An integer literal, in quotation marks if it is a map key or with the option `string`. -/
def IntRel (lit : List Byte → Int → Prop) : Rel F := fun o old t v =>
  (t = nullText ∧ v = old) ∨
    ∃ u z, lit u z ∧ v = .int z ∧ t = if o.quoted || o.mapKey then inQuotes u else u

/-- A number that is not out of range. -/
def FloatRel (ops : FloatOps F) : Rel F := fun _ old t v =>
  (t = nullText ∧ v = old) ∨ ∃ f, Number t ∧ literal ops t = .ok f ∧ v = .float f

/-- A number, or a number in quotation marks. -/
def NumberRel : Rel F := fun _ old t v =>
  (t = nullText ∧ v = old) ∨ ∃ u, Number u ∧ (t = u ∨ t = inQuotes u) ∧ v = .str u

/-- Any value. -/
def RawRel : Rel F := fun _ _ t v => IsValue t ∧ v = .str t

/-- The value of a number in an `interface{}`. -/
def anyNumber (cfg : DecCfg F) (t : List Byte) : Option (GoVal F) :=
  if cfg.useNumber then some (.number t)
  else match literal cfg.ops64 t with
    | .ok f => some (.float f)
    | .error _ => none

/-- Any value with numbers in range. -/
def AnyRel (cfg : DecCfg F) : Rel F := fun _ _ t v => ∃ j g, Value t j ∧ toGo (anyNumber cfg) j = some g ∧ v = .any g

/-- What a pointer points to; `zero` if it is nil. -/
def pointee (zero old : Val F) : Val F :=
  match old with
  | .ptr v => v
  | _ => zero

/-- `null` makes a pointer nil; other values go to the variable it points to. -/
def PtrRel (zero : Val F) (R : Rel F) : Rel F := fun o old t v =>
  (t = nullText ∧ v = .nilPtr) ∨ (t ≠ nullText ∧ ∃ x, R o (pointee zero old) t x ∧ v = .ptr x)

/-- `null`, a new slice with one element for every element of the array, or, for bytes, a string in base64. -/
def SliceRel (base64 : List Byte → Except Err (List Byte)) (isByte : Bool) (zero : Val F) (R : Rel F) : Rel F := fun _ _ t v =>
  (t = nullText ∧ v = .nilSlice) ∨
  (isByte = true ∧ ∃ b s data, StrBody b s ∧ t = inQuotes b ∧ base64 b = .ok data ∧ v = .slice (data.map fun c => .int c.toNat)) ∨
  (∃ ts vs, ArrayOf t ts ∧ Each (R {} zero) ts vs ∧ v = .slice vs)

/-- The element `i` of an array variable. -/
def element (zero old : Val F) (i : Nat) : Val F :=
  match old with
  | .arr vs => (vs[i]?).getD zero
  | _ => zero

/-- `null`, or an array: its elements go to the elements of the variable as far as there are any, further elements of
the variable become zero, further elements of the text must be values. -/
def ArrayRel (n : Nat) (zero : Val F) (R : Rel F) : Rel F := fun _ old t v =>
  (t = nullText ∧ v = old) ∨
  (∃ ts vs, ArrayOf t ts ∧ v = .arr vs ∧ vs.length = n ∧
    (∀ i u, ts[i]? = some u → n ≤ i → IsValue u) ∧
    (∀ i u x, ts[i]? = some u → vs[i]? = some x → R {} (element zero old i) u x) ∧
    (∀ i x, ts.length ≤ i → vs[i]? = some x → x = zero))

/-- The entries of a map variable. -/
def entries (old : Val F) : Key → Option (Val F) :=
  match old with
  | .map m => m
  | _ => fun _ => none

/-- The entries of a map after the given ones have been put into it: the last one with a key counts. -/
def putAll (m : Key → Option (Val F)) (xs : List (Key × Val F)) : Key → Option (Val F) := fun k =>
  match xs.reverse.find? fun x => x.1 == k with
  | some x => some x.2
  | none => m k

/-- The key that a value is; values of comparable types are strings, integers or others. -/
def keyValue : Val F → Key
  | .str s => .str s
  | .int z => .int z
  | .other n => .other n
  | _ => .int 0

/-- The texts of the keys of a map type.  A method `UnmarshalText` gets the content of the string, and a new variable.  If `lax`,
`null` is a key: the zero value. -/
def KeyRel (Γ : TyEnv F) (lax : Bool) : KeyTy → List Byte → Key → Prop
  | .str, t, k => (∃ s, Str t s ∧ k = .str s) ∨ (lax = true ∧ t = nullText ∧ k = .str [])
  | .int w, t, k => (∃ u z, IntLit w.bits u z ∧ t = inQuotes u ∧ k = .int z) ∨ (lax = true ∧ t = nullText ∧ k = .int 0)
  | .uint w, t, k => (∃ u z, UintLit w.bits u z ∧ t = inQuotes u ∧ k = .int z) ∨ (lax = true ∧ t = nullText ∧ k = .int 0)
  | .text i, t, k => (∃ s x, Str t s ∧ Γ.unmarshalText i (Γ.zeroOther i) s = .ok x ∧ k = keyValue x) ∨
      (lax = true ∧ t = nullText ∧ k = keyValue (Γ.zeroOther i))

/-- `null` makes a map nil; the members of an object are put into the map, which keeps its other entries. -/
def MapRel (K : List Byte → Key → Prop) (zero : Val F) (R : Rel F) : Rel F := fun _ old t v =>
  (t = nullText ∧ v = .nilMap) ∨
  (∃ ms xs, ObjectOf t ms ∧ Each (fun m x => K m.1 x.1 ∧ R {} zero m.2 x.2) ms xs ∧ v = .map (putAll (entries old) xs))

/-- `G` changes the field at the end of the path and nothing else, except that nil pointers to embedded structs on the
path are replaced by pointers to zero values if the types of the structs are exported. -/
inductive AtPath (zero : Ty → Val F) (G : Val F → Val F → Prop) : List PathStep → Val F → Val F → Prop
  | here (a b : Val F) (h : G a b) : AtPath zero G [] a b
  | member (i : Nat) (p : List PathStep) (vs : List (Val F)) (a b : Val F) (hi : vs[i]? = some a) (h : AtPath zero G p a b) :
      AtPath zero G (.member i :: p) (.struct vs) (.struct (vs.set i b))
  | deref (e : Bool) (t : Ty) (p : List PathStep) (a b : Val F) (h : AtPath zero G p a b) :
      AtPath zero G (.deref e t :: p) (.ptr a) (.ptr b)
  | alloc (t : Ty) (p : List PathStep) (b : Val F) (h : AtPath zero G p (zero t) b) :
      AtPath zero G (.deref true t :: p) .nilPtr (.ptr b)

/-- One member of an object and a struct variable: it goes to the field its key selects; if there is none, nothing
changes, but this may be forbidden. -/
def MemberRel (strict : Bool) (zero : Ty → Val F) (sel : List Byte → Nat → Prop) (fs : List Field) (R : Ty → Rel F)
    (s : Val F) (m : List Byte × List Byte) (s' : Val F) : Prop :=
  ∃ key, Str m.1 key ∧
    ((∃ i f, sel key i ∧ fs[i]? = some f ∧ AtPath zero (fun a b => R f.ty { quoted := f.quoted } a m.2 b) f.path s s') ∨
     ((∀ i, ¬ sel key i) ∧ strict = false ∧ IsValue m.2 ∧ s' = s))

/-- `null`, or an object, whose members are taken one after the other. -/
def StructRel (strict : Bool) (zero : Ty → Val F) (sel : List Byte → Nat → Prop) (fs : List Field) (R : Ty → Rel F) : Rel F :=
  fun _ old t v =>
  (t = nullText ∧ v = old) ∨ (∃ ms, ObjectOf t ms ∧ Visits (MemberRel strict zero sel fs R) old ms v)

/-- A type with a method `UnmarshalJSON`: it gets the text. -/
def JsonRel (f : Val F → List Byte → Except Err (Val F)) : Rel F := fun _ old t v => IsValue t ∧ f old t = .ok v

/-- A type with a method `UnmarshalText`: it gets the content of a string. -/
def TextRel (f : Val F → List Byte → Except Err (Val F)) : Rel F := fun _ old t v =>
  (t = nullText ∧ v = old) ∨ ∃ s, Str t s ∧ f old s = .ok v

/-- The relation of a type, with names unfolded at most as often as the first number says.  `sel names key i`: the key
selects the field `i` of a struct whose fields have these names. -/
def DecodesN (Γ : TyEnv F) (cfg : DecCfg F) (lax : Bool) (sel : List (List Byte) → List Byte → Nat → Prop) : Nat → Ty → Rel F
  | _, .bool => BoolRel lax
  | _, .str => StrRel
  | _, .int w => IntRel (IntLit w.bits)
  | _, .uint w => IntRel (UintLit w.bits)
  | _, .float32 => FloatRel cfg.ops32
  | _, .float64 => FloatRel cfg.ops64
  | _, .number => NumberRel
  | _, .raw => RawRel
  | _, .any => AnyRel cfg
  | n, .ptr t => PtrRel (Γ.zero cfg t) (DecodesN Γ cfg lax sel n t)
  | n, .slice t => SliceRel cfg.base64 (t == .uint .w8) (Γ.zero cfg t) (DecodesN Γ cfg lax sel n t)
  | n, .array k t => ArrayRel k (Γ.zero cfg t) (DecodesN Γ cfg lax sel n t)
  | n, .map k t => MapRel (KeyRel Γ lax k) (Γ.zero cfg t) (DecodesN Γ cfg lax sel n t)
  | _, .jsonUnmarshaler i => JsonRel (Γ.unmarshalJSON i)
  | _, .textUnmarshaler i => TextRel (Γ.unmarshalText i)
  | _, .unsupported => fun _ _ _ _ => False
  | 0, .named _ => fun _ _ _ _ => False
  | n + 1, .named i =>
    match Γ.defn i with
    | .slice t => SliceRel cfg.base64 (t == .uint .w8) (Γ.zero cfg t) (DecodesN Γ cfg lax sel n t)
    | .array k t => ArrayRel k (Γ.zero cfg t) (DecodesN Γ cfg lax sel n t)
    | .map k t => MapRel (KeyRel Γ lax k) (Γ.zero cfg t) (DecodesN Γ cfg lax sel n t)
    | .struct fs =>
      StructRel cfg.disallowUnknownFields (Γ.zero cfg) (sel (fs.map Field.name)) fs (DecodesN Γ cfg lax sel n)

/-- The text `t` may change a variable of type `T` from `old` to `v`. -/
def Decodes (Γ : TyEnv F) (cfg : DecCfg F) (lax : Bool) (sel : List (List Byte) → List Byte → Nat → Prop) (T : Ty)
    (old : Val F) (t : List Byte) (v : Val F) : Prop :=
  ∃ n, DecodesN Γ cfg lax sel n T {} old t v

/-- A type with the given definition: the type itself or a name of it. -/
inductive Is (Γ : TyEnv F) : Ty → Def → Prop
  | slice (t : Ty) : Is Γ (.slice t) (.slice t)
  | array (n : Nat) (t : Ty) : Is Γ (.array n t) (.array n t)
  | map (k : KeyTy) (t : Ty) : Is Γ (.map k t) (.map k t)
  | named (i : Nat) (d : Def) (h : Γ.defn i = d) : Is Γ (.named i) d

end

/-- A text with the property `P` and white space around it. -/
def Around (P : List Byte → Prop) (data : List Byte) : Prop := ∃ w t w2, Ws w ∧ Ws w2 ∧ data = w ++ (t ++ w2) ∧ P t

end Spec
