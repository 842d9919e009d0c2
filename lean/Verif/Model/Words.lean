import Verif.Model.Prog

/-!
# Encoders on memory

The encoders of `/repo/val_encoder*.go` as they are: functions on an untyped pointer, which read memory the way their type
says.  There are two caches (`/repo/encoder_config.go:44-50`).  An encoder of the internal cache is given a pointer to a
variable of its type; an encoder of the root cache is given the data word of an `interface{}`, which for some types is the
value itself (`ifaceIndir`).

Memory is a set of cells at addresses; a cell holds a pointer, a basic value, a slice header, an interface value or the
content of a map.  (String headers and slice headers are one cell each.)  A read of a cell that does not exist or that
holds something else than the encoder takes it for is the end of the run: there is no rule for it.

What is written is kept as a tree `Out`: the bytes for it are the matter of `Verif.Model.Marshal` and `Verif.Model.Streamer`.
An encoder that reports an error or panics ends the call; here it leaves a mark in the tree and the encoders after it run
nevertheless.  Not in this model: errors of the methods of the user.  A run that does not end has no output (see C57).
-/

namespace Jzon.Words

/-- Kinds of basic types; `int` stands for the integer kinds other than `uint8`. -/
inductive Prim where
  | bool | string | int | uint8 | float
  deriving DecidableEq, Repr

/-- Types.  What stands behind the number of a defined type, a struct type or an interface type is told by `Types`. -/
inductive RTy where
  | prim (k : Prim)
  | ptr (t : RTy)
  | slice (t : RTy)
  | array (n : Nat) (t : RTy)
  | map (k t : RTy)
  | struct (i : Nat)
  | iface (i : Nat)
  | named (i : Nat)
  /-- function and channel types -/
  | func
  deriving DecidableEq, Repr

/-- The types with an encoder of their own, `/repo/val_encoder.go:45-49`. -/
inductive Special where
  | number | raw | jsonMarshaler | textMarshaler
  deriving DecidableEq, Repr

/-- One entry of the result of `describeStruct`, `/repo/struct.go:13-300`: the name and the index sequence of the field.  (Names
and which fields there are: `Verif.Model.Struct`.) -/
structure Described where
  name : Nat
  path : List Nat
  /-- the option `omitempty` -/
  omitEmpty : Bool := false
  /-- the option `string` -/
  quoted : Bool := false
  deriving DecidableEq, Repr

/-- Values, as the language has them. -/
inductive DVal where
  | prim (n : Nat)
  /-- the nil pointer, slice, map or interface -/
  | nil
  /-- a pointer to a variable with this content -/
  | ref (v : DVal)
  /-- the elements of a slice or of an array, the fields of a struct -/
  | list (vs : List DVal)
  | map (es : List (DVal × DVal))
  /-- an interface value with its dynamic type -/
  | box (t : RTy) (v : DVal)
  /-- a function or a channel -/
  | func

/-- What reflection tells about the types of a program. -/
structure Types where
  /-- the underlying type of a defined type -/
  under : Nat → RTy
  /-- the field types of a struct type -/
  fields : Nat → List RTy
  /-- `StructField.Offset` -/
  offset : Nat → Nat → Nat
  /-- `Type.Size()` -/
  size : RTy → Nat
  /-- the negation of `ifaceIndir`: a value of the type is a pointer, which is stored itself in the data word of an interface -/
  direct : RTy → Bool
  /-- `typ.Implements(jsonMarshalerType)` -/
  json : RTy → Bool
  /-- `typ.Implements(textMarshalerType)` -/
  text : RTy → Bool
  /-- `NumMethod() != 0`, for interface types -/
  methods : Nat → Bool
  /-- `typ.Implements` of the interface type with this number -/
  implements : Nat → RTy → Bool
  /-- the types of the values that the program stores in interfaces, and the types that these are made of -/
  used : RTy → Prop
  /-- the keys of `globalValEncoders` -/
  special : RTy → Option Special
  /-- the keys of `ValEncoders` in the option -/
  custom : RTy → Bool
  /-- the described fields of a struct type -/
  described : RTy → List Described
  /-- the basic values that are `false`, `0` or `""` -/
  zero : Prim → Nat → Bool
  /-- `IsEmpty` of an encoder of the user, given a pointer to a variable with this content -/
  customEmpty : RTy → DVal → Bool

/-- What decides on `Kind()`: the type without its name. -/
def Types.core (Γ : Types) : RTy → RTy
  | .named i => Γ.under i
  | t => t

/-- `Kind() == reflect.Interface`. -/
def Types.isIface (Γ : Types) (t : RTy) : Bool :=
  match Γ.core t with
  | .iface _ => true
  | _ => false

/-- Addresses. -/
abbrev Addr := Nat

/-- A pointer word: `none` is nil. -/
abbrev Ptr := Option Addr

/-- What a cell of memory holds. -/
inductive Cell where
  | ptr (w : Ptr)
  | prim (k : Prim) (n : Nat)
  /-- `sliceHeader`; the capacity does not matter here -/
  | slice (data : Ptr) (len : Nat)
  /-- `eface`, `/repo/eface.go:10-13`: the type word and the data word -/
  | eface (x : Option (RTy × Ptr))
  /-- `iface`, `/repo/iface.go:7-15`: the type in the method table and the data word -/
  | iface (x : Option (RTy × Ptr))
  /-- the content of a map: the addresses of keys and elements, in the order in which an iteration meets them -/
  | map (entries : List (Addr × Addr))

/-- Memory. -/
abbrev Memory := Addr → Option Cell

/-- A new variable. -/
def Memory.add (m : Memory) (a : Addr) (c : Cell) : Memory := fun b => if b = a then some c else m b

mutual
/-- The variable of type `t` at the address `a` has the content `v`. -/
inductive Holds (Γ : Types) (m : Memory) : RTy → Addr → DVal → Prop
  | prim {a k n} : m a = some (.prim k n) → Holds Γ m (.prim k) a (.prim n)
  | nilPtr {a t} : m a = some (.ptr none) → Holds Γ m (.ptr t) a .nil
  | ptr {a t b v} : m a = some (.ptr (some b)) → Holds Γ m t b v → Holds Γ m (.ptr t) a (.ref v)
  | nilSlice {a t} : m a = some (.slice none 0) → Holds Γ m (.slice t) a .nil
  | slice {a t b n vs} : m a = some (.slice (some b) n) → HoldElems Γ m t b n vs → Holds Γ m (.slice t) a (.list vs)
  | array {a t n vs} : HoldElems Γ m t a n vs → Holds Γ m (.array n t) a (.list vs)
  | struct {a i vs} : HoldFields Γ m i a 0 (Γ.fields i) vs → Holds Γ m (.struct i) a (.list vs)
  | nilMap {a k t} : m a = some (.ptr none) → Holds Γ m (.map k t) a .nil
  | map {a k t b es vs} : m a = some (.ptr (some b)) → m b = some (.map es) → HoldEntries Γ m k t es vs →
      Holds Γ m (.map k t) a (.map vs)
  | nilEface {a i} : Γ.methods i = false → m a = some (.eface none) → Holds Γ m (.iface i) a .nil
  | eface {a i t w v} : Γ.methods i = false → m a = some (.eface (some (t, w))) → Γ.used t → Boxed Γ m t w v →
      Holds Γ m (.iface i) a (.box t v)
  | nilIface {a i} : Γ.methods i = true → m a = some (.iface none) → Holds Γ m (.iface i) a .nil
  | iface {a i t w v} : Γ.methods i = true → m a = some (.iface (some (t, w))) → Γ.used t → Γ.implements i t = true →
      Boxed Γ m t w v →
      Holds Γ m (.iface i) a (.box t v)
  | named {a i v} : Holds Γ m (Γ.under i) a v → Holds Γ m (.named i) a v
  | func {a w} : m a = some (.ptr w) → Holds Γ m .func a .func
/-- `n` variables of type `t` in a row. -/
inductive HoldElems (Γ : Types) (m : Memory) : RTy → Addr → Nat → List DVal → Prop
  | nil {t a} : HoldElems Γ m t a 0 []
  | cons {t a n v vs} : Holds Γ m t a v → HoldElems Γ m t (a + Γ.size t) n vs → HoldElems Γ m t a (n + 1) (v :: vs)
/-- The fields from number `j` on of a struct. -/
inductive HoldFields (Γ : Types) (m : Memory) : Nat → Addr → Nat → List RTy → List DVal → Prop
  | nil {i a j} : HoldFields Γ m i a j [] []
  | cons {i a j t ts v vs} : Holds Γ m t (a + Γ.offset i j) v → HoldFields Γ m i a (j + 1) ts vs →
      HoldFields Γ m i a j (t :: ts) (v :: vs)
/-- The entries of a map. -/
inductive HoldEntries (Γ : Types) (m : Memory) : RTy → RTy → List (Addr × Addr) → List (DVal × DVal) → Prop
  | nil {k t} : HoldEntries Γ m k t [] []
  | cons {k t a b v w es vs} : Holds Γ m k a v → Holds Γ m t b w → HoldEntries Γ m k t es vs →
      HoldEntries Γ m k t ((a, b) :: es) ((v, w) :: vs)
/-- `w` is the data word of an `interface{}` with the dynamic type `t` and the value `v`. -/
inductive Boxed (Γ : Types) (m : Memory) : RTy → Ptr → DVal → Prop
  | pointer {t a v} : Γ.isIface t = false → Γ.direct t = false → Holds Γ m t a v → Boxed Γ m t (some a) v
  | word {t w v} : Γ.isIface t = false → Γ.direct t = true → Direct Γ m t w v → Boxed Γ m t w v
/-- The word `w` is the value `v` of the type `t`. -/
inductive Direct (Γ : Types) (m : Memory) : RTy → Ptr → DVal → Prop
  | nilPtr {t} : Direct Γ m (.ptr t) none .nil
  | ptr {t b v} : Holds Γ m t b v → Direct Γ m (.ptr t) (some b) (.ref v)
  | nilMap {k t} : Direct Γ m (.map k t) none .nil
  | map {k t b es vs} : m b = some (.map es) → HoldEntries Γ m k t es vs → Direct Γ m (.map k t) (some b) (.map vs)
  | array {t w v} : Direct Γ m t w v → Direct Γ m (.array 1 t) w (.list [v])
  | struct {i t w v} : Γ.fields i = [t] → Γ.offset i 0 = 0 → Direct Γ m t w v → Direct Γ m (.struct i) w (.list [v])
  | named {i w v} : Direct Γ m (Γ.under i) w v → Direct Γ m (.named i) w v
  | func {w} : Direct Γ m .func w .func
end

/-- Encoders of map keys, `/repo/val_encoder_native_map.go:14-42`. -/
inductive KeyEnc where
  /-- `stringKeyEncoder`, `int8KeyEncoder` and so on -/
  | prim (k : Prim)
  /-- `textMarshalerKeyEncoder` -/
  | text (t : RTy)
  /-- `directTextMarshalerKeyEncoder` -/
  | directText (t : RTy)

/-- Encoders.  Where an encoder has a link to another encoder, the type for which the link was made stands here (which object
is behind a link: `Verif.Model.EncCache` and `Verif.Model.EncLinked`). -/
inductive Enc where
  /-- an encoder of the user for the type `t` -/
  | custom (t : RTy)
  | special (s : Special)
  /-- `jsonMarshalerEncoder`, `textMarshalerEncoder`, ... -/
  | jsonMarshaler (t : RTy)
  | directJSONMarshaler (t : RTy)
  | pointerJSONMarshaler (t : RTy)
  | textMarshaler (t : RTy)
  | directTextMarshaler (t : RTy)
  | pointerTextMarshaler (t : RTy)
  /-- `boolEncoder`, `stringEncoder`, `int8Encoder` and so on -/
  | prim (k : Prim)
  /-- `pointerEncoder` with the internal encoder of `t` -/
  | ptr (t : RTy)
  | emptyArray
  /-- `arrayEncoder` for `n` elements of type `t` -/
  | array (n : Nat) (t : RTy)
  | eface
  | iface
  | base64
  /-- `sliceEncoder` for elements of type `t` -/
  | slice (t : RTy)
  /-- `directMapEncoder` with elements of type `t` -/
  | map (k : KeyEnc) (t : RTy)
  | emptyStruct
  /-- `structEncoder` of the type `t` -/
  | struct (t : RTy)
  /-- `directEncoder` -/
  | direct (e : Enc)
  | notSupported

/-- The encoder of the keys of type `t`, `/repo/val_encoder_native_map.go:14-42` and `/repo/val_encoder.go:75-96`. -/
def Types.keyEnc (Γ : Types) (t : RTy) : Option KeyEnc :=
  if Γ.core t = .prim .string then some (.prim .string)
  else if Γ.text t then some (if Γ.direct t then .directText t else .text t)
  else
    match Γ.core t with
    | .prim .int => some (.prim .int)
    | .prim .uint8 => some (.prim .uint8)
    | _ => none

/-- The steps of `createEncoderInternal` before the switch on the kind: the encoder of the internal cache,
`/repo/encoder_config.go:137-237`. -/
def Types.headEnc (Γ : Types) (t : RTy) : Option Enc :=
  if Γ.custom t then some (.custom t)
  else
    match Γ.special t with
    | some s => some (.special s)
    | none =>
      if Γ.json t then
        if Γ.direct t = false then some (.jsonMarshaler t)
        else
          match Γ.core t with
          | .ptr e => some (if Γ.json e then .ptr e else .pointerJSONMarshaler t)
          | _ => some (.directJSONMarshaler t)
      else if Γ.text t then
        if Γ.direct t = false then some (.textMarshaler t)
        else
          match Γ.core t with
          | .ptr e => some (if Γ.text e then .ptr e else .pointerTextMarshaler t)
          | _ => some (.directTextMarshaler t)
      else
        match Γ.core t with
        | .prim k => some (if Γ.custom (.prim k) then .custom (.prim k) else .prim k)
        | _ => none

/-- Whether the encoder of `*t` in the internal cache is a `pointerEncoder`. -/
def Types.plainPtr (Γ : Types) (t : RTy) : Bool :=
  match Γ.headEnc (.ptr t) with
  | none => true
  | some (.ptr _) => true
  | _ => false

/-- Whether slices with elements of type `t` are written in base64, `/repo/encoder_config.go:305-329`. -/
def Types.isBytes (Γ : Types) (t : RTy) : Bool :=
  Γ.core t = .prim .uint8 && Γ.plainPtr t &&
    match Γ.headEnc t with
    | some (.prim .uint8) => true
    | _ => false

/-- The switch on the kind: the encoder of the internal cache, `/repo/encoder_config.go:239-303`. -/
def Types.kindEnc (Γ : Types) (t : RTy) : Enc :=
  match Γ.core t with
  | .ptr e => .ptr e
  | .array n e => if n = 0 then .emptyArray else .array n e
  | .iface i => if Γ.methods i then .iface else .eface
  | .map k e =>
    match Γ.keyEnc k with
    | none => .notSupported
    | some ke => .map ke e
  | .slice e => if Γ.isBytes e then .base64 else .slice e
  | .struct _ => if Γ.described t = [] then .emptyStruct else .struct t
  | _ => .notSupported

/-- The encoder of the internal cache. -/
def Types.internalEnc (Γ : Types) (t : RTy) : Enc := (Γ.headEnc t).getD (Γ.kindEnc t)

/-- The encoder of the root cache: next to each encoder of the internal cache, `/repo/encoder_config.go:67-70`, `142-360`. -/
def Types.rootEnc (Γ : Types) (t : RTy) : Enc :=
  match Γ.internalEnc t with
  | .ptr e => Γ.internalEnc e
  | .directJSONMarshaler u => .direct (.directJSONMarshaler u)
  | .pointerJSONMarshaler u => .direct (.pointerJSONMarshaler u)
  | .directTextMarshaler u => .direct (.directTextMarshaler u)
  | .pointerTextMarshaler u => .direct (.pointerTextMarshaler u)
  | .map k e => .direct (.map k e)
  | .array n e => if Γ.direct t then .direct (.array n e) else .array n e
  | .struct u => if Γ.direct t then .direct (.struct u) else .struct u
  | e => e

/-- `preferPtrEncoder`, `/repo/encoder_config.go:33-41`: the encoder for elements and fields of type `t`. -/
def Types.elemEnc (Γ : Types) (t : RTy) : Enc :=
  match Γ.internalEnc (.ptr t) with
  | .ptr e => Γ.internalEnc e
  | e => .direct e

/-- What is written for a map key. -/
inductive KeyOut where
  | prim (k : Prim) (n : Nat)
  /-- the answer of `MarshalText` of the type `t`, called with the value `v` -/
  | text (t : RTy) (v : DVal)
  | empty
  | panic

/-- What is written. -/
inductive Out where
  | null
  /-- a basic value, with the option `string` or without -/
  | prim (q : Bool) (k : Prim) (n : Nat)
  /-- the text of a `json.Number` -/
  | number (n : Nat)
  /-- the bytes of a `json.RawMessage` -/
  | raw (bs : List Nat)
  | base64 (bs : List Nat)
  | arr (os : List Out)
  | obj (os : List (Nat × Out))
  | dict (os : List (KeyOut × Out))
  /-- the answer of `MarshalJSON` of the type `t`, called with the value `v` -/
  | json (t : RTy) (v : DVal)
  /-- the answer of `MarshalText` of the type `t`, called with the value `v` -/
  | text (t : RTy) (v : DVal)
  /-- what the encoder of the user for the type `t` writes, given a pointer to a variable with the content `v` -/
  | custom (q : Bool) (t : RTy) (v : DVal)
  /-- what the encoder of the user for the type `t` writes, given a nil pointer -/
  | customNil (q : Bool) (t : RTy)
  /-- `TypeNotSupportedError` -/
  | notSupported
  | panic

/-- The offsets of the field with the index sequence `path` of the struct type `t`, and its type: each pointer on the way begins a
new offset, `/repo/struct.go:110-113`, `197-207`. -/
def Types.offsets (Γ : Types) : RTy → List Nat → Option (List Nat × RTy)
  | _, [] => none
  | t, j :: js =>
    match Γ.core t with
    | .struct i =>
      match (Γ.fields i)[j]? with
      | none => none
      | some f =>
        if js = [] then some ([Γ.offset i j], f)
        else
          match f with
          | .ptr e => (Γ.offsets e js).map fun r => (Γ.offset i j :: r.1, r.2)
          | _ => (Γ.offsets f js).map fun r => ((Γ.offset i j + r.1.headD 0) :: r.1.tail, r.2)
    | _ => none

/-- The way to a field, `/repo/val_encoder_native_struct.go:78-89`, once the first offset has been added: `none` is a bad read,
`some none` an embedded nil pointer. -/
def locate (m : Memory) : Addr → List Nat → Option (Option Addr)
  | a, [] => some (some a)
  | a, o :: os =>
    match m a with
    | some (.ptr none) => some none
    | some (.ptr (some b)) => locate m (b + o) os
    | _ => none

/-- The bytes of a `[]byte`. -/
inductive ReadBytes (m : Memory) : Addr → Nat → List Nat → Prop
  | nil {a} : ReadBytes m a 0 []
  | cons {a n x xs} : m a = some (.prim .uint8 x) → ReadBytes m (a + 1) n xs → ReadBytes m a (n + 1) (x :: xs)

/-- `packEFace(t, w).(json.Marshaler)` and the call of its method: a type assertion panics for a type without the method and for
interface types, which are no dynamic types; otherwise the method finds the value that the interface holds,
`/repo/val_encoder_json_marshaler.go:30-32`. -/
inductive CallJSON (Γ : Types) (m : Memory) (t : RTy) (w : Ptr) : Out → Prop
  | panic : Γ.isIface t = true ∨ Γ.json t = false → CallJSON Γ m t w .panic
  | call {v} : Γ.isIface t = false → Γ.json t = true → Boxed Γ m t w v → CallJSON Γ m t w (.json t v)

/-- The same for `MarshalText`, `/repo/val_encoder_text_marshaler.go:30-32`. -/
inductive CallText (Γ : Types) (m : Memory) (t : RTy) (w : Ptr) : Out → Prop
  | panic : Γ.isIface t = true ∨ Γ.text t = false → CallText Γ m t w .panic
  | call {v} : Γ.isIface t = false → Γ.text t = true → Boxed Γ m t w v → CallText Γ m t w (.text t v)

/-- The same for keys, `/repo/val_encoder_native_map.go:60-76`. -/
inductive CallKey (Γ : Types) (m : Memory) (t : RTy) (w : Ptr) : KeyOut → Prop
  | panic : Γ.isIface t = true ∨ Γ.text t = false → CallKey Γ m t w .panic
  | call {v} : Γ.isIface t = false → Γ.text t = true → Boxed Γ m t w v → CallKey Γ m t w (.text t v)

/-- `Encode` of a key encoder, `/repo/val_encoder_native_map.go:57-243`. -/
inductive KeyRun (Γ : Types) (m : Memory) : KeyEnc → Addr → KeyOut → Prop
  | prim {a k n} : m a = some (.prim k n) → KeyRun Γ m (.prim k) a (.prim k n)
  | text {a t o} : CallKey Γ m t (some a) o → KeyRun Γ m (.text t) a o
  | directNil {a t} : m a = some (.ptr none) → KeyRun Γ m (.directText t) a .empty
  | direct {a t b o} : m a = some (.ptr (some b)) → CallKey Γ m t (some b) o → KeyRun Γ m (.directText t) a o

/-- The encoders that write `null` when their pointer is nil: the test at the beginning of each `Encode`.
`dynamicTextMarshalerEncoder` has no such test (`/repo/val_encoder_text_marshaler.go:112-127`), `directEncoder` and
`notSupportedEncoder` need none. -/
def Enc.testsNil : Enc → Bool
  | .custom _ | .special .textMarshaler | .direct _ | .notSupported => false
  | _ => true

/-- `isEmptyFunctions` of the kind of `t`, `/repo/is_empty.go:15-45`, called with a pointer: `none` is the panic of a call of a
function that is not there. -/
inductive KindEmpty (Γ : Types) (m : Memory) (t : RTy) (a : Addr) : Option Bool → Prop
  | prim {k n} : Γ.core t = .prim k → k ≠ .string → m a = some (.prim k n) → KindEmpty Γ m t a (some (Γ.zero k n))
  | array {n e} : Γ.core t = .array n e → KindEmpty Γ m t a (some false)
  | mapNil {k e} : Γ.core t = .map k e → m a = some (.ptr none) → KindEmpty Γ m t a (some true)
  | map {k e b es} : Γ.core t = .map k e → m a = some (.ptr (some b)) → m b = some (.map es) →
      KindEmpty Γ m t a (some es.isEmpty)
  | slice {e b n} : Γ.core t = .slice e → m a = some (.slice b n) → KindEmpty Γ m t a (some (n == 0))
  | struct {i} : Γ.core t = .struct i → KindEmpty Γ m t a (some false)
  | string : Γ.core t = .prim .string → KindEmpty Γ m t a none
  | ptr {e} : Γ.core t = .ptr e → KindEmpty Γ m t a none
  | iface {i} : Γ.core t = .iface i → KindEmpty Γ m t a none
  | func : Γ.core t = .func → KindEmpty Γ m t a none

/-- `enc.IsEmpty(a)`, `/repo/val_encoder*.go`; `none` is a panic. -/
inductive IsEmpty (Γ : Types) : Memory → Enc → Addr → Option Bool → Prop
  | custom {m t a v} : Holds Γ m t a v → IsEmpty Γ m (.custom t) a (some (Γ.customEmpty t v))
  /-- `/repo/val_encoder_json_number.go:10-12` -/
  | number {m a n} : m a = some (.prim .string n) → IsEmpty Γ m (.special .number) a (some (Γ.zero .string n))
  /-- `/repo/val_encoder_json_rawmessage.go:9-11` -/
  | raw {m a b n} : m a = some (.slice b n) → IsEmpty Γ m (.special .raw) a (some (n == 0))
  /-- `/repo/val_encoder_json_marshaler.go:98-100` -/
  | dynJSON {m a x} : m a = some (.iface x) → IsEmpty Γ m (.special .jsonMarshaler) a (some x.isNone)
  /-- `/repo/val_encoder_text_marshaler.go:98-100` -/
  | dynText {m a x} : m a = some (.iface x) → IsEmpty Γ m (.special .textMarshaler) a (some x.isNone)
  /-- `/repo/val_encoder_json_marshaler.go:18-20`, `45-47` -/
  | json {m t a r} : KindEmpty Γ m t a r → IsEmpty Γ m (.jsonMarshaler t) a r
  | directJSON {m t a r} : KindEmpty Γ m t a r → IsEmpty Γ m (.directJSONMarshaler t) a r
  /-- `/repo/val_encoder_json_marshaler.go:69-71` -/
  | pointerJSON {m t a w} : m a = some (.ptr w) → IsEmpty Γ m (.pointerJSONMarshaler t) a (some w.isNone)
  /-- `/repo/val_encoder_text_marshaler.go:18-20`, `45-47` -/
  | text {m t a r} : KindEmpty Γ m t a r → IsEmpty Γ m (.textMarshaler t) a r
  | directText {m t a r} : KindEmpty Γ m t a r → IsEmpty Γ m (.directTextMarshaler t) a r
  /-- `/repo/val_encoder_text_marshaler.go:69-71` -/
  | pointerText {m t a w} : m a = some (.ptr w) → IsEmpty Γ m (.pointerTextMarshaler t) a (some w.isNone)
  /-- `/repo/val_encoder_native*.go` -/
  | prim {m k a n} : m a = some (.prim k n) → IsEmpty Γ m (.prim k) a (some (Γ.zero k n))
  /-- `/repo/val_encoder_native_ptr.go:24-26` -/
  | ptr {m t a w} : m a = some (.ptr w) → IsEmpty Γ m (.ptr t) a (some w.isNone)
  /-- `/repo/val_encoder_native_array.go:11-13`, `47-49` -/
  | emptyArray {m a} : IsEmpty Γ m .emptyArray a (some true)
  | array {m n t a} : IsEmpty Γ m (.array n t) a (some false)
  /-- `/repo/val_encoder_native_interface.go:9-11`, `23-27` -/
  | eface {m a x} : m a = some (.eface x) → IsEmpty Γ m .eface a (some x.isNone)
  | iface {m a x} : m a = some (.iface x) → IsEmpty Γ m .iface a (some x.isNone)
  /-- `/repo/val_encoder_native_base64.go:10-12` -/
  | base64 {m a b n} : m a = some (.slice b n) → IsEmpty Γ m .base64 a (some (n == 0))
  /-- `/repo/val_encoder_native_slice.go:29-33` -/
  | slice {m t a b n} : m a = some (.slice b n) → IsEmpty Γ m (.slice t) a (some (n == 0))
  /-- `/repo/val_encoder_native_map.go:54-57` -/
  | mapNil {m k t a} : m a = some (.ptr none) → IsEmpty Γ m (.map k t) a (some true)
  | map {m k t a b es} : m a = some (.ptr (some b)) → m b = some (.map es) → IsEmpty Γ m (.map k t) a (some es.isEmpty)
  /-- `/repo/val_encoder_native_struct.go:64-66`, `122-124` -/
  | emptyStruct {m a} : IsEmpty Γ m .emptyStruct a (some true)
  | struct {m t a} : IsEmpty Γ m (.struct t) a (some false)
  /-- `/repo/val_encoder_direct.go:11-13`: the parameter is a new variable -/
  | direct {m e a b r} : m b = none → IsEmpty Γ (m.add b (.ptr (some a))) e b r → IsEmpty Γ m (.direct e) a r
  /-- `/repo/val_encoder.go:123-125` -/
  | notSupported {m a} : IsEmpty Γ m .notSupported a (some false)

mutual
/-- `enc.Encode(w)` with the option `q`, `/repo/val_encoder*.go`. -/
inductive Run (Γ : Types) : Memory → Bool → Enc → Ptr → Out → Prop
  | null {m q e} : e.testsNil = true → Run Γ m q e none .null
  | custom {m q t a v} : Holds Γ m t a v → Run Γ m q (.custom t) (some a) (.custom q t v)
  | customNil {m q t} : Run Γ m q (.custom t) none (.customNil q t)
  /-- `/repo/val_encoder_json_number.go:14-25` -/
  | number {m q a n} : m a = some (.prim .string n) → Run Γ m q (.special .number) (some a) (.number n)
  /-- `/repo/val_encoder_json_rawmessage.go:13-21` -/
  | rawNil {m q a n} : m a = some (.slice none n) → Run Γ m q (.special .raw) (some a) (.raw [])
  | raw {m q a b n bs} : m a = some (.slice (some b) n) → ReadBytes m b n bs → Run Γ m q (.special .raw) (some a) (.raw bs)
  /-- `/repo/val_encoder_json_marshaler.go:110-129` -/
  | dynJSONNil {m q a} : m a = some (.iface none) → Run Γ m q (.special .jsonMarshaler) (some a) .null
  | dynJSON {m q a t w o} : m a = some (.iface (some (t, w))) → CallJSON Γ m t w o →
      Run Γ m q (.special .jsonMarshaler) (some a) o
  /-- `/repo/val_encoder_text_marshaler.go:112-127`: without a test for nil -/
  | dynTextPanic {m q} : Run Γ m q (.special .textMarshaler) none .panic
  | dynTextNil {m q a} : m a = some (.iface none) → Run Γ m q (.special .textMarshaler) (some a) .null
  | dynText {m q a t w o} : m a = some (.iface (some (t, w))) → CallText Γ m t w o →
      Run Γ m q (.special .textMarshaler) (some a) o
  /-- `/repo/val_encoder_json_marshaler.go:21-38` -/
  | jsonMarshaler {m q t a o} : CallJSON Γ m t (some a) o → Run Γ m q (.jsonMarshaler t) (some a) o
  /-- `/repo/val_encoder_json_marshaler.go:49-66` -/
  | directJSONMarshaler {m q t a w o} : m a = some (.ptr w) → CallJSON Γ m t w o →
      Run Γ m q (.directJSONMarshaler t) (some a) o
  /-- `/repo/val_encoder_json_marshaler.go:74-96` -/
  | pointerJSONNil {m q t a} : m a = some (.ptr none) → Run Γ m q (.pointerJSONMarshaler t) (some a) .null
  | pointerJSON {m q t a b o} : m a = some (.ptr (some b)) → CallJSON Γ m t (some b) o →
      Run Γ m q (.pointerJSONMarshaler t) (some a) o
  /-- `/repo/val_encoder_text_marshaler.go:21-38` -/
  | textMarshaler {m q t a o} : CallText Γ m t (some a) o → Run Γ m q (.textMarshaler t) (some a) o
  /-- `/repo/val_encoder_text_marshaler.go:49-66` -/
  | directTextMarshaler {m q t a w o} : m a = some (.ptr w) → CallText Γ m t w o →
      Run Γ m q (.directTextMarshaler t) (some a) o
  /-- `/repo/val_encoder_text_marshaler.go:74-96` -/
  | pointerTextNil {m q t a} : m a = some (.ptr none) → Run Γ m q (.pointerTextMarshaler t) (some a) .null
  | pointerText {m q t a b o} : m a = some (.ptr (some b)) → CallText Γ m t (some b) o →
      Run Γ m q (.pointerTextMarshaler t) (some a) o
  /-- `/repo/val_encoder_native*.go` -/
  | prim {m q k a n} : m a = some (.prim k n) → Run Γ m q (.prim k) (some a) (.prim q k n)
  /-- `/repo/val_encoder_native_ptr.go:28-34` -/
  | ptr {m q t a w o} : m a = some (.ptr w) → Run Γ m q (Γ.internalEnc t) w o → Run Γ m q (.ptr t) (some a) o
  /-- `/repo/val_encoder_native_array.go:15-21` -/
  | emptyArray {m q a} : Run Γ m q .emptyArray (some a) (.arr [])
  /-- `/repo/val_encoder_native_array.go:57-77`; there is at least one element -/
  | array {m q n t a os} : RunElems Γ m (Γ.elemEnc t) (Γ.size t) a n os → Run Γ m q (.array n t) (some a) (.arr os)
  /-- `/repo/val_encoder_native_interface.go:13-19`, `/repo/streamer_val.go:8-24` -/
  | efaceNil {m q a} : m a = some (.eface none) → Run Γ m q .eface (some a) .null
  | eface {m q a t w o} : m a = some (.eface (some (t, w))) → Run Γ m q (Γ.rootEnc t) w o → Run Γ m q .eface (some a) o
  /-- `/repo/val_encoder_native_interface.go:29-36`, `/repo/iface.go:17-23`, `/repo/streamer_val.go:8-24` -/
  | ifaceNil {m q a} : m a = some (.iface none) → Run Γ m q .iface (some a) .null
  | iface {m q a t w o} : m a = some (.iface (some (t, w))) → Run Γ m q (Γ.rootEnc t) w o → Run Γ m q .iface (some a) o
  /-- `/repo/val_encoder_native_base64.go:14-38` -/
  | base64Nil {m q a n} : m a = some (.slice none n) → Run Γ m q .base64 (some a) .null
  | base64 {m q a b n bs} : m a = some (.slice (some b) n) → ReadBytes m b n bs → Run Γ m q .base64 (some a) (.base64 bs)
  /-- `/repo/val_encoder_native_slice.go:35-62` -/
  | sliceNil {m q t a n} : m a = some (.slice none n) → Run Γ m q (.slice t) (some a) .null
  | slice {m q t a b n os} : m a = some (.slice (some b) n) → RunElems Γ m (Γ.elemEnc t) (Γ.size t) b n os →
      Run Γ m q (.slice t) (some a) (.arr os)
  /-- `/repo/val_encoder_native_map_above_go118.go:9-37` -/
  | mapNil {m q k t a} : m a = some (.ptr none) → Run Γ m q (.map k t) (some a) .null
  | map {m q k t a b es os} : m a = some (.ptr (some b)) → m b = some (.map es) →
      RunEntries Γ m k (Γ.internalEnc t) es os → Run Γ m q (.map k t) (some a) (.dict os)
  /-- `/repo/val_encoder_native_struct.go:118-124` -/
  | emptyStruct {m q a} : Run Γ m q .emptyStruct (some a) (.obj [])
  /-- `/repo/val_encoder_native_struct.go:64-109` -/
  | struct {m q t a os} : RunFields Γ m t a (Γ.described t) os → Run Γ m q (.struct t) (some a) (.obj os)
  /-- `/repo/val_encoder_direct.go:15-17`: the parameter is a new variable -/
  | direct {m q e w a o} : m a = none → Run Γ (m.add a (.ptr w)) q e (some a) o → Run Γ m q (.direct e) w o
  /-- `/repo/val_encoder.go:129-134` -/
  | notSupported {m q w} : Run Γ m q .notSupported w .notSupported
/-- The loops over the elements of arrays and slices, `/repo/val_encoder_native_array.go:63-75`,
`/repo/val_encoder_native_slice.go:53-60`. -/
inductive RunElems (Γ : Types) : Memory → Enc → Nat → Addr → Nat → List Out → Prop
  | nil {m e size a} : RunElems Γ m e size a 0 []
  | cons {m e size a n o os} : Run Γ m false e (some a) o → RunElems Γ m e size (a + size) n os →
      RunElems Γ m e size a (n + 1) (o :: os)
/-- The loop over the entries of a map, `/repo/val_encoder_native_map_above_go118.go:24-35`. -/
inductive RunEntries (Γ : Types) : Memory → KeyEnc → Enc → List (Addr × Addr) → List (KeyOut × Out) → Prop
  | nil {m k e} : RunEntries Γ m k e [] []
  | cons {m k e a b es ko o os} : KeyRun Γ m k a ko → Run Γ m false e (some b) o → RunEntries Γ m k e es os →
      RunEntries Γ m k e ((a, b) :: es) ((ko, o) :: os)
/-- The loop over the fields of a struct at the address `a`, `/repo/val_encoder_native_struct.go:76-107`. -/
inductive RunFields (Γ : Types) : Memory → RTy → Addr → List Described → List (Nat × Out) → Prop
  | nil {m t a} : RunFields Γ m t a [] []
  | skip {m t a d ds o offs f os} : Γ.offsets t d.path = some (o :: offs, f) → locate m (a + o) offs = some none →
      RunFields Γ m t a ds os → RunFields Γ m t a (d :: ds) os
  /-- a panic of `IsEmpty` -/
  | panic {m t a d ds o offs f b os} : Γ.offsets t d.path = some (o :: offs, f) → locate m (a + o) offs = some (some b) →
      d.omitEmpty = true → IsEmpty Γ m (Γ.elemEnc f) b none → RunFields Γ m t a ds os →
      RunFields Γ m t a (d :: ds) ((d.name, .panic) :: os)
  /-- `omitempty` -/
  | omitted {m t a d ds o offs f b os} : Γ.offsets t d.path = some (o :: offs, f) → locate m (a + o) offs = some (some b) →
      d.omitEmpty = true → IsEmpty Γ m (Γ.elemEnc f) b (some true) → RunFields Γ m t a ds os → RunFields Γ m t a (d :: ds) os
  | field {m t a d ds o offs f b x os} : Γ.offsets t d.path = some (o :: offs, f) → locate m (a + o) offs = some (some b) →
      (d.omitEmpty = true → IsEmpty Γ m (Γ.elemEnc f) b (some false)) → Run Γ m d.quoted (Γ.elemEnc f) (some b) x → RunFields Γ m t a ds os →
      RunFields Γ m t a (d :: ds) ((d.name, x) :: os)
end

/-- `Streamer.Value` with an argument of the dynamic type `t`, `/repo/streamer_val.go:8-29`; `none` is the nil interface. -/
inductive Value (Γ : Types) (m : Memory) : Option (RTy × Ptr) → Out → Prop
  | nil : Value Γ m none .null
  | value {t w o} : Run Γ m false (Γ.rootEnc t) w o → Value Γ m (some (t, w)) o

end Jzon.Words
