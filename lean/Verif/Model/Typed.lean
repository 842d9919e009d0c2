import Verif.Model.Container
import Verif.Model.Fold
import Verif.Model.Int

/-!
# Decoding into typed values

Model of the value decoders: `/repo/val_decoder_native.go`, `/repo/val_decoder_native_int.go`,
`/repo/val_decoder_native_uint.go`, `/repo/val_decoder_native_float.go`, `/repo/val_decoder_json_number.go`,
`/repo/val_decoder_json_rawmessage.go`, `/repo/val_decoder_native_interface.go`, `/repo/val_decoder_native_ptr.go`,
`/repo/val_decoder_native_slice.go`, `/repo/val_decoder_native_array.go`, `/repo/val_decoder_native_map.go`,
`/repo/val_decoder_native_struct.go`, `/repo/val_decoder_native_struct_small.go`,
`/repo/val_decoder_native_struct_one_field.go`, `/repo/val_decoder_skip.go`, `/repo/val_decoder_json_unmarshaler.go`,
`/repo/val_decoder_text_unmarshaler.go`, and of the choice between them in `/repo/decoder_config.go`.

A decoder gets the options, the value the pointer points to, and returns the value it leaves there; what an unsuccessful
decoder leaves behind is not modelled, neither are pointers shared between parts of a value.  An `interface{}` holds a
value that is not a pointer (for pointers see `/repo/val_decoder_native_interface.go:69-108`, not modelled here).
-/

namespace Jzon

/-- Sizes of the integer types; `int`, `uint` and `uintptr` have 64 bits. -/
inductive Width where
  | w8
  | w16
  | w32
  | w64
  deriving DecidableEq, Repr

def Width.bits : Width → Nat
  | .w8 => 8
  | .w16 => 16
  | .w32 => 32
  | .w64 => 64

/-- The key types of maps: those with a decoder in `keyDecoders`, `/repo/val_decoder.go:67-92`, and the types (by number) whose pointer
implements `encoding.TextUnmarshaler`, whatever their kind is. -/
inductive KeyTy where
  | str
  | int (w : Width)
  | uint (w : Width)
  | text (i : Nat)
  deriving DecidableEq, Repr

/-- Go types.  A named type is a number; struct types are always named. -/
inductive Ty where
  | bool
  | str
  | int (w : Width)
  | uint (w : Width)
  | float32
  | float64
  /-- `json.Number` -/
  | number
  /-- `json.RawMessage` -/
  | raw
  /-- `interface{}` -/
  | any
  | ptr (t : Ty)
  | slice (t : Ty)
  | array (n : Nat) (t : Ty)
  | map (k : KeyTy) (t : Ty)
  | named (i : Nat)
  /-- a type whose pointer implements `json.Unmarshaler` -/
  | jsonUnmarshaler (i : Nat)
  /-- a type whose pointer implements `encoding.TextUnmarshaler` -/
  | textUnmarshaler (i : Nat)
  /-- a type without decoder, as channels -/
  | unsupported
  deriving DecidableEq, Repr

/-- One step from a struct to one of the fields that decoding sees: to the member number `i`, or through an embedded
pointer to a struct of type `t`, which may be allocated if its type is exported. -/
inductive PathStep where
  | member (i : Nat)
  | deref (exported : Bool) (t : Ty)
  deriving DecidableEq, Repr

/-- What decoding uses of `field`, `/repo/struct_field.go:9-26`. -/
structure Field where
  name : List Byte
  quoted : Bool
  path : List PathStep
  ty : Ty

/-- The definition of a named type; a name for another kind of type is replaced by that type. -/
inductive Def where
  | struct (fs : List Field)
  | slice (t : Ty)
  | array (n : Nat) (t : Ty)
  | map (k : KeyTy) (t : Ty)

/-- Map keys. -/
inductive Key where
  | str (s : List Byte)
  | int (i : Int)
  | other (n : Nat)
  deriving DecidableEq, Repr

/-- Values of Go variables.  Integers of all types are integers; maps are partial functions; `other` is a value of a type
with an own decoding method. -/
inductive Val (F : Type) where
  | bool (b : Bool)
  | str (s : List Byte)
  | int (i : Int)
  | float (f : F)
  | any (g : GoVal F)
  | nilPtr
  | ptr (v : Val F)
  | nilSlice
  | slice (vs : List (Val F))
  | arr (vs : List (Val F))
  | nilMap
  | map (m : Key → Option (Val F))
  | struct (vs : List (Val F))
  | other (n : Nat)

/-- The types of a program and their methods. -/
structure TyEnv (F : Type) where
  /-- the definitions of the named types -/
  defn : Nat → Def
  /-- the zero values of the named types -/
  zeroNamed : Nat → Val F
  /-- the zero values of the types with own methods -/
  zeroOther : Nat → Val F
  /-- `UnmarshalJSON`, given the old value and the text -/
  unmarshalJSON : Nat → Val F → List Byte → Except Err (Val F)
  /-- `UnmarshalText`, given the old value and the text -/
  unmarshalText : Nat → Val F → List Byte → Except Err (Val F)
  /-- the map keys of the types with own methods; this is not used by the library, and says what a key of the type can be -/
  isKey : Nat → Key → Prop := fun _ _ => True

/-- The options of a decoder, and the functions of the standard library it uses. -/
structure DecCfg (F : Type) where
  caseSensitive : Bool
  useNumber : Bool
  disallowUnknownFields : Bool
  ops32 : FloatOps F
  ops64 : FloatOps F
  fold : FoldLib
  /-- `base64.StdEncoding.DecodeString` -/
  base64 : List Byte → Except Err (List Byte)

/-- What the pools contribute: a stack and an iterator left by earlier uses. -/
structure Pools where
  stack : Stack
  it : It

/-- `DecOpts`, `/repo/val_decoder.go:96-99`; nil is the same as both false. -/
structure DecOpts where
  mapKey : Bool := false
  quoted : Bool := false
  deriving DecidableEq, Repr

/-- `ValDecoder`, `/repo/val_decoder.go:106-108`. -/
abbrev ValDecoder (V : Type) := DecOpts → V → Prog V

section
variable {F : Type}

/-- The zero value of a type. -/
def TyEnv.zero (Γ : TyEnv F) (cfg : DecCfg F) : Ty → Val F
  | .bool => .bool false
  | .str => .str []
  | .int _ => .int 0
  | .uint _ => .int 0
  | .float32 => .float cfg.ops32.zero
  | .float64 => .float cfg.ops64.zero
  | .number => .str []
  | .raw => .str []
  | .any => .any .nil
  | .ptr _ => .nilPtr
  | .slice _ => .nilSlice
  | .array n t => .arr (List.replicate n (Γ.zero cfg t))
  | .map _ _ => .nilMap
  | .named i => Γ.zeroNamed i
  | .jsonUnmarshaler i => Γ.zeroOther i
  | .textUnmarshaler i => Γ.zeroOther i
  | .unsupported => .other 0

/-- The branch `case 'n': it.head++; return it.expectBytes("ull")` of most decoders, for example
`/repo/val_decoder_native.go:17-19`: the value is left as it is, or becomes `v`. -/
def nullThen {V : Type} (v : V) : Prog V := do
  expectBytes ull
  pure v

/-- `true"` and so on without the first byte. -/
def rueQ : List Byte := rue ++ [b! '"']
def alseQ : List Byte := alse ++ [b! '"']
def ullQ : List Byte := ull ++ [b! '"']

/-- `boolDecoder`, `/repo/val_decoder_native.go:11-66`. -/
def boolDecoder : ValDecoder (Val F) := fun o old => do
  let c ← token fun c =>
    if c = b! 'n' ∨ c = b! 't' ∨ c = b! 'f' then .take
    else if c = b! '"' ∧ o.quoted then .take
    else .fail (.unexpectedByte c 0 0)
  if c = b! 'n' then nullThen old
  else if c = b! 't' then do
    expectBytes rue
    pure (.bool true)
  else if c = b! 'f' then do
    expectBytes alse
    pure (.bool false)
  else do
    let c ← nextTokenTake
    if c = b! 't' then do
      expectBytes rueQ
      pure (.bool true)
    else if c = b! 'f' then do
      expectBytes alseQ
      pure (.bool false)
    else if c = b! 'n' then do
      expectBytes ullQ
      pure old
    else .throw (.unexpectedByte c 0 0)

/-- The string inside a string, on an iterator of the pool, `/repo/val_decoder_native.go:97-114`; any failure is the error
`BadQuotedStringError`. -/
def unquote (it : It) (s : List Byte) : Except Err (List Byte) :=
  match (do
      let t ← ReadString
      let o ← tokenEOF
      pure (t, o) : Prog (List Byte × Option Byte)).runM (it.resetBytes s) with
  | (.ok (t, none), _) => .ok t
  | _ => .error (.badQuotedString s)

/-- `stringDecoder`, `/repo/val_decoder_native.go:71-126`. -/
def stringDecoder (pools : Pools) : ValDecoder (Val F) := fun o old => do
  let c ← token fun c =>
    if c = b! '"' ∨ c = b! 'n' then .take else .fail (.unexpectedByte c (b! '"') (b! 'n'))
  if c = b! '"' then do
    let s ← readStringAsSlice
    if ¬ o.quoted then pure (.str s)
    else if s.length < 2 then .throw (.badQuotedString s)
    else if s.head? = some (b! 'n') then
      if s ≠ bs! "null" then .throw (.badQuotedString s) else pure old
    else if s.head? = some (b! '"') then
      if s.getLast? ≠ some (b! '"') then .throw (.badQuotedString s)
      else do
        let t ← Prog.ofExcept (unquote pools.it s)
        pure (.str t)
    else .throw (.badQuotedString s)
  else nullThen old

/-- The integer decoders, `/repo/val_decoder_native_int.go:11-48`, `54-91`, `97-134` and `140-177`, and
`/repo/val_decoder_native_uint.go:11-48`, `54-91`, `97-134` and `140-177`, whose texts differ in the widths only; `read` is
`it.readInt8` and so on. -/
def intDecoder (read : Byte → Prog Int) : ValDecoder (Val F) := fun o old => do
  let quoted := o.quoted || o.mapKey
  let c ← token fun c =>
    if c = b! 'n' then .take
    else if quoted then (if c ≠ b! '"' then .fail (.unexpectedByte c (b! '"') 0) else .take)
    else .take
  if c = b! 'n' then nullThen old
  else if quoted then do
    let c ← nextByteTake
    let i ← read c
    let _ ← byte fun c => if c ≠ b! '"' then .fail (.unexpectedByte c (b! '"') 0) else .take
    pure (.int i)
  else do
    let i ← read c
    pure (.int i)

/-- `it.readInt8` and so on, see `Verif.Model.Int`. -/
def readIntOf (w : Width) (c : Byte) : Prog Int :=
  match w with
  | .w8 => do pure (← readInt 8 (bs! "int8") readUint8 c).toInt
  | .w16 => do pure (← readInt 16 (bs! "int16") (readUint 16 4) c).toInt
  | .w32 => do pure (← readInt 32 (bs! "int32") (readUint 32 9) c).toInt
  | .w64 => do pure (← readInt 64 (bs! "int64") (readUint 64 19) c).toInt

/-- `it.readUint8` and so on, see `Verif.Model.Int`. -/
def readUintOf (w : Width) (c : Byte) : Prog Int :=
  match w with
  | .w8 => do pure ((← readUint8 c).toNat : Int)
  | .w16 => do pure ((← readUint 16 4 c).toNat : Int)
  | .w32 => do pure ((← readUint 32 9 c).toNat : Int)
  | .w64 => do pure ((← readUint 64 19 c).toNat : Int)

/-- `float32Decoder` and `float64Decoder`, `/repo/val_decoder_native_float.go:11-26` and `32-47`. -/
def floatDecoder (ops : FloatOps F) : ValDecoder (Val F) := fun _ old => do
  let c ← token fun c => if c = b! 'n' then .take else .leave
  if c = b! 'n' then nullThen old
  else do
    let c ← nextTokenTake
    let f ← readFloat ops c
    pure (.float f)

/-- `jsonNumberDecoder`, `/repo/val_decoder_json_number.go:9-55`. -/
def jsonNumberDecoder : ValDecoder (Val F) := fun _ old => do
  let c ← token fun c =>
    if valueTypeOf c = .string ∨ valueTypeOf c = .null ∨ valueTypeOf c = .number then .take
    else .fail (.unexpectedByte c 0 0)
  if valueTypeOf c = .string then do
    let c ← byte fun c => if valueTypeOf c ≠ .number then .fail (.invalidDigit c) else .take
    let s ← readNumberAsString c
    let _ ← byte fun c => if c ≠ b! '"' then .fail (.unexpectedByte c (b! '"') 0) else .take
    pure (.str s)
  else if valueTypeOf c = .null then nullThen old
  else do
    let s ← readNumberAsString c
    pure (.str s)

/-- `jsonRawMessageDecoder`, `/repo/val_decoder_json_rawmessage.go:8-15`. -/
def rawDecoder (pools : Pools) : ValDecoder (Val F) := fun _ _ => do
  let b ← AppendRaw pools.stack []
  pure (.str b)

/-- `efaceDecoder` for a variable that does not hold a pointer, `/repo/val_decoder_native_interface.go:44-70`. -/
def anyDecoder (cfg : DecCfg F) (pools : Pools) : ValDecoder (Val F) := fun _ _ => do
  let g ← Read ⟨cfg.useNumber, cfg.ops64⟩ pools.stack
  pure (.any g)

/-- `pointerDecoder`, `/repo/val_decoder_native_ptr.go:32-59`; `zero` is the value of `unsafe_New`. -/
def ptrDecoder (zero : Val F) (elem : ValDecoder (Val F)) : ValDecoder (Val F) := fun o old => do
  let c ← token fun c => if c = b! 'n' then .take else .leave
  if c = b! 'n' then nullThen .nilPtr
  else do
    let v ← elem o (match old with | .ptr v => v | _ => zero)
    pure (.ptr v)

/-- `sliceHeader`, with the storage it points to, whose length is the capacity. -/
structure SliceHeader (V : Type) where
  len : Nat
  mem : List V

/-- `unsafeMakeSlice`, `/repo/link_reflect.go:66-72`; `zero` fills new storage. -/
def unsafeMakeSlice {V : Type} (zero : V) (length cap : Nat) : SliceHeader V := ⟨length, List.replicate cap zero⟩

/-- The loop of `unsafeGrowSlice`, `/repo/link_reflect.go:95-101`; the first argument bounds the number of rounds. -/
def growCap : Nat → Nat → Nat → Nat
  | 0, newCap, _ => newCap
  | n + 1, newCap, newLength =>
    if newCap < newLength then
      growCap n (if newCap < 1024 then newCap <<< 1 else newCap + newCap >>> 2) newLength
    else newCap

/-- `typedslicecopy`. -/
def typedslicecopy {V : Type} (dst src : SliceHeader V) : SliceHeader V :=
  let n := min dst.len src.len
  ⟨dst.len, src.mem.take n ++ dst.mem.drop n⟩

/-- `unsafeGrowSlice`, `/repo/link_reflect.go:85-106`. -/
def unsafeGrowSlice {V : Type} (zero : V) (sh : SliceHeader V) (newLength : Nat) : SliceHeader V :=
  if newLength < sh.mem.length then { sh with len := newLength }
  else
    let newCap := if sh.mem.length = 0 then newLength else growCap newLength sh.mem.length newLength
    typedslicecopy (unsafeMakeSlice zero newLength newCap) sh

/-- The loop of `sliceDecoder`, `/repo/val_decoder_native_slice.go:86-103`.  An access behind the storage is the error
`panic`. -/
def sliceLoop (zero : Val F) (elem : ValDecoder (Val F)) : Nat → Nat → SliceHeader (Val F) → Prog (SliceHeader (Val F))
  | 0, _, _ => .throw .hang
  | n + 1, length, sh => do
    let sh := unsafeGrowSlice zero sh length
    match sh.mem[length - 1]? with
    | none => .throw .panic
    | some child =>
      let v ← elem {} child
      let sh := { sh with mem := sh.mem.set (length - 1) v }
      let c ← nextTokenTake
      if c = b! ']' then pure sh
      else if c ≠ b! ',' then .throw (.unexpectedByte c (b! ']') (b! ','))
      else sliceLoop zero elem n (length + 1) sh

/-- `sliceDecoder`, `/repo/val_decoder_native_slice.go:39-108`.  The Go code does not restore `it.capture` if the string
is broken; this only has an effect on the use of memory, and the model restores it. -/
def sliceDecoder (cfg : DecCfg F) (isByte : Bool) (zero : Val F) (elem : ValDecoder (Val F)) : ValDecoder (Val F) := fun _ _ => do
  let c ← token fun c =>
    if c = b! 'n' ∨ c = b! '[' ∨ (c = b! '"' ∧ isByte) then .take
    else .fail (.unexpectedByte c (b! '[') (b! 'n'))
  if c = b! 'n' then nullThen .nilSlice
  else if c = b! '"' then do
    let (_, text) ← captured skipString
    let data ← Prog.ofExcept (cfg.base64 text.dropLast)
    pure (.slice (data.map fun b => .int b.toNat))
  else do
    let c ← token fun c => if c = b! ']' then .take else .leave
    let sh := unsafeMakeSlice zero 0 0
    if c = b! ']' then pure (.slice (sh.mem.take sh.len))
    else do
      let n ← remaining
      let sh ← sliceLoop zero elem (n + 1) 1 sh
      pure (.slice (sh.mem.take sh.len))

/-- The loop of `arrayDecoder`, `/repo/val_decoder_native_array.go:62-90`; `count` and the elements of the array. -/
def arrayLoop (pools : Pools) (length : Nat) (zero : Val F) (elem : ValDecoder (Val F)) :
    Nat → Nat → List (Val F) → Prog (Nat × List (Val F))
  | 0, _, _ => .throw .hang
  | n + 1, count, vs => do
    let (count, vs) ← (if count < length then do
        let v ← elem {} ((vs[count]?).getD zero)
        pure (count + 1, vs.set count v)
      else do
        Skip pools.stack
        pure (count, vs) : Prog (Nat × List (Val F)))
    let c ← nextTokenTake
    if c = b! ']' then pure (count, vs)
    else if c ≠ b! ',' then .throw (.unexpectedByte c (b! ']') (b! ','))
    else arrayLoop pools length zero elem n count vs

/-- The elements of an array variable of the given length (which is the length of the type). -/
def arrayElems (length : Nat) (zero : Val F) (old : Val F) : List (Val F) :=
  match old with
  | .arr vs => (vs ++ List.replicate length zero).take length
  | _ => List.replicate length zero

/-- `typedmemclrpartial` on the elements from `count` on, `/repo/val_decoder_native_array.go:92-96`. -/
def clearFrom (length count : Nat) (zero : Val F) (vs : List (Val F)) : List (Val F) :=
  if count < length then vs.take count ++ List.replicate (length - count) zero else vs

/-- `arrayDecoder`, `/repo/val_decoder_native_array.go:40-97`. -/
def arrayDecoder (pools : Pools) (length : Nat) (zero : Val F) (elem : ValDecoder (Val F)) : ValDecoder (Val F) := fun _ old => do
  let c ← token fun c =>
    if c = b! 'n' ∨ c = b! '[' then .take else .fail (.unexpectedByte c (b! '[') (b! 'n'))
  if c = b! 'n' then nullThen old
  else do
    let c ← token fun c => if c = b! ']' then .take else .leave
    if c = b! ']' then pure (.arr (clearFrom length 0 zero (arrayElems length zero old)))
    else do
      let n ← remaining
      let (count, vs) ← arrayLoop pools length zero elem (n + 1) 0 (arrayElems length zero old)
      pure (.arr (clearFrom length count zero vs))

/-- The key of a decoded value.  The type of a key is comparable; values of comparable types with own methods are strings, integers
or `other`. -/
def keyOf : Val F → Key
  | .str s => .str s
  | .int i => .int i
  | .other n => .other n
  | _ => .int 0

/-- `mapassign`. -/
def setKey (m : Key → Option (Val F)) (k : Key) (v : Val F) : Key → Option (Val F) := fun k' => if k' = k then some v else m k'

/-- The loop of `mapDecoder`, `/repo/val_decoder_native_map.go:91-125`. -/
def mapLoop (keyZero zero : Val F) (keyDec elem : ValDecoder (Val F)) :
    Nat → (Key → Option (Val F)) → Prog (Key → Option (Val F))
  | 0, _ => .throw .hang
  | n + 1, m => do
    let k ← keyDec { mapKey := true } keyZero
    let _ ← token fun c => if c ≠ b! ':' then .fail (.unexpectedByte c (b! ':') 0) else .take
    let v ← elem {} zero
    let c ← token fun c =>
      if c = b! '}' then .take else if c = b! ',' then .take else .fail (.unexpectedByte c (b! '}') (b! ','))
    if c = b! '}' then pure (setKey m (keyOf k) v)
    else mapLoop keyZero zero keyDec elem n (setKey m (keyOf k) v)

/-- The entries of a map variable, or a new map. -/
def mapEntries (old : Val F) : Key → Option (Val F) :=
  match old with
  | .map m => m
  | _ => fun _ => none

/-- `mapDecoder`, `/repo/val_decoder_native_map.go:60-126`. -/
def mapDecoder (keyZero zero : Val F) (keyDec elem : ValDecoder (Val F)) : ValDecoder (Val F) := fun _ old => do
  let c ← token fun c =>
    if c = b! 'n' ∨ c = b! '{' then .take else .fail (.unexpectedByte c (b! '{') (b! 'n'))
  if c = b! 'n' then nullThen .nilMap
  else do
    let c ← token fun c => if c = b! '}' then .take else .leave
    if c = b! '}' then pure (.map (mapEntries old))
    else do
      let n ← remaining
      let m ← mapLoop keyZero zero keyDec elem (n + 1) (mapEntries old)
      pure (.map m)

/-- Decode into the field at the end of a path, allocating embedded pointers on the way,
`/repo/val_decoder_native_struct.go:130-143`. -/
def atPath (zero : Ty → Val F) : List PathStep → (Val F → Prog (Val F)) → Val F → Prog (Val F)
  | [], f, v => f v
  | .member i :: p, f, .struct vs =>
    match vs[i]? with
    | some v => do
      let v ← atPath zero p f v
      pure (.struct (vs.set i v))
    | none => .throw .panic
  | .deref _ _ :: p, f, .ptr v => do
    let v ← atPath zero p f v
    pure (.ptr v)
  | .deref exported t :: p, f, .nilPtr =>
    if ¬ exported then .throw .nilEmbeddedPointer
    else do
      let v ← atPath zero p f (zero t)
      pure (.ptr v)
  | _, _, _ => .throw .panic

/-- What a struct decoder does with one member of the object behind its colon, `/repo/val_decoder_native_struct.go:126-157`,
`/repo/val_decoder_native_struct_small.go:88-117` and `/repo/val_decoder_native_struct_one_field.go:67-96`; `build` gives the
decoder of a field type. -/
def structMember (cfg : DecCfg F) (pools : Pools) (zero : Ty → Val F) (build : Ty → ValDecoder (Val F)) (fs : List Field)
    (name : List Byte) (v : Val F) : Prog (Val F) := do
  match ← Prog.ofExcept (findField cfg.fold cfg.caseSensitive (fs.map Field.name) name) with
  | some i =>
    match fs[i]? with
    | some f => atPath zero f.path (build f.ty { quoted := f.quoted }) v
    | none => .throw .panic
  | none =>
    if cfg.disallowUnknownFields then .throw (.unknownField name)
    else do
      Skip pools.stack
      pure v

/-- The loop of the three struct decoders, `/repo/val_decoder_native_struct.go:120-180`,
`/repo/val_decoder_native_struct_small.go:83-135`, `/repo/val_decoder_native_struct_one_field.go:62-115`. -/
def structLoop (member : List Byte → Val F → Prog (Val F)) : Nat → Val F → Prog (Val F)
  | 0, _ => .throw .hang
  | n + 1, v => do
    let field ← readObjectField
    let v ← member field v
    let c ← token fun c =>
      if c = b! '}' then .take else if c = b! ',' then .take else .fail (.unexpectedByte c (b! '}') (b! ','))
    if c = b! '}' then pure v
    else do
      let _ ← token fun c => if c ≠ b! '"' then .fail (.unexpectedByte c (b! '"') 0) else .take
      structLoop member n v

/-- `structDecoder`, `/repo/val_decoder_native_struct.go:99-181`, `smallStructDecoder`,
`/repo/val_decoder_native_struct_small.go:55-136`, and `oneFieldStructDecoder`,
`/repo/val_decoder_native_struct_one_field.go:34-116`, which differ in the search for the field. -/
def structDecoder (member : List Byte → Val F → Prog (Val F)) : ValDecoder (Val F) := fun _ old => do
  let c ← token fun c =>
    if c = b! 'n' ∨ c = b! '{' then .take else .fail (.unexpectedByte c (b! '{') (b! 'n'))
  if c = b! 'n' then nullThen old
  else do
    let c ← token fun c =>
      if c = b! '}' then .take
      else if c ≠ b! '"' then .fail (.unexpectedByte c (b! '}') (b! '"')) else .take
    if c = b! '}' then pure old
    else do
      let n ← remaining
      structLoop member (n + 1) old

/-- `emptyObjectDecoder`, `/repo/val_decoder_skip.go:9-34`. -/
def emptyObjectDecoder (cfg : DecCfg F) (pools : Pools) : ValDecoder (Val F) := fun _ old => do
  let c ← nextTokenTake
  if c = b! 'n' then nullThen old
  else if c = b! '{' then
    if cfg.disallowUnknownFields then do
      let c ← nextTokenTake
      if c ≠ b! '}' then .throw (.unexpectedByte c (b! '}') 0) else pure old
    else do
      skipFunction pools.stack c
      pure old
  else .throw (.unexpectedByte c (b! '{') (b! 'n'))

/-- `jsonUnmarshalerDecoder`, `/repo/val_decoder_json_unmarshaler.go:15-23`. -/
def jsonUnmarshalerDecoder (pools : Pools) (f : Val F → List Byte → Except Err (Val F)) : ValDecoder (Val F) := fun _ old => do
  let b ← SkipRaw pools.stack
  Prog.ofExcept (f old b)

/-- `textUnmarshalerDecoder`, `/repo/val_decoder_text_unmarshaler.go:15-36`. -/
def textUnmarshalerDecoder (f : Val F → List Byte → Except Err (Val F)) : ValDecoder (Val F) := fun _ old => do
  let c ← token fun c =>
    if c = b! '"' ∨ c = b! 'n' then .take else .fail (.unexpectedByte c (b! '"') (b! 'n'))
  if c = b! '"' then do
    let b ← readStringAsSlice
    Prog.ofExcept (f old b)
  else nullThen old

/-- `notSupportedDecoder`, `/repo/val_decoder.go:112-114`. -/
def notSupportedDecoder : ValDecoder (Val F) := fun _ _ => .throw .typeNotSupported

/-- The key decoder of `newMapDecoder`, `/repo/val_decoder_native_map.go:24-34`, with the table of `/repo/val_decoder.go:67-87`.  The
decoders of `/repo/val_decoder_native_map.go:131-287` are not used by any function. -/
def keyDecoder (Γ : TyEnv F) (pools : Pools) : KeyTy → ValDecoder (Val F)
  | .str => stringDecoder pools
  | .int w => intDecoder (readIntOf w)
  | .uint w => intDecoder (readUintOf w)
  | .text i => textUnmarshalerDecoder (Γ.unmarshalText i)

/-- The zero value of a key type. -/
def keyZero (Γ : TyEnv F) : KeyTy → Val F
  | .str => .str []
  | .int _ => .int 0
  | .uint _ => .int 0
  | .text i => Γ.zeroOther i

/-- The decoder of a type, chosen as in `createDecoderInternal`, `/repo/decoder_config.go:143-254`, given the decoders of
the named types. -/
def decoderStep (Γ : TyEnv F) (cfg : DecCfg F) (pools : Pools) (named : Nat → ValDecoder (Val F)) : Ty → ValDecoder (Val F)
  | .bool => boolDecoder
  | .str => stringDecoder pools
  | .int w => intDecoder (readIntOf w)
  | .uint w => intDecoder (readUintOf w)
  | .float32 => floatDecoder cfg.ops32
  | .float64 => floatDecoder cfg.ops64
  | .number => jsonNumberDecoder
  | .raw => rawDecoder pools
  | .any => anyDecoder cfg pools
  | .ptr t => ptrDecoder (Γ.zero cfg t) (decoderStep Γ cfg pools named t)
  | .slice t => sliceDecoder cfg (t == .uint .w8) (Γ.zero cfg t) (decoderStep Γ cfg pools named t)
  | .array k t => arrayDecoder pools k (Γ.zero cfg t) (decoderStep Γ cfg pools named t)
  | .map k t => mapDecoder (keyZero Γ k) (Γ.zero cfg t) (keyDecoder Γ pools k) (decoderStep Γ cfg pools named t)
  | .jsonUnmarshaler i => jsonUnmarshalerDecoder pools (Γ.unmarshalJSON i)
  | .textUnmarshaler i => textUnmarshalerDecoder (Γ.unmarshalText i)
  | .unsupported => notSupportedDecoder
  | .named i => named i

/-- The decoder of a named type, `/repo/decoder_config.go:143-254`.  Go ties the knot for recursive types with pointers;
here the first argument bounds how often a name is unfolded. -/
def namedDecoder (Γ : TyEnv F) (cfg : DecCfg F) (pools : Pools) : Nat → Nat → ValDecoder (Val F)
  | 0, _ => fun _ _ => .throw .hang
  | n + 1, i =>
    match Γ.defn i with
    | .slice t => sliceDecoder cfg (t == .uint .w8) (Γ.zero cfg t) (decoderStep Γ cfg pools (namedDecoder Γ cfg pools n) t)
    | .array k t => arrayDecoder pools k (Γ.zero cfg t) (decoderStep Γ cfg pools (namedDecoder Γ cfg pools n) t)
    | .map k t =>
      mapDecoder (keyZero Γ k) (Γ.zero cfg t) (keyDecoder Γ pools k) (decoderStep Γ cfg pools (namedDecoder Γ cfg pools n) t)
    | .struct [] => emptyObjectDecoder cfg pools
    | .struct fs =>
      structDecoder (structMember cfg pools (Γ.zero cfg) (decoderStep Γ cfg pools (namedDecoder Γ cfg pools n)) fs)

/-- The decoder of a type, `/repo/decoder_config.go:143-254`; the first argument bounds how often a name is unfolded. -/
def decoderOf (Γ : TyEnv F) (cfg : DecCfg F) (pools : Pools) (n : Nat) : Ty → ValDecoder (Val F) :=
  decoderStep Γ cfg pools (namedDecoder Γ cfg pools n)

/-- `ReadVal` on a non-nil pointer to a variable of type `t` that holds `old`, `/repo/iterator_val.go:9-24`. -/
def ReadVal (Γ : TyEnv F) (cfg : DecCfg F) (pools : Pools) (t : Ty) (old : Val F) : Prog (Val F) := do
  let n ← remaining
  decoderOf Γ cfg pools (n + 1) t {} old

/-- `unmarshal`, `/repo/iterator.go:248-261`. -/
def unmarshalProg (Γ : TyEnv F) (cfg : DecCfg F) (pools : Pools) (t : Ty) (old : Val F) : Prog (Val F) := do
  let v ← ReadVal Γ cfg pools t old
  match ← tokenEOF with
  | some _ => .throw .dataRemained
  | none => pure v

/-- `Unmarshal`, `/repo/iterator.go:264-267`, on an iterator left by earlier uses. -/
def Unmarshal (Γ : TyEnv F) (cfg : DecCfg F) (pools : Pools) (it : It) (data : List Byte) (t : Ty) (old : Val F) :
    Except Err (Val F) :=
  ((unmarshalProg Γ cfg pools t old).runM (it.resetBytes data)).1

/-- `UnmarshalFromReader`, `/repo/iterator.go:281-284`, for a reader that is neither nil nor a `*bytes.Buffer`. -/
def UnmarshalFromReader (Γ : TyEnv F) (cfg : DecCfg F) (pools : Pools) (it : It) (script : List RdRes) (t : Ty) (old : Val F) :
    Except Err (Val F) :=
  ((unmarshalProg Γ cfg pools t old).runM (it.resetReader script)).1

end

end Jzon
