import Verif.Model.Struct
import Verif.Model.Streamer

/-!
# Encoding typed values

Model of the value encoders: `/repo/val_encoder.go`, `/repo/val_encoder_native.go`, `/repo/val_encoder_native_int.go`,
`/repo/val_encoder_native_uint.go`, `/repo/val_encoder_native_float.go`, `/repo/val_encoder_json_number.go`,
`/repo/val_encoder_json_rawmessage.go`, `/repo/val_encoder_native_interface.go`, `/repo/val_encoder_native_ptr.go`,
`/repo/val_encoder_native_slice.go`, `/repo/val_encoder_native_base64.go`, `/repo/val_encoder_native_array.go`,
`/repo/val_encoder_native_map.go`, `/repo/val_encoder_native_map_above_go118.go`, `/repo/val_encoder_native_struct.go`,
`/repo/val_encoder_json_marshaler.go`, `/repo/val_encoder_text_marshaler.go`, `/repo/val_encoder_direct.go`,
`/repo/is_empty.go`, `/repo/streamer_val.go`, and of the choice between them in `/repo/encoder_config.go`.

Values are trees, as in `Verif.Model.Typed`: cyclic data is not modelled.  Encoding something that is not a value of the type
is the error `panic`.  The types with own decoding methods are here
types with own encoding methods.  Not modelled: map keys with a method `MarshalText`, variables of the types
`json.Marshaler` and `encoding.TextMarshaler`, and encoders given by the user.
-/

namespace Jzon

/-- Whether the encoding method of a type has a value or a pointer as receiver. -/
inductive Recv where
  | value
  | pointer
  deriving DecidableEq, Repr

/-- `encoderFieldInfo`, `/repo/val_encoder_native_struct.go:25-32`; the names are encoded when they are written. -/
structure EncField where
  name : List Byte
  quoted : Bool
  omitEmpty : Bool
  path : List PathStep
  ty : Ty

/-- The configuration of an encoder, the methods of the types, and the functions of the standard library. -/
structure EncEnv (F : Type) where
  /-- `EncoderConfig.escapeHTML` -/
  escapeHTML : Bool
  /-- the fields that `describeStruct` returns for the struct type with this number -/
  fields : Nat → List EncField
  float32 : F → FloatArg
  float64 : F → FloatArg
  /-- `base64.StdEncoding.Encode` -/
  base64 : List Byte → List Byte
  /-- the receiver of the encoding method of a type with own methods -/
  recv : Nat → Recv
  /-- the type with the same values as a type with own methods, but without them -/
  under : Nat → Ty
  marshalJSON : Nat → Val F → Except EncErr (List Byte)
  marshalText : Nat → Val F → Except EncErr (List Byte)
  /-- the keys of a map; `none` if there are infinitely many, so that this is no map -/
  entries : (Key → Option (Val F)) → Option (List Key)
  /-- the order in which they are visited, which may be another one each time -/
  shuffle : Streamer → List Key → List Key

/-- `ValEncoder`, `/repo/val_encoder.go:119-123`.  The second argument of `encode` is what the pointer points to, `none` for
the nil pointer; the first is `opts != nil && opts.Quoted`. -/
structure ValEncoder (F : Type) where
  isEmpty : Val F → Except EncErr Bool
  encode : Bool → Option (Val F) → Streamer → Streamer

section
variable {F : Type}

/-- `if s.Error == nil { s.Error = e }`. -/
def Streamer.fail (s : Streamer) (e : EncErr) : Streamer := if s.error ≠ none then s else { s with error := some e }

/-- `boolEncoder`, `/repo/val_encoder_native.go:10-29`. -/
def boolEncoder : ValEncoder F where
  isEmpty
    | .bool b => .ok (!b)
    | _ => .error .panic
  encode q v s :=
    match v with
    | none => s.null
    | some (.bool b) => if ¬ q then s.bool b else if b then s.string (bs! "true") else s.string (bs! "false")
    | some _ => s.fail .panic

/-- A streamer from the pool for the configuration, `/repo/encoder_config_adaptor.go:4-9`; `old` is its state when it was
returned to the pool, `/repo/streamer_pool.go:32-35`. -/
def newStreamer (E : EncEnv F) (old : Streamer) : Streamer := old.reset.escapeHTML E.escapeHTML

/-- `stringEncoder`, `/repo/val_encoder_native.go:34-56`; the second streamer is one that was never used (see C32 for the
others). -/
def stringEncoder (E : EncEnv F) : ValEncoder F where
  isEmpty
    | .str x => .ok (x = [])
    | _ => .error .panic
  encode q v s :=
    match v with
    | none => s.null
    | some (.str x) =>
      if ¬ q then s.string x
      else
        let sub := (newStreamer E ⟨none, [], none, false, false⟩).string x
        match sub.error with
        | some e => { s with error := some e }
        | none => s.string sub.buffer
    | some _ => s.fail .panic

/-- `appendInt8` and so on. -/
def appendIntOf (w : Width) (z : Int) (b : List Byte) : Option (List Byte) :=
  if z < -2 ^ (w.bits - 1) ∨ 2 ^ (w.bits - 1) ≤ z then none
  else match w with
  | .w8 => appendInt appendUint8 b (BitVec.ofInt 8 z)
  | .w16 => appendInt appendUint16 b (BitVec.ofInt 16 z)
  | .w32 => appendInt appendUint32 b (BitVec.ofInt 32 z)
  | .w64 => appendInt appendUint64 b (BitVec.ofInt 64 z)

/-- `appendUint8` and so on. -/
def appendUintOf (w : Width) (z : Int) (b : List Byte) : Option (List Byte) :=
  if z < 0 ∨ 2 ^ w.bits ≤ z then none
  else match w with
  | .w8 => appendUint8 b (BitVec.ofInt 8 z)
  | .w16 => appendUint16 b (BitVec.ofInt 16 z)
  | .w32 => appendUint32 b (BitVec.ofInt 32 z)
  | .w64 => appendUint64 b (BitVec.ofInt 64 z)

/-- The integer encoders, `/repo/val_encoder_native_int.go:10-81` and `/repo/val_encoder_native_uint.go:10-93`; `app` is the
function that `Int8`, `quotedInt8` and so on use. -/
def intEncoder (app : Int → List Byte → Option (List Byte)) : ValEncoder F where
  isEmpty
    | .int z => .ok (z = 0)
    | _ => .error .panic
  encode q v s :=
    match v with
    | none => s.null
    | some (.int z) => if ¬ q then s.writeVal (app z) else s.writeVal (Streamer.quoted (app z))
    | some _ => s.fail .panic

/-- `float32Encoder` and `float64Encoder`, `/repo/val_encoder_native_float.go:10-35`; `f == 0` is `math.Abs(f) == 0`. -/
def floatEncoder (arg : F → FloatArg) : ValEncoder F where
  isEmpty
    | .float f => .ok (!(arg f).nonZero)
    | _ => .error .panic
  encode _ v s :=
    match v with
    | none => s.null
    | some (.float f) => s.float (arg f)
    | some _ => s.fail .panic

/-- `jsonNumberEncoder`, `/repo/val_encoder_json_number.go:10-25`. -/
def numberEncoder : ValEncoder F where
  isEmpty
    | .str x => .ok (x = [])
    | _ => .error .panic
  encode _ v s :=
    match v with
    | none => s.null
    | some (.str x) => s.raw (if x = [] then bs! "0" else x)
    | some _ => s.fail .panic

/-- `jsonRawMessageEncoder`, `/repo/val_encoder_json_rawmessage.go:9-21`; the nil message is the empty one. -/
def rawEncoder : ValEncoder F where
  isEmpty
    | .str x => .ok (x.length = 0)
    | _ => .error .panic
  encode _ v s :=
    match v with
    | none => s.null
    | some (.str x) => s.raw x
    | some _ => s.fail .panic

/-- `pointerEncoder`, `/repo/val_encoder_native_ptr.go:24-34`. -/
def ptrEncoder (elem : ValEncoder F) : ValEncoder F where
  isEmpty
    | .nilPtr => .ok true
    | .ptr _ => .ok false
    | _ => .error .panic
  encode q v s :=
    match v with
    | none => s.null
    | some .nilPtr => elem.encode q none s
    | some (.ptr x) => elem.encode q (some x) s
    | some _ => s.fail .panic

/-- The loops of `sliceEncoder`, `/repo/val_encoder_native_slice.go:53-61`, and of `arrayEncoder`,
`/repo/val_encoder_native_array.go:57-69`. -/
def elemsEncode (elem : ValEncoder F) : List (Val F) → Streamer → Streamer
  | [], s => s.arrayEnd
  | v :: vs, s =>
    let s := elem.encode false (some v) s
    if s.error ≠ none then s else elemsEncode elem vs s

/-- `sliceEncoder`, `/repo/val_encoder_native_slice.go:28-62`. -/
def sliceEncoder (elem : ValEncoder F) : ValEncoder F where
  isEmpty
    | .nilSlice => .ok true
    | .slice vs => .ok (vs.length = 0)
    | _ => .error .panic
  encode _ v s :=
    if s.error ≠ none then s
    else
      match v with
      | none => s.null
      | some .nilSlice => s.null
      | some (.slice vs) => if vs.length = 0 then s.raw (bs! "[]") else elemsEncode elem vs s.arrayStart
      | some _ => s.fail .panic

/-- The bytes of a `[]byte`. -/
def bytesOf : List (Val F) → Option (List Byte)
  | [] => some []
  | .int z :: vs => if z < 0 ∨ 256 ≤ z then none else (bytesOf vs).map (UInt8.ofNat z.toNat :: ·)
  | _ :: _ => none

/-- `base64Encoder`, `/repo/val_encoder_native_base64.go:10-37`. -/
def base64Encoder (E : EncEnv F) : ValEncoder F where
  isEmpty
    | .nilSlice => .ok true
    | .slice vs => .ok (vs.length = 0)
    | _ => .error .panic
  encode _ v s :=
    if s.error ≠ none then s
    else
      match v with
      | none => s.null
      | some .nilSlice => s.null
      | some (.slice vs) =>
        match bytesOf vs with
        | none => s.fail .panic
        | some src =>
          s.writeVal fun b =>
            let b := b ++ [b! '"']
            let b := if src.length ≠ 0 then b ++ E.base64 src else b
            some (b ++ [b! '"'])
      | some _ => s.fail .panic

/-- `emptyArrayEncoder`, `/repo/val_encoder_native_array.go:11-21`. -/
def emptyArrayEncoder : ValEncoder F where
  isEmpty _ := .ok true
  encode _ v s :=
    match v with
    | none => s.null
    | some (.arr []) => s.raw (bs! "[]")
    | some _ => s.fail .panic

/-- `arrayEncoder`, `/repo/val_encoder_native_array.go:47-70`. -/
def arrayEncoder (length : Nat) (elem : ValEncoder F) : ValEncoder F where
  isEmpty _ := .ok false
  encode _ v s :=
    match v with
    | none => s.null
    | some (.arr vs) => if vs.length ≠ length then s.fail .panic else elemsEncode elem vs s.arrayStart
    | some _ => s.fail .panic

/-- The kinds of key encoders: those of `keyEncoders`, `/repo/val_encoder.go:77-102`, and `textMarshalerKeyEncoder` for a type. -/
inductive KeyCoder where
  | str
  | int (w : Width)
  | uint (w : Width)
  | text (i : Nat)
  deriving DecidableEq, Repr

/-- The choice of `newMapEncoder`, `/repo/val_encoder_native_map.go:20-36`: strings go before the method, the method goes before
integers. -/
def keyCoder (E : EncEnv F) : KeyTy → Option KeyCoder
  | .str => some .str
  | .int w => some (.int w)
  | .uint w => some (.uint w)
  | .text i =>
    match E.under i with
    | .str | .number => some .str
    | .int w => if E.recv i = .value then some (.text i) else some (.int w)
    | .uint w => if E.recv i = .value then some (.text i) else some (.uint w)
    | _ => if E.recv i = .value then some (.text i) else none

/-- A key as a value of its type. -/
def keyVal : Key → Val F
  | .str x => .str x
  | .int z => .int z
  | .other n => .other n

/-- `textMarshalerKeyEncoder`, `/repo/val_encoder_native_map.go:62-77`.  Not modelled: `directTextMarshalerKeyEncoder`, for key types that
are stored directly in interfaces (C49 has it). -/
def textKeyEncode (f : Val F → Except EncErr (List Byte)) (key : Key) (s : Streamer) : Streamer :=
  if s.error ≠ none then s
  else
    match f (keyVal key) with
    | .error e => { s with error := some e }
    | .ok b =>
      let s := s.string b
      { s with buffer := s.buffer ++ [b! ':'], poped := false }

/-- The key encoders, `/repo/val_encoder_native_map.go:106-216`. -/
def keyEncode (E : EncEnv F) (k : KeyTy) (key : Key) (s : Streamer) : Streamer :=
  match keyCoder E k, key with
  | some .str, .str x => s.field x
  | some (.text i), key => textKeyEncode (E.marshalText i) key s
  | some (.int w), .int z =>
    if s.error ≠ none then s
    else
      match Streamer.quoted (appendIntOf w z) [] with
      | some buf => s.rawField buf
      | none => s.fail .panic
  | some (.uint w), .int z =>
    if s.error ≠ none then s
    else
      match Streamer.quoted (appendUintOf w z) [] with
      | some buf => s.rawField buf
      | none => s.fail .panic
  | _, _ => s.fail .panic

/-- The loop of `directMapEncoder`, `/repo/val_encoder_native_map_above_go118.go:25-35`; the list is what the iteration
returns. -/
def membersEncode (E : EncEnv F) (k : KeyTy) (elem : ValEncoder F) (m : Key → Option (Val F)) : List Key → Streamer → Streamer
  | [], s => s.objectEnd
  | key :: keys, s =>
    let s := keyEncode E k key s
    if s.error ≠ none then s
    else
      match m key with
      | none => s.fail .panic
      | some v =>
        let s := elem.encode false (some v) s
        if s.error ≠ none then s else membersEncode E k elem m keys s

/-- `directMapEncoder`, `/repo/val_encoder_native_map.go:54-57` and `/repo/val_encoder_native_map_above_go118.go:9-36`. -/
def mapEncoder (E : EncEnv F) (k : KeyTy) (elem : ValEncoder F) : ValEncoder F where
  isEmpty
    | .nilMap => .ok true
    | .map m =>
      match E.entries m with
      | some keys => .ok (keys.length = 0)
      | none => .error .panic
    | _ => .error .panic
  encode _ v s :=
    if s.error ≠ none then s
    else
      match v with
      | none => s.null
      | some .nilMap => s.null
      | some (.map m) =>
        match E.entries m with
        | some keys => membersEncode E k elem m (E.shuffle s.objectStart keys) s.objectStart
        | none => s.fail .panic
      | some _ => s.fail .panic

/-- The pointer to a field, `/repo/val_encoder_native_struct.go:80-89`: the value there, nothing if an embedded pointer on the
way is nil. -/
def followPath : List PathStep → Val F → Except EncErr (Option (Val F))
  | [], v => .ok (some v)
  | .member i :: p, .struct vs =>
    match vs[i]? with
    | some v => followPath p v
    | none => .error .panic
  | .deref _ _ :: _, .nilPtr => .ok none
  | .deref _ _ :: p, .ptr v => followPath p v
  | _, _ => .error .panic

/-- The part of the loop of `structEncoder` behind the test for `omitempty`, `/repo/val_encoder_native_struct.go:95-103`.  The
names are encoded by `encoderFields.add`, `/repo/val_encoder_native_struct.go:42-44`. -/
def fieldEncode (enc : ValEncoder F) (f : EncField) (v : Val F) (s : Streamer) : Streamer :=
  match encodeString [] f.name s.html with
  | none => s.fail .panic
  | some raw => enc.encode f.quoted (some v) (s.rawField raw)

/-- The test of `structEncoder`, `/repo/val_encoder_native_struct.go:80-94`: the value to write for a field, if any. -/
def fieldValue (enc : ValEncoder F) (f : EncField) (v : Val F) : Except EncErr (Option (Val F)) :=
  match followPath f.path v with
  | .error e => .error e
  | .ok none => .ok none
  | .ok (some x) =>
    if f.omitEmpty then
      match enc.isEmpty x with
      | .error e => .error e
      | .ok b => .ok (if b then none else some x)
    else .ok (some x)

/-- The loop of `structEncoder`, `/repo/val_encoder_native_struct.go:78-108`; `build` gives the encoder of a field type. -/
def fieldsEncode (build : Ty → ValEncoder F) (v : Val F) : List EncField → Streamer → Streamer
  | [], s => s.objectEnd
  | f :: fs, s =>
    match fieldValue (build f.ty) f v with
    | .error e => s.fail e
    | .ok none => fieldsEncode build v fs s
    | .ok (some x) =>
      let s := fieldEncode (build f.ty) f x s
      if s.error ≠ none then s else fieldsEncode build v fs s

/-- `structEncoder`, `/repo/val_encoder_native_struct.go:64-109`. -/
def structEncoder (build : Ty → ValEncoder F) (fs : List EncField) : ValEncoder F where
  isEmpty _ := .ok false
  encode _ v s :=
    if s.error ≠ none then s
    else
      match v with
      | none => s.null
      | some v => fieldsEncode build v fs s.objectStart

/-- `emptyStructEncoder`, `/repo/val_encoder_native_struct.go:114-124`. -/
def emptyStructEncoder : ValEncoder F where
  isEmpty _ := .ok true
  encode _ v s :=
    match v with
    | none => s.null
    | some (.struct _) => s.raw (bs! "{}")
    | some _ => s.fail .panic

/-- `MarshalJSON` and what is done with its result, `/repo/val_encoder_json_marshaler.go:32-38`. -/
def writeJSON (f : Val F → Except EncErr (List Byte)) (v : Val F) (s : Streamer) : Streamer :=
  match f v with
  | .error e => { s with error := some e }
  | .ok b => s.raw b

/-- `MarshalText` and what is done with its result, `/repo/val_encoder_text_marshaler.go:32-38`. -/
def writeText (f : Val F → Except EncErr (List Byte)) (v : Val F) (s : Streamer) : Streamer :=
  match f v with
  | .error e => { s with error := some e }
  | .ok b => s.string b

/-- `isEmptyFunctions`, `/repo/is_empty.go:15-45`, for the kind of a type; calling a missing function panics. -/
def kindEmpty (Γ : TyEnv F) (E : EncEnv F) (T : Ty) : Val F → Except EncErr Bool :=
  match T with
  | .bool => boolEncoder.isEmpty
  | .int w => (intEncoder (appendIntOf w)).isEmpty
  | .uint w => (intEncoder (appendUintOf w)).isEmpty
  | .float32 => (floatEncoder E.float32).isEmpty
  | .float64 => (floatEncoder E.float64).isEmpty
  | .array n _ => (arrayEncoder (F := F) n boolEncoder).isEmpty
  | .map k _ => (mapEncoder (F := F) E k boolEncoder).isEmpty
  | .slice _ => (sliceEncoder (F := F) boolEncoder).isEmpty
  | .named i =>
    match Γ.defn i with
    | .struct _ => (structEncoder (fun _ => boolEncoder) []).isEmpty
    | .array n _ => (arrayEncoder (F := F) n boolEncoder).isEmpty
    | .map k _ => (mapEncoder (F := F) E k boolEncoder).isEmpty
    | .slice _ => (sliceEncoder (F := F) boolEncoder).isEmpty
  | _ => fun _ => .error .panic

/-- `jsonMarshalerEncoder` and `directJSONMarshalerEncoder`, `/repo/val_encoder_json_marshaler.go:18-65`, and the same for
texts, `/repo/val_encoder_text_marshaler.go:18-65`; `write` is `writeJSON` or `writeText` with the method. -/
def marshalerEncoder (isEmpty : Val F → Except EncErr Bool) (write : Val F → Streamer → Streamer) : ValEncoder F where
  isEmpty := isEmpty
  encode _ v s :=
    if s.error ≠ none then s
    else
      match v with
      | none => s.null
      | some v => write v s

/-- `pointerJSONMarshalerEncoder`, `/repo/val_encoder_json_marshaler.go:69-94`, and the same for texts,
`/repo/val_encoder_text_marshaler.go:69-94`. -/
def pointerMarshalerEncoder (write : Val F → Streamer → Streamer) : ValEncoder F where
  isEmpty
    | .nilPtr => .ok true
    | .ptr _ => .ok false
    | _ => .error .panic
  encode _ v s :=
    if s.error ≠ none then s
    else
      match v with
      | none => s.null
      | some .nilPtr => s.null
      | some (.ptr x) => write x s
      | some _ => s.fail .panic

/-- `directEncoder`, `/repo/val_encoder_direct.go:11-17`: the encoder of the pointer type applied to the pointer. -/
def directEncoder (enc : ValEncoder F) : ValEncoder F where
  isEmpty x := enc.isEmpty (.ptr x)
  encode q v s :=
    match v with
    | none => enc.encode q (some .nilPtr) s
    | some x => enc.encode q (some (.ptr x)) s

/-- The encoding method of the pointer type, if the type itself has none. -/
def pointerMethod (E : EncEnv F) : Ty → Option (Val F → Streamer → Streamer)
  | .jsonUnmarshaler i => if E.recv i = .pointer then some (writeJSON (E.marshalJSON i)) else none
  | .textUnmarshaler i => if E.recv i = .pointer then some (writeText (E.marshalText i)) else none
  | _ => none

/-- `preferPtrEncoder`, `/repo/encoder_config.go:33-41`; `enc` is the encoder of the type. -/
def preferPtrEncoder (E : EncEnv F) (T : Ty) (enc : ValEncoder F) : ValEncoder F :=
  match pointerMethod E T with
  | some write => directEncoder (pointerMarshalerEncoder write)
  | none => enc

/-- `notSupportedEncoder`, `/repo/val_encoder.go:127-136`. -/
def notSupportedEncoder : ValEncoder F where
  isEmpty _ := .ok false
  encode _ _ s := s.fail .typeNotSupported

/-- A `map[string]interface{}` as a variable of its type. -/
def anyEntries (m : GoMap F) : Key → Option (Val F)
  | .str x => (m x).map Val.any
  | _ => none

/-- `efaceEncoder`, `/repo/val_encoder_native_interface.go:9-19`, with `value`, `/repo/streamer_val.go:8-24`; `rest` gives the
encoders of `[]interface{}` and `map[string]interface{}`. -/
def anyEncoder (E : EncEnv F) (rest : Ty → ValEncoder F) : ValEncoder F where
  isEmpty
    | .any .nil => .ok true
    | .any _ => .ok false
    | _ => .error .panic
  encode q v s :=
    match v with
    | none => s.null
    | some (.any g) =>
      if s.error ≠ none then s
      else
        match g with
        | .nil => s.null
        | .bool b => (boolEncoder (F := F)).encode q (some (.bool b)) s
        | .number l => (numberEncoder (F := F)).encode q (some (.str l)) s
        | .float f => (floatEncoder E.float64).encode q (some (.float f)) s
        | .str x => (stringEncoder E).encode q (some (.str x)) s
        | .arr l => (rest (.slice .any)).encode q (some (.slice (l.map Val.any))) s
        | .obj m =>
          (rest (.map .str .any)).encode q (some (.map (anyEntries m))) s
    | some _ => s.fail .panic

/-- The encoder of a slice type, `/repo/encoder_config.go:273-277` and `296-318`: bytes are encoded in base64. -/
def sliceEncoderOf (E : EncEnv F) (t : Ty) (enc : ValEncoder F) : ValEncoder F :=
  if t = .uint .w8 then base64Encoder E else sliceEncoder (preferPtrEncoder E t enc)

/-- The encoder of an array type, `/repo/encoder_config.go:241-252`. -/
def arrayEncoderOf (E : EncEnv F) (n : Nat) (t : Ty) (enc : ValEncoder F) : ValEncoder F :=
  if n = 0 then emptyArrayEncoder else arrayEncoder n (preferPtrEncoder E t enc)

/-- The encoder of a map type, `/repo/encoder_config.go:265-277`: there is none for keys without encoder. -/
def mapEncoderOf (E : EncEnv F) (k : KeyTy) (enc : ValEncoder F) : ValEncoder F :=
  if keyCoder E k = none then notSupportedEncoder else mapEncoder E k enc

/-- The encoder of a type, chosen as in `createEncoderInternal`, `/repo/encoder_config.go:133-374`; `rest` gives the encoders
for which types have to be unfolded. -/
def encoderStep (Γ : TyEnv F) (E : EncEnv F) (rest : Ty → ValEncoder F) : Ty → ValEncoder F
  | .bool => boolEncoder
  | .str => stringEncoder E
  | .int w => intEncoder (appendIntOf w)
  | .uint w => intEncoder (appendUintOf w)
  | .float32 => floatEncoder E.float32
  | .float64 => floatEncoder E.float64
  | .number => numberEncoder
  | .raw => rawEncoder
  | .any => anyEncoder E rest
  | .ptr t =>
    match pointerMethod E t with
    | some write => pointerMarshalerEncoder write
    | none => ptrEncoder (encoderStep Γ E rest t)
  | .slice t => sliceEncoderOf E t (encoderStep Γ E rest t)
  | .array n t => arrayEncoderOf E n t (encoderStep Γ E rest t)
  | .map k t => mapEncoderOf E k (encoderStep Γ E rest t)
  | .jsonUnmarshaler i =>
    match E.recv i with
    | .value => marshalerEncoder (kindEmpty Γ E (E.under i)) (writeJSON (E.marshalJSON i))
    | .pointer => rest (.jsonUnmarshaler i)
  | .textUnmarshaler i =>
    match E.recv i with
    | .value => marshalerEncoder (kindEmpty Γ E (E.under i)) (writeText (E.marshalText i))
    | .pointer => rest (.textUnmarshaler i)
  | .unsupported => notSupportedEncoder
  | .named i => rest (.named i)

/-- The encoder of the definition of a named type, `/repo/encoder_config.go:232-290`. -/
def defEncoder (E : EncEnv F) (enc : Ty → ValEncoder F) (i : Nat) : Def → ValEncoder F
  | .slice t => sliceEncoderOf E t (enc t)
  | .array n t => arrayEncoderOf E n t (enc t)
  | .map k t => mapEncoderOf E k (enc t)
  | .struct _ =>
    if (E.fields i).length = 0 then emptyStructEncoder
    else structEncoder (fun t => preferPtrEncoder E t (enc t)) (E.fields i)

/-- The encoder for which a name or an interface has to be unfolded, `/repo/encoder_config.go:133-374`.  Go ties the knot for
recursive types with pointers; here the first argument bounds how often this happens. -/
def unfoldedEncoder (Γ : TyEnv F) (E : EncEnv F) : Nat → Ty → ValEncoder F
  | 0, _ => { isEmpty := fun _ => .error .hang, encode := fun _ _ s => s.fail .hang }
  | n + 1, .named i => defEncoder E (encoderStep Γ E (unfoldedEncoder Γ E n)) i (Γ.defn i)
  | n + 1, .jsonUnmarshaler i => encoderStep Γ E (unfoldedEncoder Γ E n) (E.under i)
  | n + 1, .textUnmarshaler i => encoderStep Γ E (unfoldedEncoder Γ E n) (E.under i)
  | n + 1, t => encoderStep Γ E (unfoldedEncoder Γ E n) t

/-- The encoder of a type, `/repo/encoder_config.go:133-374`; the first argument bounds how often a type is unfolded. -/
def encoderOf (Γ : TyEnv F) (E : EncEnv F) (n : Nat) : Ty → ValEncoder F := encoderStep Γ E (unfoldedEncoder Γ E n)

/-- `value`, `/repo/streamer_val.go:8-24`, for an interface that holds the value `v` of type `T`. -/
def Streamer.value (Γ : TyEnv F) (E : EncEnv F) (n : Nat) (T : Ty) (v : Val F) (s : Streamer) : Streamer :=
  if s.error ≠ none then s else (encoderOf Γ E n T).encode false (some v) s

/-- `Marshal`, `/repo/encoder_config.go:85-99`, with a streamer whose state was `old` when it was returned to the pool. -/
def Marshal (Γ : TyEnv F) (E : EncEnv F) (old : Streamer) (n : Nat) (T : Ty) (v : Val F) : Except EncErr (List Byte) :=
  let s := Streamer.value Γ E n T v (newStreamer E old)
  match s.error with
  | some e => .error e
  | none => .ok s.buffer

end

end Jzon
