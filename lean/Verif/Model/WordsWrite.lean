import Verif.Model.Words
import Verif.Model.Marshal

/-!
# From trees to bytes

`Verif.Model.Words` gives a tree of what the encoders write.  Here is what they do with the streamer for it: the calls of its
methods, in the order of the tree, up to the first error.

The numbers in the cells of memory get a meaning, and so do the methods and the encoders of the user.  A method does not change
memory.  An encoder of the user writes one text or sets an error.
-/

namespace Jzon.Words

/-- An integer with its type. -/
structure IntArg where
  signed : Bool
  width : Width
  value : Int

/-- `appendInt8` and so on. -/
def IntArg.append (z : IntArg) : List Byte → Option (List Byte) :=
  if z.signed then appendIntOf z.width z.value else appendUintOf z.width z.value

/-- What the numbers in memory stand for, the names of the fields, the configuration, and what the methods and the encoders of the
user answer. -/
structure Meaning where
  /-- `EncoderConfig.escapeHTML` -/
  escapeHTML : Bool
  bool : Nat → Bool
  string : Nat → List Byte
  int : Nat → IntArg
  float : Nat → FloatArg
  name : Nat → List Byte
  /-- `base64.StdEncoding.Encode` -/
  base64 : List Byte → List Byte
  json : RTy → DVal → Except EncErr (List Byte)
  text : RTy → DVal → Except EncErr (List Byte)
  /-- the text an encoder of the user writes; it may ask the streamer whether HTML is escaped, and gets the option `string` and the
  variable, unless its pointer is nil -/
  custom : (html q : Bool) → RTy → Option DVal → Except EncErr (List Byte)

/-- The byte in a cell. -/
def byteOf (n : Nat) : Byte := UInt8.ofNat n

/-- The encoders of the basic kinds, `/repo/val_encoder_native.go:14-56`, `/repo/val_encoder_native_int.go:14-81`,
`/repo/val_encoder_native_uint.go:17-93`, `/repo/val_encoder_native_float.go:14-35`, called with a pointer that is not nil. -/
def Meaning.writePrim (M : Meaning) (q : Bool) (k : Prim) (n : Nat) (s : Streamer) : Streamer :=
  match k with
  | .bool =>
    if ¬ q then s.bool (M.bool n) else if M.bool n then s.string (bs! "true") else s.string (bs! "false")
  | .string =>
    if ¬ q then s.string (M.string n)
    else
      let sub := (Streamer.escapeHTML ⟨none, [], none, false, false⟩ M.escapeHTML).string (M.string n)
      match sub.error with
      | some e => { s with error := some e }
      | none => s.string sub.buffer
  | .int => if ¬ q then s.writeVal (M.int n).append else s.writeVal (Streamer.quoted (M.int n).append)
  | .uint8 =>
    let app := fun b => appendUint8 b (byteOf n).toBitVec
    if ¬ q then s.writeVal app else s.writeVal (Streamer.quoted app)
  | .float => s.float (M.float n)

/-- `if err != nil { s.Error = err; return }; s.Raw(b)`, `/repo/val_encoder_json_marshaler.go:33-38` and so on. -/
def writeRaw (r : Except EncErr (List Byte)) (s : Streamer) : Streamer :=
  if s.error ≠ none then s
  else
    match r with
    | .error e => { s with error := some e }
    | .ok b => s.raw b

/-- `if err != nil { s.Error = err; return }; s.String(b)`, `/repo/val_encoder_text_marshaler.go:33-38` and so on. -/
def writeString (r : Except EncErr (List Byte)) (s : Streamer) : Streamer :=
  if s.error ≠ none then s
  else
    match r with
    | .error e => { s with error := some e }
    | .ok b => s.string b

/-- The end of the encoders of keys with methods: `s.buffer = append(s.buffer, ':'); s.poped = false`,
`/repo/val_encoder_native_map.go:73-75`, `100-102`. -/
def colon (s : Streamer) : Streamer := if s.error ≠ none then s else { s with buffer := s.buffer ++ [b! ':'], poped := false }

/-- The key encoders, `/repo/val_encoder_native_map.go:60-216`.  There are no keys of the kinds `bool` and `float`. -/
def KeyOut.write (M : Meaning) (k : KeyOut) (s : Streamer) : Streamer :=
  match k with
  | .prim .string n => s.field (M.string n)
  | .prim .int n =>
    if s.error ≠ none then s
    else
      match Streamer.quoted (M.int n).append [] with
      | some buf => s.rawField buf
      | none => s.fail .panic
  | .prim .uint8 n =>
    if s.error ≠ none then s
    else
      match Streamer.quoted (fun b => appendUint8 b (byteOf n).toBitVec) [] with
      | some buf => s.rawField buf
      | none => s.fail .panic
  | .prim .bool _ | .prim .float _ => s.fail .panic
  | .text t v => colon (writeString (M.text t v) s)
  | .empty => colon (writeString (.ok []) s)
  | .panic => s.fail .panic

mutual
/-- What the encoders do with the streamer. -/
def Out.write (M : Meaning) : Out → Streamer → Streamer
  | .null, s => s.null
  | .prim q k n, s => M.writePrim q k n s
  -- `/repo/val_encoder_json_number.go:19-24`
  | .number n, s => s.raw (if M.string n = [] then bs! "0" else M.string n)
  -- `/repo/val_encoder_json_rawmessage.go:18-20`
  | .raw bs, s => s.raw (bs.map byteOf)
  -- `/repo/val_encoder_native_base64.go:26-36`
  | .base64 bs, s =>
    if s.error ≠ none then s
    else
      s.writeVal fun b =>
        let b := b ++ [b! '"']
        let b := if bs.length ≠ 0 then b ++ M.base64 (bs.map byteOf) else b
        some (b ++ [b! '"'])
  -- `/repo/val_encoder_native_slice.go:49-61`, `/repo/val_encoder_native_array.go:16-20`, `57-69`
  | .arr os, s => if s.error ≠ none then s else if os.length = 0 then s.raw (bs! "[]") else writeElems M os s.arrayStart
  -- `/repo/val_encoder_native_struct.go:76-124`
  | .obj os, s => if s.error ≠ none then s else writeFields M os s.objectStart
  -- `/repo/val_encoder_native_map_above_go118.go:22-36`
  | .dict os, s => if s.error ≠ none then s else writeEntries M os s.objectStart
  | .json t v, s => writeRaw (M.json t v) s
  | .text t v, s => writeString (M.text t v) s
  | .custom q t v, s => writeRaw (M.custom s.html q t (some v)) s
  | .customNil q t, s => writeRaw (M.custom s.html q t none) s
  -- `/repo/val_encoder.go:127-132`
  | .notSupported, s => s.fail .typeNotSupported
  | .panic, s => s.fail .panic
/-- The loops over elements, `/repo/val_encoder_native_slice.go:53-61`, `/repo/val_encoder_native_array.go:57-69`. -/
def writeElems (M : Meaning) : List Out → Streamer → Streamer
  | [], s => s.arrayEnd
  | o :: os, s =>
    let s := o.write M s
    if s.error ≠ none then s else writeElems M os s
/-- The loop over fields, `/repo/val_encoder_native_struct.go:95-108`; the names are encoded when the encoder is made, once with HTML
escaped and once without, `/repo/val_encoder_native_struct.go:42-44`. -/
def writeFields (M : Meaning) : List (Nat × Out) → Streamer → Streamer
  | [], s => s.objectEnd
  | (n, o) :: os, s =>
    match encodeString [] (M.name n) s.html with
    | none => s.fail .panic
    | some raw =>
      let s := o.write M (s.rawField raw)
      if s.error ≠ none then s else writeFields M os s
/-- The loop over the entries of a map, `/repo/val_encoder_native_map_above_go118.go:25-35`. -/
def writeEntries (M : Meaning) : List (KeyOut × Out) → Streamer → Streamer
  | [], s => s.objectEnd
  | (k, o) :: os, s =>
    let s := k.write M s
    if s.error ≠ none then s
    else
      let s := o.write M s
      if s.error ≠ none then s else writeEntries M os s
end

/-- `Streamer.Value`, `/repo/streamer_val.go:8-29`: the streamer afterwards. -/
inductive ValueWrites (Γ : Types) (M : Meaning) (m : Memory) (x : Option (RTy × Ptr)) (s : Streamer) : Streamer → Prop
  | failed : s.error ≠ none → ValueWrites Γ M m x s s
  | value {o} : s.error = none → Value Γ m x o → ValueWrites Γ M m x s (o.write M s)

/-- `Marshal`, `/repo/encoder_config.go:85-99`, with a streamer whose state was `old` when it was returned to the pool. -/
inductive Marshals (Γ : Types) (M : Meaning) (m : Memory) (old : Streamer) (x : Option (RTy × Ptr)) : Except EncErr (List Byte) → Prop
  | error {s e} : ValueWrites Γ M m x (old.reset.escapeHTML M.escapeHTML) s → s.error = some e → Marshals Γ M m old x (.error e)
  | ok {s} : ValueWrites Γ M m x (old.reset.escapeHTML M.escapeHTML) s → s.error = none → Marshals Γ M m old x (.ok s.buffer)

end Jzon.Words
