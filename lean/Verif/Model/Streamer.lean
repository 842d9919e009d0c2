import Verif.Model.Encode

/-!
# The streamer

Model of `/repo/streamer.go`, of the methods in `/repo/streamer_int.go`, `/repo/streamer_str.go`, `/repo/streamer_float.go`
and of `/repo/encoder.go`.
-/

namespace Jzon

/-- Errors of the encoding side, `/repo/errors_encoder.go` and errors of the writer (`writer n`) or of user code
(`custom n`).  `panic` stands for a run time panic, `hang` for a recursion that goes deeper than the bound of the model. -/
inductive EncErr where
  | noAttachedWriter
  | floatIsInfinity
  | floatIsNan
  | typeNotSupported
  | writer (n : Nat)
  | custom (n : Nat)
  | panic
  | hang
  deriving DecidableEq, Repr

/-- The result of a `Write` call: it accepts everything without error, or it accepts the first `n` bytes (all, if there
are fewer) and returns `(n, err)`. -/
inductive Reply where
  | all
  | part (n : Nat) (err : Option EncErr)
  deriving DecidableEq, Repr

/-- An `io.Writer`: what it has accepted, and the results of the `Write` calls to come; when the list is used up it accepts
everything. -/
structure Writer where
  out : List Byte
  script : List Reply
  deriving DecidableEq, Repr

/-- `Write(p)`: the number of bytes accepted, the error, and the writer afterwards. -/
def Writer.write (w : Writer) (p : List Byte) : Nat × Option EncErr × Writer :=
  match w.script with
  | [] => (p.length, none, { w with out := w.out ++ p })
  | .all :: rest => (p.length, none, { out := w.out ++ p, script := rest })
  | .part n e :: rest => (n, e, { out := w.out ++ p.take n, script := rest })

/-- `Streamer`, `/repo/streamer.go:8-26`.  `html` stands for `escapeHTML` and `safeSet`, which are always set together
(`EscapeHTML`, `/repo/streamer.go:53-60`).  `cfg` and `Context` are not modelled. -/
structure Streamer where
  writer : Option Writer
  buffer : List Byte
  error : Option EncErr
  poped : Bool
  html : Bool
  deriving DecidableEq, Repr

namespace Streamer

/-- `reset`, `/repo/streamer.go:38-44`. -/
def reset (s : Streamer) : Streamer := { s with writer := none, error := none, poped := false, buffer := [] }

/-- `Reset`, `/repo/streamer.go:47-50`. -/
def resetWriter (s : Streamer) (w : Option Writer) : Streamer := { s.reset with writer := w }

/-- `EscapeHTML`, `/repo/streamer.go:53-60`. -/
def escapeHTML (s : Streamer) (on : Bool) : Streamer := { s with html := on }

/-- Go's `copy(dst, src)`: the new content of `dst`. -/
def copyInto (dst src : List Byte) : List Byte := src.take dst.length ++ dst.drop src.length

/-- `Flush`, `/repo/streamer.go:68-85`. -/
def flush (s : Streamer) : Option EncErr × Streamer :=
  match s.error with
  | some e => (some e, s)
  | none =>
    match s.writer with
    | none => (some .noAttachedWriter, s)
    | some w =>
      let l := s.buffer.length
      let (n, err, w) := w.write s.buffer
      if n < l then
        let buffer := copyInto s.buffer (s.buffer.drop n)
        (err, { s with writer := some w, buffer := buffer.take (l - n) })
      else (err, { s with writer := some w, buffer := [] })

/-- `onVal`, `/repo/streamer.go:87-93`. -/
def onVal (s : Streamer) : Streamer :=
  if s.poped then { s with buffer := s.buffer ++ [b! ','] } else { s with poped := true }

/-- The common shape of the methods that write a value: `if s.Error != nil { return s }; s.onVal(); s.buffer = f(s.buffer)`. -/
def writeVal (s : Streamer) (f : List Byte → Option (List Byte)) : Streamer :=
  if s.error ≠ none then s
  else
    let s := s.onVal
    match f s.buffer with
    | some b => { s with buffer := b }
    | none => { s with error := some .panic }

/-- `RawString` and `Raw`, `/repo/streamer.go:97-114`. -/
def raw (s : Streamer) (text : List Byte) : Streamer := s.writeVal fun b => some (b ++ text)
/-- `Null`, `/repo/streamer.go:121-127`. -/
def null (s : Streamer) : Streamer := s.writeVal fun b => some (b ++ bs! "null")
/-- `True`, `/repo/streamer.go:130-137`. -/
def true_ (s : Streamer) : Streamer := s.writeVal fun b => some (b ++ bs! "true")
/-- `False`, `/repo/streamer.go:140-147`. -/
def false_ (s : Streamer) : Streamer := s.writeVal fun b => some (b ++ bs! "false")
/-- `Bool`, `/repo/streamer.go:150-155`. -/
def bool (s : Streamer) (b : Bool) : Streamer := if b then s.true_ else s.false_
/-- `String`, `/repo/streamer_str.go:32-39`. -/
def string (s : Streamer) (str : List Byte) : Streamer := s.writeVal fun b => encodeString b str s.html

/-- `Int8`, `/repo/streamer_int.go:62-69`. -/
def int8 (s : Streamer) (v : BitVec 8) : Streamer := s.writeVal fun b => appendInt appendUint8 b v
/-- `Uint8`, `/repo/streamer_int.go:83-90`. -/
def uint8 (s : Streamer) (v : BitVec 8) : Streamer := s.writeVal fun b => appendUint8 b v
/-- `Int16`, `/repo/streamer_int.go:122-129`. -/
def int16 (s : Streamer) (v : BitVec 16) : Streamer := s.writeVal fun b => appendInt appendUint16 b v
/-- `Uint16`, `/repo/streamer_int.go:143-150`. -/
def uint16 (s : Streamer) (v : BitVec 16) : Streamer := s.writeVal fun b => appendUint16 b v
/-- `Int32`, `/repo/streamer_int.go:197-204`. -/
def int32 (s : Streamer) (v : BitVec 32) : Streamer := s.writeVal fun b => appendInt appendUint32 b v
/-- `Uint32`, `/repo/streamer_int.go:218-225`. -/
def uint32 (s : Streamer) (v : BitVec 32) : Streamer := s.writeVal fun b => appendUint32 b v
/-- `Int64`, `/repo/streamer_int.go:293-300`; also `Int`, `324-326`, for a 64-bit `int`. -/
def int64 (s : Streamer) (v : BitVec 64) : Streamer := s.writeVal fun b => appendInt appendUint64 b v
/-- `Uint64`, `/repo/streamer_int.go:314-321`; also `Uint`, `329-331`. -/
def uint64 (s : Streamer) (v : BitVec 64) : Streamer := s.writeVal fun b => appendUint64 b v

/-- The quoted forms (`quotedInt8` and so on), `/repo/streamer_int.go:50-59` and so on: the value between two quotation
marks. -/
def quoted (f : List Byte → Option (List Byte)) (b : List Byte) : Option (List Byte) := do
  let b ← f (b ++ [b! '"'])
  pure (b ++ [b! '"'])

/-- `ObjectStart`, `/repo/streamer.go:158-166`. -/
def objectStart (s : Streamer) : Streamer :=
  if s.error ≠ none then s
  else
    let s := s.onVal
    { s with buffer := s.buffer ++ [b! '{'], poped := false }

/-- `Field`, `/repo/streamer.go:169-178`. -/
def field (s : Streamer) (name : List Byte) : Streamer :=
  if s.error ≠ none then s
  else
    let s := s.onVal
    match encodeString s.buffer name s.html with
    | some b => { s with buffer := b ++ [b! ':'], poped := false }
    | none => { s with error := some .panic }

/-- `RawField`, `/repo/streamer.go:181-190`. -/
def rawField (s : Streamer) (b : List Byte) : Streamer :=
  if s.error ≠ none then s
  else
    let s := s.onVal
    { s with buffer := s.buffer ++ b ++ [b! ':'], poped := false }

/-- `ObjectEnd`, `/repo/streamer.go:193-200`. -/
def objectEnd (s : Streamer) : Streamer :=
  if s.error ≠ none then s else { s with buffer := s.buffer ++ [b! '}'], poped := true }

/-- `ArrayStart`, `/repo/streamer.go:203-211`. -/
def arrayStart (s : Streamer) : Streamer :=
  if s.error ≠ none then s
  else
    let s := s.onVal
    { s with buffer := s.buffer ++ [b! '['], poped := false }

/-- `ArrayEnd`, `/repo/streamer.go:214-221`. -/
def arrayEnd (s : Streamer) : Streamer :=
  if s.error ≠ none then s else { s with buffer := s.buffer ++ [b! ']'], poped := true }

end Streamer

/-! ## Floats -/

/-- A float, given by what the comparisons and the functions of `math` and `strconv` that `Float32` and `Float64` use
return for it. -/
structure FloatArg where
  isInf : Bool
  isNaN : Bool
  /-- `math.Abs(f) != 0` -/
  nonZero : Bool
  /-- `f > 0` -/
  pos : Bool
  /-- `f < 1e-6` and `f >= 1e21` -/
  ltSmall : Bool
  geBig : Bool
  /-- `f > -1e-6` and `f <= -1e21` -/
  gtNegSmall : Bool
  leNegBig : Bool
  /-- what `strconv.AppendFloat(b, f, fmt, -1, bits)` appends for `fmt` = `'f'` and `'e'` -/
  fixed : List Byte
  exponent : List Byte

/-- The removal of a leading zero in a negative exponent, `/repo/streamer_float.go:37-45` and `76-84`. -/
def trimExponent (buffer : List Byte) : List Byte :=
  let n := buffer.length
  if n > 4 ∧ buffer[n - 4]? = some (b! 'e') ∧ buffer[n - 3]? = some (b! '-') ∧ buffer[n - 2]? = some (b! '0') then
    (buffer.set (n - 2) (buffer[n - 1]?.getD 0)).take (n - 1)
  else buffer

/-- The choice of the exponent format, `/repo/streamer_float.go:23-35` and `62-74`. -/
def FloatArg.useE (f : FloatArg) : Bool :=
  if f.nonZero then
    if f.pos then f.ltSmall || f.geBig else f.gtNegSmall || f.leNegBig
  else false

/-- `Float32` and `Float64`, `/repo/streamer_float.go:9-46`, `49-86`. -/
def Streamer.float (s : Streamer) (f : FloatArg) : Streamer :=
  if s.error ≠ none then s
  else if f.isInf then { s with error := some .floatIsInfinity }
  else if f.isNaN then { s with error := some .floatIsNan }
  else
    let s := s.onVal
    let buffer := s.buffer ++ (if f.useE then f.exponent else f.fixed)
    { s with buffer := if f.useE then trimExponent buffer else buffer }

/-! ## Sequences of calls -/

/-- A call of one of the streamer's methods; `Int` and `Uint` are `Int64` and `Uint64`, `RawString` is `Raw`. -/
inductive Call where
  | null
  | bool (b : Bool)
  | int8 (v : BitVec 8)
  | uint8 (v : BitVec 8)
  | int16 (v : BitVec 16)
  | uint16 (v : BitVec 16)
  | int32 (v : BitVec 32)
  | uint32 (v : BitVec 32)
  | int64 (v : BitVec 64)
  | uint64 (v : BitVec 64)
  | float (f : FloatArg)
  | string (s : List Byte)
  | raw (t : List Byte)
  | objectStart
  | field (name : List Byte)
  | rawField (t : List Byte)
  | objectEnd
  | arrayStart
  | arrayEnd

def Streamer.call (s : Streamer) : Call → Streamer
  | .null => s.null
  | .bool b => s.bool b
  | .int8 v => s.int8 v
  | .uint8 v => s.uint8 v
  | .int16 v => s.int16 v
  | .uint16 v => s.uint16 v
  | .int32 v => s.int32 v
  | .uint32 v => s.uint32 v
  | .int64 v => s.int64 v
  | .uint64 v => s.uint64 v
  | .float f => s.float f
  | .string str => s.string str
  | .raw t => s.raw t
  | .objectStart => s.objectStart
  | .field name => s.field name
  | .rawField t => s.rawField t
  | .objectEnd => s.objectEnd
  | .arrayStart => s.arrayStart
  | .arrayEnd => s.arrayEnd

/-- The chained calls `s.C1().C2()…`. -/
def Streamer.calls (s : Streamer) (cs : List Call) : Streamer := cs.foldl Streamer.call s

/-! ## Encoder -/

/-- `Encoder`, `/repo/encoder.go:6-9`. -/
structure Encoder where
  s : Streamer
  err : Option EncErr

/-- `encodeInternal`, `/repo/encoder.go:17-27`.  The effect of `s.Value(v)` is the parameter `value`.  The streamer of an
encoder always has a writer; without one the Go code panics only after `Flush` returned no error, which cannot be. -/
def encodeInternal (value : Streamer → Streamer) (s : Streamer) : Option EncErr × Streamer :=
  match (value s).flush with
  | (some e, s) => (some e, s)
  | (none, s) =>
    match s.writer with
    | none => (some .panic, s)
    | some w =>
      let (_, err, w) := w.write [b! '\n']
      match err with
      | some e => (some e, { s with writer := some w })
      | none => (none, s.resetWriter (some w))

/-- `Encode`, `/repo/encoder.go:31-36`. -/
def Encoder.encode (e : Encoder) (value : Streamer → Streamer) : Option EncErr × Encoder :=
  match e.err with
  | some err => (some err, e)
  | none =>
    let (err, s) := encodeInternal value e.s
    (err, ⟨s, err⟩)

end Jzon
