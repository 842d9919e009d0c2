import Verif.Basic

/-!
# Writing integers and strings

Model of the append functions of `/repo/streamer_int.go` and of `encodeString` in `/repo/streamer_str.go`.
`none` stands for a run time panic (index or slice out of range).
-/

namespace Jzon

/-! ## Integers -/

/-- The table `digits`, `/repo/streamer_int.go:11-22`: three digits in the low bytes, the number of leading zeros in the
high byte.  Indexing behind the 1000 entries panics. -/
def digitsAt (i : Nat) : Option (BitVec 32) :=
  if i < 1000 then
    let i := BitVec.ofNat 32 i
    let v := ((i / 100 + 0x30) <<< 16) + (((i / 10) % 10 + 0x30) <<< 8) + (i % 10 + 0x30)
    some (if i < 10 then v ||| ((2 : BitVec 32) <<< 24) else if i < 100 then v ||| ((1 : BitVec 32) <<< 24) else v)
  else none

/-- Go's conversion `byte(v)`. -/
def byteOf {w : Nat} (v : BitVec w) : Byte := UInt8.ofBitVec (v.setWidth 8)

/-- `appendLeadingDigit`, `/repo/streamer_int.go:23-32`. -/
def appendLeadingDigit (data : List Byte) (v : BitVec 32) : List Byte :=
  let start := v >>> 24
  if start = 0 then data ++ [byteOf (v >>> 16), byteOf (v >>> 8), byteOf v]
  else if start = 1 then data ++ [byteOf (v >>> 8), byteOf v]
  else data ++ [byteOf v]

/-- `appendDigit`, `/repo/streamer_int.go:34-36`. -/
def appendDigit (data : List Byte) (v : BitVec 32) : List Byte :=
  data ++ [byteOf (v >>> 16), byteOf (v >>> 8), byteOf v]

/-- `appendUint8`, `/repo/streamer_int.go:38-40`. -/
def appendUint8 (b : List Byte) (v : BitVec 8) : Option (List Byte) := do
  pure (appendLeadingDigit b (← digitsAt v.toNat))

/-- `appendUint16`, `/repo/streamer_int.go:92-100`. -/
def appendUint16 (b : List Byte) (v : BitVec 16) : Option (List Byte) := do
  let q1 := v / 1000
  if q1 = 0 then pure (appendLeadingDigit b (← digitsAt v.toNat))
  else do
    let r1 := v - q1 * 1000
    let b := appendLeadingDigit b (← digitsAt q1.toNat)
    pure (appendDigit b (← digitsAt r1.toNat))

/-- `appendUint32`, `/repo/streamer_int.go:152-175`. -/
def appendUint32 (b : List Byte) (v : BitVec 32) : Option (List Byte) := do
  let q1 := v / 1000
  if q1 = 0 then pure (appendLeadingDigit b (← digitsAt v.toNat))
  else do
    let r1 := v - q1 * 1000
    let q2 := q1 / 1000
    if q2 = 0 then do
      let b := appendLeadingDigit b (← digitsAt q1.toNat)
      pure (appendDigit b (← digitsAt r1.toNat))
    else do
      let r2 := q1 - q2 * 1000
      let q3 := q2 / 1000
      if q3 = 0 then do
        let b := appendLeadingDigit b (← digitsAt q2.toNat)
        let b := appendDigit b (← digitsAt r2.toNat)
        pure (appendDigit b (← digitsAt r1.toNat))
      else do
        let r3 := q2 - q3 * 1000
        let b := b ++ [byteOf (q3 + 0x30)]
        let b := appendDigit b (← digitsAt r3.toNat)
        let b := appendDigit b (← digitsAt r2.toNat)
        pure (appendDigit b (← digitsAt r1.toNat))

/-- The innermost part of `appendUint64`, `/repo/streamer_int.go:253-262`. -/
def appendUint64q5 (b : List Byte) (q5 : BitVec 64) : Option (List Byte) := do
  let q6 := q5 / 1000
  if q6 = 0 then pure (appendLeadingDigit b (← digitsAt q5.toNat))
  else do
    let b := appendLeadingDigit b (← digitsAt q6.toNat)
    let r6 := q5 - q6 * 1000
    pure (appendDigit b (← digitsAt r6.toNat))

/-- `/repo/streamer_int.go:248-264`. -/
def appendUint64q4 (b : List Byte) (q4 : BitVec 64) : Option (List Byte) := do
  let q5 := q4 / 1000
  if q5 = 0 then pure (appendLeadingDigit b (← digitsAt q4.toNat))
  else do
    let r5 := q4 - q5 * 1000
    let b ← appendUint64q5 b q5
    pure (appendDigit b (← digitsAt r5.toNat))

/-- `/repo/streamer_int.go:243-266`. -/
def appendUint64q3 (b : List Byte) (q3 : BitVec 64) : Option (List Byte) := do
  let q4 := q3 / 1000
  if q4 = 0 then pure (appendLeadingDigit b (← digitsAt q3.toNat))
  else do
    let r4 := q3 - q4 * 1000
    let b ← appendUint64q4 b q4
    pure (appendDigit b (← digitsAt r4.toNat))

/-- `/repo/streamer_int.go:238-268`. -/
def appendUint64q2 (b : List Byte) (q2 : BitVec 64) : Option (List Byte) := do
  let q3 := q2 / 1000
  if q3 = 0 then pure (appendLeadingDigit b (← digitsAt q2.toNat))
  else do
    let r3 := q2 - q3 * 1000
    let b ← appendUint64q3 b q3
    pure (appendDigit b (← digitsAt r3.toNat))

/-- `/repo/streamer_int.go:233-270`. -/
def appendUint64q1 (b : List Byte) (q1 : BitVec 64) : Option (List Byte) := do
  let q2 := q1 / 1000
  if q2 = 0 then pure (appendLeadingDigit b (← digitsAt q1.toNat))
  else do
    let r2 := q1 - q2 * 1000
    let b ← appendUint64q2 b q2
    pure (appendDigit b (← digitsAt r2.toNat))

/-- `appendUint64`, `/repo/streamer_int.go:227-271`. -/
def appendUint64 (b : List Byte) (v : BitVec 64) : Option (List Byte) := do
  let q1 := v / 1000
  if q1 = 0 then pure (appendLeadingDigit b (← digitsAt v.toNat))
  else do
    let r1 := v - q1 * 1000
    let b ← appendUint64q1 b q1
    pure (appendDigit b (← digitsAt r1.toNat))

/-- `appendInt8`, `appendInt16`, `appendInt32`, `appendInt64`, `/repo/streamer_int.go:42-48`, `102-108`, `177-183`,
`273-279`, given the unsigned function of the same width. -/
def appendInt {w : Nat} (appendUint : List Byte → BitVec w → Option (List Byte)) (b : List Byte) (v : BitVec w) :
    Option (List Byte) :=
  if v.slt 0 then appendUint (b ++ [b! '-']) (-v) else appendUint b v

/-! ## Strings -/

/-- `utf8.DecodeRuneInString` of the standard library (Go 1.13 and later): the rune and its width; `(0xFFFD, 1)` for an
invalid encoding and `(0xFFFD, 0)` for the empty string. -/
def decodeRune (s : List Byte) : Nat × Nat :=
  let bad := (0xFFFD, 1)
  let cont (c : Byte) : Bool := 0x80 ≤ c && c ≤ 0xBF
  match s with
  | [] => (0xFFFD, 0)
  | c0 :: s =>
    if c0 < 0x80 then (c0.toNat, 1)
    else if c0 < 0xC2 ∨ 0xF4 < c0 then bad
    else if c0 < 0xE0 then
      match s with
      | c1 :: _ => if cont c1 then ((c0.toNat - 0xC0) * 0x40 + (c1.toNat - 0x80), 2) else bad
      | [] => bad
    else
      let lo : Byte := if c0 = 0xE0 then 0xA0 else if c0 = 0xF0 then 0x90 else 0x80
      let hi : Byte := if c0 = 0xED then 0x9F else if c0 = 0xF4 then 0x8F else 0xBF
      if c0 < 0xF0 then
        match s with
        | c1 :: c2 :: _ =>
          if (lo ≤ c1 && c1 ≤ hi) && cont c2 then
            ((c0.toNat - 0xE0) * 0x1000 + (c1.toNat - 0x80) * 0x40 + (c2.toNat - 0x80), 3)
          else bad
        | _ => bad
      else
        match s with
        | c1 :: c2 :: c3 :: _ =>
          if (lo ≤ c1 && c1 ≤ hi) && cont c2 && cont c3 then
            ((c0.toNat - 0xF0) * 0x40000 + (c1.toNat - 0x80) * 0x1000 + (c2.toNat - 0x80) * 0x40 + (c3.toNat - 0x80), 4)
          else bad
        | _ => bad

/-- The tables `safeSet` and `htmlSafeSet` (`html = true`), `/repo/streamer_str.go:9-30`; `[]` is the empty string. -/
def safeSet (html : Bool) (c : Byte) : List Byte :=
  if c = b! '\n' then bs! "\\n"
  else if c = b! '\r' then bs! "\\r"
  else if c = b! '\t' then bs! "\\t"
  else if c = b! '"' then bs! "\\\""
  else if c = b! '\\' then bs! "\\\\"
  else if html && c == b! '<' then bs! "\\u003c"
  else if html && c == b! '>' then bs! "\\u003e"
  else if html && c == b! '&' then bs! "\\u0026"
  else []

/-- `hex[i]`, `/repo/streamer_str.go:8`. -/
def hexAt (i : Nat) : Option Byte := (bs! "0123456789abcdef")[i]?

/-- The slice `s[a:b]` of a string. -/
def sliceOf (s : List Byte) (a b : Nat) : Option (List Byte) :=
  if a ≤ b ∧ b ≤ s.length then some ((s.take b).drop a) else none

/-- The loop of `encodeString`, `/repo/streamer_str.go:43-91`.  Every round advances `i`, the fuel is the length of the
string. -/
def encodeStringLoop (html : Bool) (str : List Byte) : Nat → List Byte → Nat → Nat → Option (List Byte)
  | 0, _, _, _ => none
  | n + 1, buffer, offset, i =>
    if i < str.length then do
      let c ← str[i]?
      if c < 0x80 then
        if c ≥ b! ' ' then
          let hs := safeSet html c
          if hs ≠ [] then do
            let buffer := buffer ++ (← sliceOf str offset i) ++ hs
            encodeStringLoop html str n buffer (i + 1) (i + 1)
          else encodeStringLoop html str n buffer offset (i + 1)
        else do
          let buffer := buffer ++ (← sliceOf str offset i)
          let hs := safeSet true c
          if hs ≠ [] then encodeStringLoop html str n (buffer ++ hs) (i + 1) (i + 1)
          else do
            let buffer := buffer ++ (bs! "\\u00") ++ [← hexAt (c >>> 4).toNat, ← hexAt (c &&& 0xF).toNat]
            encodeStringLoop html str n buffer (i + 1) (i + 1)
      else do
        let (r, size) := decodeRune (← sliceOf str i str.length)
        if r = 0xFFFD ∧ size = 1 then do
          let buffer := buffer ++ (← sliceOf str offset i) ++ bs! "\\ufffd"
          encodeStringLoop html str n buffer (i + 1) (i + 1)
        else if r = 0x2028 ∨ r = 0x2029 then do
          let buffer := buffer ++ (← sliceOf str offset i) ++ (bs! "\\u202") ++ [← hexAt (r % 16)]
          encodeStringLoop html str n buffer (i + size) (i + size)
        else encodeStringLoop html str n buffer offset (i + size)
    else do
      let buffer := buffer ++ (← sliceOf str offset i)
      pure (buffer ++ [b! '"'])

/-- `encodeString`, `/repo/streamer_str.go:41-94`; `html` tells which table is passed. -/
def encodeString (buffer : List Byte) (str : List Byte) (html : Bool) : Option (List Byte) :=
  encodeStringLoop html str (str.length + 1) (buffer ++ [b! '"']) 0 0

end Jzon
