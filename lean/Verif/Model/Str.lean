import Verif.Model.Prog

/-!
# Strings

Model of `/repo/iterator_str.go`, `/repo/iterator_skip_str.go`, `expectBytes`, and of the functions of
`unicode/utf16` they use.
-/

namespace Jzon

/-- `escapeMap`, `/repo/iterator_str.go:18-33`; `none` is `noEscape`. -/
def escapeMap (c : Byte) : Option Byte :=
  if c = b! '"' then some (b! '"')
  else if c = b! '\\' then some (b! '\\')
  else if c = b! '/' then some (b! '/')
  else if c = b! 'b' then some 8
  else if c = b! 'f' then some 12
  else if c = b! 'n' then some 10
  else if c = b! 'r' then some 13
  else if c = b! 't' then some 9
  else none

/-- `hexValue`, `/repo/iterator_str.go:35-46`; `none` is `invalidHex`. -/
def hexValue (c : Byte) : Option Nat :=
  if b! '0' ≤ c ∧ c ≤ b! '9' then some (c.toNat - 48)
  else if b! 'a' ≤ c ∧ c ≤ b! 'f' then some (c.toNat - 97 + 10)
  else if b! 'A' ≤ c ∧ c ≤ b! 'F' then some (c.toNat - 65 + 10)
  else none

/-- Loop body of `expectBytes`, `/repo/iterator.go:202-212`; the state is the rest of `s`. -/
def expectBody (s : List Byte) (c : Byte) : Act (List Byte) Unit :=
  match s with
  | [] => .err .panic
  | e :: s' =>
    if c ≠ e then .err (.unexpectedByte c e 0)
    else if s' = [] then .stopNext () else .cont s'

/-- `expectBytes`, `/repo/iterator.go:197-218`. -/
def expectBytes (s : List Byte) : Prog Unit := scan expectBody (fun _ => .error .eof) s

/-- `"ull"`, the rest of `null`. -/
def ull : List Byte := [b! 'u', b! 'l', b! 'l']
/-- `"rue"`, the rest of `true`. -/
def rue : List Byte := [b! 'r', b! 'u', b! 'e']
/-- `"alse"`, the rest of `false`. -/
def alse : List Byte := [b! 'a', b! 'l', b! 's', b! 'e']

/-- Loop body of `skipU4`, `/repo/iterator_skip_str.go:7-18`; the state is `remain`. -/
def skipU4Body (remain : Nat) (c : Byte) : Act Nat Unit :=
  if hexValue c = none then .err (.invalidUnicodeChar c)
  else if remain = 1 then .stopNext ()
  else .cont (remain - 1)

/-- `skipU4`, `/repo/iterator_skip_str.go:3-24`. -/
def skipU4 : Prog Unit := scan skipU4Body (fun _ => .error .eof) 4

/-- `skipEscapedChar`, `/repo/iterator_skip_str.go:26-41`. -/
def skipEscapedChar : Prog Unit := do
  let c ← byte fun c =>
    if escapeMap c ≠ none then .take
    else if c ≠ b! 'u' then .fail (.invalidEscapeChar c)
    else .take
  if escapeMap c ≠ none then pure () else skipU4

/-- What ended a run of ordinary string bytes. -/
inductive StrStop where
  | quote
  | backslash
  deriving DecidableEq, Repr

/-- Loop body of `skipString`, `/repo/iterator_skip_str.go:47-64`, up to the next quote or backslash. -/
def skipStrBody (_ : Unit) (c : Byte) : Act Unit StrStop :=
  if c = b! '"' then .stopNext .quote
  else if c = b! '\\' then .stopNext .backslash
  else if c < b! ' ' then .err (.invalidStringChar c)
  else .cont ()

/-- The loop of `skipString`; every round consumes a backslash, the bound is the length of the input. -/
def skipStringLoop : Nat → Prog Unit
  | 0 => .throw .hang
  | n + 1 => do
    match ← scan skipStrBody (fun _ => .error .eof) () with
    | .quote => pure ()
    | .backslash =>
      skipEscapedChar
      skipStringLoop n

/-- `skipString`, `/repo/iterator_skip_str.go:44-71`. -/
def skipString : Prog Unit := do
  let n ← remaining
  skipStringLoop (n + 1)

/-- `SkipString`, `/repo/iterator_skip_str.go:74-84`. -/
def SkipString : Prog Unit := do
  let _ ← token fun c => if c ≠ b! '"' then .fail (.unexpectedByte c (b! '"') 0) else .take
  skipString

/-- Loop body of `readU4`, `/repo/iterator_str.go:53-65`; the state is `remain` and `ret`.  The value stays below
`2^16`, so the 32-bit rune is a natural number. -/
def readU4Body (s : Nat × Nat) (c : Byte) : Act (Nat × Nat) Nat :=
  match hexValue c with
  | none => .err (.invalidUnicodeChar c)
  | some v =>
    let ret := s.2 <<< 4 + v
    if s.1 = 1 then .stopNext ret else .cont (s.1 - 1, ret)

/-- `readU4`, `/repo/iterator_str.go:49-71`. -/
def readU4 : Prog Nat := scan readU4Body (fun _ => .error .eof) (4, 0)

/-- `runeError`, `/repo/iterator_str.go:274`. -/
def runeError : Nat := 0xFFFD

/-- `utf16.IsSurrogate` of the Go standard library. -/
def isSurrogate (r : Nat) : Bool := 0xD800 ≤ r && r < 0xE000

/-- `utf16.DecodeRune` of the Go standard library. -/
def utf16DecodeRune (r1 r2 : Nat) : Nat :=
  if 0xD800 ≤ r1 ∧ r1 < 0xDC00 ∧ 0xDC00 ≤ r2 ∧ r2 < 0xE000 then
    ((r1 - 0xD800) <<< 10 ||| (r2 - 0xDC00)) + 0x10000
  else runeError

/-- `byte(r)` for a rune. -/
def runeByte (r : Nat) : Byte := UInt8.ofNat r

/-- `appendRune`, `/repo/iterator_str.go:277-294`. -/
def appendRune (p : List Byte) (r : Nat) : List Byte :=
  if r ≤ 0x7F then p ++ [runeByte r]
  else if r ≤ 0x7FF then p ++ [(0xC0 : Byte) ||| runeByte (r >>> 6), (0x80 : Byte) ||| (runeByte r &&& 0x3F)]
  else if r > 0x10FFFF ∨ (0xD800 ≤ r ∧ r ≤ 0xDFFF) then
    let r := runeError
    p ++ [(0xE0 : Byte) ||| runeByte (r >>> 12), (0x80 : Byte) ||| (runeByte (r >>> 6) &&& 0x3F), (0x80 : Byte) ||| (runeByte r &&& 0x3F)]
  else if r ≤ 0xFFFF then
    p ++ [(0xE0 : Byte) ||| runeByte (r >>> 12), (0x80 : Byte) ||| (runeByte (r >>> 6) &&& 0x3F), (0x80 : Byte) ||| (runeByte r &&& 0x3F)]
  else
    p ++ [(0xF0 : Byte) ||| runeByte (r >>> 18), (0x80 : Byte) ||| (runeByte (r >>> 12) &&& 0x3F),
      (0x80 : Byte) ||| (runeByte (r >>> 6) &&& 0x3F), (0x80 : Byte) ||| (runeByte r &&& 0x3F)]

/-- The part of `readEscapedChar` from the label `Retry`, `/repo/iterator_str.go:91-127`; every round consumes bytes,
the bound is the length of the input. -/
def readEscapedRetry : Nat → List Byte → Nat → Prog (List Byte)
  | 0, _, _ => .throw .hang
  | n + 1, b, r => do
    if isSurrogate r then
      let c ← byte fun c => if c ≠ b! '\\' then .leave else .take
      if c ≠ b! '\\' then pure (appendRune b r)
      else
        let c ← byte fun c =>
          if c ≠ b! 'u' then
            if escapeMap c = none then .fail (.invalidEscapeChar c) else .take
          else .take
        if c ≠ b! 'u' then
          match escapeMap c with
          | none => .throw (.invalidEscapeChar c)
          | some e => pure (appendRune b r ++ [e])
        else
          let r2 ← readU4
          let combined := utf16DecodeRune r r2
          if combined = runeError then readEscapedRetry n (appendRune b r) r2
          else pure (appendRune b combined)
    else pure (appendRune b r)

/-- `readEscapedChar`, `/repo/iterator_str.go:73-128`.  On error the Go code also returns the partial buffer; it is
only kept for reuse of its storage. -/
def readEscapedChar (b : List Byte) : Prog (List Byte) := do
  let c ← byte fun c =>
    if escapeMap c ≠ none then .take
    else if c ≠ b! 'u' then .fail (.invalidEscapeChar c)
    else .take
  match escapeMap c with
  | some e => pure (b ++ [e])
  | none => do
    let r ← readU4
    let n ← remaining
    readEscapedRetry (n + 1) b r

/-- Loop body of `readStringAsSliceSlow`, `/repo/iterator_str.go:171-191`, up to the next quote or backslash.  The state is
`buf` followed by the pending part `it.buffer[it.head:i]`, which the Go code appends when the run of
ordinary bytes ends. -/
def readStrBody (buf : List Byte) (c : Byte) : Act (List Byte) (List Byte × StrStop) :=
  if c < b! ' ' then .err (.invalidStringChar c)
  else if c = b! '"' then .stopNext (buf, .quote)
  else if c = b! '\\' then .stopNext (buf, .backslash)
  else .cont (buf ++ [c])

/-- The loop of `readStringAsSliceSlow`, `/repo/iterator_str.go:168-199`. -/
def readStringLoop : Nat → List Byte → Prog (List Byte)
  | 0, _ => .throw .hang
  | n + 1, buf => do
    match ← scan readStrBody (fun _ => .error .eof) buf with
    | (buf, .quote) => pure buf
    | (buf, .backslash) =>
      let buf ← readEscapedChar buf
      readStringLoop n buf

/-- `readStringAsSliceSlow`, `/repo/iterator_str.go:168-199`. -/
def readStringAsSliceSlow (buf : List Byte) : Prog (List Byte) := do
  let n ← remaining
  readStringLoop (n + 1) buf

/-- `readStringAsSlice`, `/repo/iterator_str.go:133-166`.  Its own loop over the bytes already in the buffer repeats the
loop of `readStringAsSliceSlow` and continues with that function, starting from an empty buffer; it is
modelled as a call of that function. -/
def readStringAsSlice : Prog (List Byte) := readStringAsSliceSlow []

/-- `expectQuote`, `/repo/iterator_str.go:201-211`. -/
def expectQuote : Prog Unit := do
  let _ ← token fun c => if c ≠ b! '"' then .fail (.unexpectedByte c (b! '"') 0) else .take
  pure ()

/-- `ReadStringAsSlice`, `/repo/iterator_str.go:216-221`, and `ReadString`, `/repo/iterator_str.go:236-250` (which copies). -/
def ReadString : Prog (List Byte) := do
  expectQuote
  readStringAsSlice

/-- `ReadStringAndAppend`, `/repo/iterator_str.go:224-233`. -/
def ReadStringAndAppend (buf : List Byte) : Prog (List Byte) := do
  expectQuote
  let s ← readStringAsSlice
  pure (buf ++ s)

end Jzon
