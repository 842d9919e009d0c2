import Verif.Model.Str
import Verif.Model.Encode
import Verif.Model.Report

/-!
# The texts of errors

The methods `Error` of the error types.  Of `fmt.Sprintf` the verbs that occur there are modelled: `%s` on strings, `%x` on
bytes, `%q` on bytes and strings.  Which characters count as printable for `%q`, `strconv.IsPrint`, is a parameter.
-/

namespace Jzon

/-- A lower case hexadecimal digit. -/
def lowerHex (n : Nat) : Byte := if n < 10 then UInt8.ofNat (0x30 + n) else UInt8.ofNat (0x57 + n)

/-- `n` with `k` hexadecimal digits. -/
def hexDigits : Nat → Nat → List Byte
  | 0, _ => []
  | k + 1, n => hexDigits k (n / 16) ++ [lowerHex (n % 16)]

/-- `%x` of `fmt` on a byte: no leading zero. -/
def fmtX (c : Byte) : List Byte := if c.toNat < 16 then hexDigits 1 c.toNat else hexDigits 2 c.toNat

/-- `appendEscapedRune` of `strconv`, for a valid rune; `utf8.AppendRune` is written as the function of the same effect in
`/repo/iterator_str.go:277-294`. -/
def escapedRune (isPrint : Nat → Bool) (quote : Byte) (r : Nat) : List Byte :=
  if r = quote.toNat ∨ r = 0x5C then [b! '\\', UInt8.ofNat r]
  else if isPrint r then appendRune [] r
  else if r = 7 then bs! "\\a"
  else if r = 8 then bs! "\\b"
  else if r = 12 then bs! "\\f"
  else if r = 10 then bs! "\\n"
  else if r = 13 then bs! "\\r"
  else if r = 9 then bs! "\\t"
  else if r = 11 then bs! "\\v"
  else if r < 0x20 ∨ r = 0x7F then bs! "\\x" ++ hexDigits 2 r
  else if r < 0x10000 then bs! "\\u" ++ hexDigits 4 r
  else bs! "\\U" ++ hexDigits 8 r

/-- `%q` of `fmt` on a byte: `strconv.AppendQuoteRune` of the rune with that number. -/
def fmtQByte (isPrint : Nat → Bool) (c : Byte) : List Byte := b! '\'' :: escapedRune isPrint (b! '\'') c.toNat ++ [b! '\'']

/-- The loop of `appendQuotedWith` of `strconv`; every round consumes bytes, the bound is the length of the string. -/
def quoteBody (isPrint : Nat → Bool) : Nat → List Byte → List Byte
  | 0, _ => []
  | _ + 1, [] => []
  | n + 1, c :: s =>
    let (r, width) := if c < 0x80 then (c.toNat, 1) else decodeRune (c :: s)
    if width = 1 ∧ r = runeError then bs! "\\x" ++ hexDigits 2 c.toNat ++ quoteBody isPrint n ((c :: s).drop width)
    else escapedRune isPrint (b! '"') r ++ quoteBody isPrint n ((c :: s).drop width)

/-- `%q` of `fmt` on a string: `strconv.AppendQuote`. -/
def fmtQ (isPrint : Nat → Bool) (s : List Byte) : List Byte := b! '"' :: quoteBody isPrint s.length s ++ [b! '"']

/-- `strconv.FormatUint(n, 10)`. -/
def formatUint (n : Nat) : List Byte :=
  if n < 10 then [UInt8.ofNat (0x30 + n)] else formatUint (n / 10) ++ [UInt8.ofNat (0x30 + n % 10)]

/-- The field `value` of an `IntOverflowError`, `/repo/iterator_int16.go:47`, `76-79` and `88-91`. -/
def overflowValue : Option Int → List Byte
  | none => []
  | some z => if z < 0 then b! '-' :: formatUint z.natAbs else formatUint z.natAbs

/-- The methods `Error`, `/repo/errors_decoder.go:18-133`, and of `io.EOF`.  `none` for errors that are not of the package and
for `TypeNotSupportedError`, of which the model does not keep the name of the type. -/
def errText (isPrint : Nat → Bool) : Err → Option (List Byte)
  | .eof => some (bs! "EOF")
  | .dataRemained => some (bs! "expecting EOF, but there is still data")
  | .pointerReceiver => some (bs! "the receiver is not a pointer")
  | .nilPointerReceiver => some (bs! "the receiver is nil")
  | .emptyIFace => some (bs! "cannot unmarshal on empty iface")
  | .nilEmbeddedPointer => some (bs! "cannot unmarshal on nil pointer (unexported embedded)")
  | .efaceLooping => some (bs! "eface looping detected")
  | .invalidStringChar c => some (bs! "invalid character " ++ fmtX c ++ bs! " found")
  | .invalidEscapeChar c => some (bs! "invalid escape character \\" ++ fmtX c ++ bs! " found")
  | .invalidUnicodeChar c => some (bs! "invalid unicode character " ++ fmtX c ++ bs! " found")
  | .unexpectedByte got exp exp2 =>
    if exp = 0 then some (bs! "unexpected character " ++ fmtQByte isPrint got)
    else if exp2 = 0 then some (bs! "expecting " ++ fmtQByte isPrint exp ++ bs! " but got " ++ fmtQByte isPrint got)
    else some (bs! "expecting " ++ fmtQByte isPrint exp ++ bs! " or " ++ fmtQByte isPrint exp2 ++ bs! " but got " ++
      fmtQByte isPrint got)
  | .intOverflow typ value => some (bs! "overflow " ++ typ ++ bs! ": " ++ overflowValue value)
  | .invalidDigit c => some (bs! "invalid digit character: " ++ fmtQByte isPrint c)
  | .invalidFloat c => some (bs! "invalid float character: " ++ fmtQByte isPrint c)
  | .unknownField name => some (bs! "unknown field " ++ fmtQ isPrint name)
  | .badQuotedString s => some (bs! "bad quoted string " ++ fmtQ isPrint s)
  | .typeNotSupported | .io _ | .custom _ | .panic | .hang => none

/-- `DecodeError.Error`, `/repo/errors_decoder.go:14-16`. -/
def DecodeError.text (isPrint : Nat → Bool) (d : DecodeError) : Option (List Byte) :=
  (errText isPrint d.reason).map fun t => t ++ bs! " (near " ++ d.location ++ bs! ")"

end Jzon
