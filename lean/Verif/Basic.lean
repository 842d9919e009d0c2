/-!
# Bytes and errors

Shared vocabulary of the model.
-/

namespace Jzon

/-- A byte, as Go's `byte`. -/
abbrev Byte := UInt8

/-- `b! 'x'` is the numeral of the ASCII code of `x`, as a byte. -/
syntax "b! " char : term
macro_rules
  | `(b! $c:char) => do
    let n := Lean.Syntax.mkNumLit (toString c.getChar.toNat)
    `(($n : UInt8))

/-- `bs! "text"` is the list of the UTF-8 bytes of the text. -/
syntax "bs! " str : term
macro_rules
  | `(bs! $s:str) => do
    let elems := s.getString.toUTF8.toList.map fun b => Lean.Syntax.mkNumLit (toString b.toNat)
    `(([$(elems.toArray),*] : List UInt8))

/-- The error values a decoding operation can return.
Models `/repo/errors_decoder.go:18-133` and `io.EOF`.
`io n` stands for any error of the `io.Reader` other than `io.EOF`,
`custom n` for any error of user code or of `strconv`/`base64`.
`panic` and `hang` are not Go errors: they stand for a run time panic and for a
loop that never ends, so that their absence can be stated.
Simplification: `IntOverflowError` keeps its text of the value as the number that is printed, `none` for the empty text;
`DecodeError`, which only adds a location text, is not modelled.  The texts of the errors are in `Model/ErrText`. -/
inductive Err where
  | eof
  | io (n : Nat)
  | custom (n : Nat)
  | dataRemained
  | pointerReceiver
  | nilPointerReceiver
  | emptyIFace
  | nilEmbeddedPointer
  | efaceLooping
  | invalidStringChar (c : Byte)
  | invalidEscapeChar (c : Byte)
  | invalidUnicodeChar (c : Byte)
  | unexpectedByte (got exp exp2 : Byte)
  | intOverflow (typ : List Byte) (value : Option Int)
  | invalidDigit (c : Byte)
  | invalidFloat (c : Byte)
  | typeNotSupported
  | unknownField (name : List Byte)
  | badQuotedString (s : List Byte)
  | panic
  | hang
  deriving DecidableEq, Repr

/-- Exhaustive check of a decidable predicate over all 256 bytes. -/
theorem forall_byte {p : Byte → Prop} (h : ∀ n : Fin 256, p (UInt8.ofFin n)) (c : Byte) : p c := by
  have := h c.toFin
  simpa using this

end Jzon
