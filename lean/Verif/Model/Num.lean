import Verif.Model.Prog

/-!
# Digit tables and skipping numbers

Model of `/repo/iterator_int.go`, `/repo/iterator_float.go`, `/repo/iterator_skip_number.go`.
-/

namespace Jzon

/-- `intDigits`, `/repo/iterator_int.go:11-22`; `none` is `invalidDigit`. -/
def intDigit (c : Byte) : Option Nat :=
  if b! '0' ≤ c ∧ c ≤ b! '9' then some (c.toNat - 48) else none

/-- Entries of `floatDigits`, `/repo/iterator_float.go:3-23`. -/
inductive FloatDigit where
  | digit (n : Nat)
  | dot
  | exp
  | invalid
  deriving DecidableEq, Repr

/-- `floatDigits`, `/repo/iterator_float.go:9-23`. -/
def floatDigit (c : Byte) : FloatDigit :=
  if b! '0' ≤ c ∧ c ≤ b! '9' then .digit (c.toNat - 48)
  else if c = b! '.' then .dot
  else if c = b! 'e' ∨ c = b! 'E' then .exp
  else .invalid

/-- Peek a byte where `io.EOF` is an answer:
`if it.head == it.tail { if err = it.readMore(); err == io.EOF {...} }` followed by an inspection of
`it.buffer[it.head]`; `take` says whether the caller then does `it.head++`.  For example
`/repo/iterator_skip_number.go:96-113`. -/
def byteEOF (take : Byte → Bool) : Prog (Option Byte) :=
  scan (fun _ c => if take c then .stopNext (some c) else .stop (some c)) (fun _ => .ok none) ()

/-- Loop body of `skipExponentPart`, `/repo/iterator_skip_number.go:25-32`. -/
def expBody (_ : Unit) (c : Byte) : Act Unit Unit :=
  if intDigit c = none then .stop () else .cont ()

/-- `skipExponentPart` from its first digit `c` on, `/repo/iterator_skip_number.go:21-42`. -/
def skipExponentDigits (c : Byte) : Prog Unit :=
  if intDigit c = none then .throw (.invalidDigit c)
  else scan expBody (fun _ => .ok ()) ()

/-- `skipExponentPart`, `/repo/iterator_skip_number.go:7-42`. -/
def skipExponentPart : Prog Unit := do
  let c ← nextByteTake
  if c = b! '+' ∨ c = b! '-' then do
    let c ← nextByteTake
    skipExponentDigits c
  else skipExponentDigits c

/-- Why a digit loop stopped. -/
inductive NumStop where
  | dot
  | exp
  | fin
  deriving DecidableEq, Repr

/-- Loop body of `skipFractionPart`, `/repo/iterator_skip_number.go:55-68`. -/
def fracBody (_ : Unit) (c : Byte) : Act Unit NumStop :=
  match floatDigit c with
  | .digit _ => .cont ()
  | .exp => .stopNext .exp
  | _ => .stop .fin

/-- `skipFractionPart`, `/repo/iterator_skip_number.go:44-78`. -/
def skipFractionPart : Prog Unit := do
  let _ ← byte fun c => if intDigit c = none then .fail (.invalidDigit c) else .take
  match ← scan fracBody (fun _ => .ok .fin) () with
  | .exp => skipExponentPart
  | _ => pure ()

/-- Loop body of `skipNumber`, `/repo/iterator_skip_number.go:117-133`. -/
def intBody (_ : Unit) (c : Byte) : Act Unit NumStop :=
  match floatDigit c with
  | .digit _ => .cont ()
  | .dot => .stopNext .dot
  | .exp => .stopNext .exp
  | .invalid => .stop .fin

/-- `skipNumber` after the optional sign, `/repo/iterator_skip_number.go:95-144`; `c` is the first digit. -/
def skipUnsigned (c : Byte) : Prog Unit := do
  if c = b! '0' then
    match ← byteEOF (fun c => floatDigit c = .dot ∨ floatDigit c = .exp) with
    | none => pure ()
    | some c =>
      match floatDigit c with
      | .dot => skipFractionPart
      | .exp => skipExponentPart
      | _ => pure ()
  else
    match ← scan intBody (fun _ => .ok .fin) () with
    | .dot => skipFractionPart
    | .exp => skipExponentPart
    | .fin => pure ()

/-- `skipNumber`, `/repo/iterator_skip_number.go:82-144`; called after the first byte `c` is consumed. -/
def skipNumber (c : Byte) : Prog Unit :=
  if c = b! '-' then do
    let c ← byte fun c => if intDigit c = none then .fail (.invalidDigit c) else .take
    skipUnsigned c
  else skipUnsigned c

/-- The bytes for which `valueTypeMap[c] == NumberValue`, `/repo/value_type.go:51-53`. -/
def isNumberStart (c : Byte) : Bool := c = b! '-' || (b! '0' ≤ c && c ≤ b! '9')

/-- `SkipNumber`, `/repo/iterator_skip_number.go:147-157`. -/
def SkipNumber : Prog Unit := do
  let c ← token fun c => if isNumberStart c then .take else .fail (.unexpectedByte c 0 0)
  skipNumber c

/-- `readNumberAsString`, `/repo/iterator_number.go:4-19`, called behind the first byte `c`.  The Go code takes the slice
from `it.head - 1` on; the byte there is `c`, which its callers have just consumed, and it stays in the buffer
while capturing. -/
def readNumberAsString (c : Byte) : Prog (List Byte) := do
  let (_, text) ← captured (skipNumber c)
  pure (c :: text)

/-- `ReadNumber`, `/repo/iterator_number.go:22-34`. -/
def ReadNumber : Prog (List Byte) := do
  let c ← token fun c => if isNumberStart c then .take else .fail (.unexpectedByte c 0 0)
  readNumberAsString c

end Jzon
