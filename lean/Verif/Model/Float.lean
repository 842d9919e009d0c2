import Verif.Model.Num

/-!
# Reading floating point numbers

Model of `/repo/iterator_float64.go` and `/repo/iterator_float32.go`, which are the same code up to the bit size
given to `strconv.ParseFloat`.  The floating point operations of the Go standard library are a parameter.
-/

namespace Jzon

/-- What the code needs of Go's `float64` or `float32`. -/
structure FloatOps (F : Type) where
  /-- `strconv.ParseFloat(s, bits)`; its error does not depend on the model. -/
  parse : List Byte → Except Err F
  /-- The constant 0. -/
  zero : F
  /-- Negation. -/
  neg : F → F

/-- The calls `f, err := it.parseFloat64(buf); return f, buf, err`, `/repo/iterator_float64.go:34-36`. -/
def parseFloat {F : Type} (ops : FloatOps F) (buf : List Byte) : Prog F :=
  match ops.parse buf with
  | .ok f => pure f
  | .error e => .throw e

/-- Loop body of `readFloat64ExponentPart`, `/repo/iterator_float64.go:57-70`; the state is `buf` with the pending bytes. -/
def fexpBody (buf : List Byte) (c : Byte) : Act (List Byte) (List Byte) :=
  if intDigit c = none then .stop buf else .cont (buf ++ [c])

/-- `readFloat64ExponentPart` from the first digit on, `/repo/iterator_float64.go:52-79`. -/
def readFloatExponentDigits {F : Type} (ops : FloatOps F) (buf : List Byte) (c : Byte) : Prog F :=
  if intDigit c = none then .throw (.invalidFloat c)
  else do
    let buf ← scan fexpBody (fun buf => .ok buf) (buf ++ [c])
    parseFloat ops buf

/-- `readFloat64ExponentPart`, `/repo/iterator_float64.go:38-79`. -/
def readFloatExponentPart {F : Type} (ops : FloatOps F) (buf : List Byte) : Prog F := do
  let c ← nextByteTake
  if c = b! '+' ∨ c = b! '-' then do
    let c' ← nextByteTake
    readFloatExponentDigits ops (buf ++ [c]) c'
  else readFloatExponentDigits ops buf c

/-- Loop body of `readFloat64FractionPart`, `/repo/iterator_float64.go:92-112`. -/
def ffracBody (buf : List Byte) (c : Byte) : Act (List Byte) (List Byte × NumStop) :=
  match floatDigit c with
  | .digit _ => .cont (buf ++ [c])
  | .exp => .stopNext (buf ++ [c], .exp)
  | _ => .stop (buf, .fin)

/-- `readFloat64FractionPart`, `/repo/iterator_float64.go:81-121`. -/
def readFloatFractionPart {F : Type} (ops : FloatOps F) (buf : List Byte) : Prog F := do
  let c ← byte fun c => if intDigit c = none then .fail (.invalidFloat c) else .take
  match ← scan ffracBody (fun buf => .ok (buf, .fin)) (buf ++ [c]) with
  | (buf, .exp) => readFloatExponentPart ops buf
  | (buf, _) => parseFloat ops buf

/-- Loop body of `readPositiveFloat64`, `/repo/iterator_float64.go:153-177`. -/
def fintBody (buf : List Byte) (c : Byte) : Act (List Byte) (List Byte × NumStop) :=
  match floatDigit c with
  | .digit _ => .cont (buf ++ [c])
  | .dot => .stopNext (buf ++ [c], .dot)
  | .exp => .stopNext (buf ++ [c], .exp)
  | .invalid => .stop (buf, .fin)

/-- `readPositiveFloat64`, `/repo/iterator_float64.go:123-187`, with the empty buffer of its callers. -/
def readPositiveFloat {F : Type} (ops : FloatOps F) (c : Byte) : Prog F :=
  match intDigit c with
  | none => .throw (.invalidFloat c)
  | some 0 => do
    match ← byteEOF (fun c => floatDigit c = .dot ∨ floatDigit c = .exp) with
    | none => pure ops.zero
    | some c' =>
      match floatDigit c' with
      | .dot => readFloatFractionPart ops ([c] ++ [b! '.'])
      | .exp => readFloatExponentPart ops ([c] ++ [b! 'e'])
      | _ => pure ops.zero
  | some _ => do
    match ← scan fintBody (fun buf => .ok (buf, .fin)) [c] with
    | (buf, .dot) => readFloatFractionPart ops buf
    | (buf, .exp) => readFloatExponentPart ops buf
    | (buf, .fin) => parseFloat ops buf

/-- `readFloat64`, `/repo/iterator_float64.go:8-22`; called behind `c`. -/
def readFloat {F : Type} (ops : FloatOps F) (c : Byte) : Prog F :=
  if c = b! '-' then do
    let c ← nextByteTake
    let f ← readPositiveFloat ops c
    pure (ops.neg f)
  else readPositiveFloat ops c

/-- `ReadFloat64`, `/repo/iterator_float64.go:25-32`, and `ReadFloat32`, `/repo/iterator_float32.go:9-28`. -/
def ReadFloat {F : Type} (ops : FloatOps F) : Prog F := do
  let c ← nextTokenTake
  readFloat ops c

end Jzon
