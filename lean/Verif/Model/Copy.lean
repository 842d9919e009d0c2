import Verif.Model.Str
import Verif.Model.Float
import Verif.Model.Encode

/-!
# The copying loops, index by index

The reading functions for strings and floats do not collect bytes one by one, as the programs of `Verif.Model.Str` and
`Verif.Model.Float` do: they move an index over the buffer and copy `it.buffer[it.head:i]` when a run of bytes ends or the buffer is
used up.  This file models these loops with their indices and slices; an index or a slice out of range panics.
-/

namespace Jzon

/-- What a copying loop does with the byte `it.buffer[i]`. -/
inductive CopyAct (β : Type) where
  /-- `i++` -/
  | go
  /-- `buf = append(buf, it.buffer[it.head:i]...); it.head = i` -/
  | stop (f : List Byte → β)
  /-- `buf = append(buf, it.buffer[it.head:i]...); it.head = i + 1` -/
  | stopSkip (f : List Byte → β)
  /-- `buf = append(buf, it.buffer[it.head:i+1]...); it.head = i + 1` -/
  | stopWith (f : List Byte → β)
  /-- return an error -/
  | err (e : Err)

/-- How the inner loop ends. -/
inductive CopyEnd (β : Type) where
  | panic
  /-- `i == it.tail` -/
  | used (i : Nat)
  | found (i : Nat) (a : CopyAct β)

section
variable {β : Type}

/-- The inner loop `for ; i < it.tail; i++ { c := it.buffer[i]; … }`, for example `/repo/iterator_float64.go:59-68`; the number is
`it.tail - i`. -/
def copyInner (cls : Byte → CopyAct β) (buffer : List Byte) : Nat → Nat → CopyEnd β
  | 0, i => .used i
  | k + 1, i =>
    match buffer[i]? with
    | none => .panic
    | some c =>
      match cls c with
      | .go => copyInner cls buffer k (i + 1)
      | a => .found i a

/-- The outer loop, for example `/repo/iterator_float64.go:57-78`; the first argument bounds the number of refills. -/
def copyLoop (cls : Byte → CopyAct β) (onEOF : List Byte → Except Err β) : Nat → List Byte → It → Except Err β × It
  | 0, _, it => (.error .hang, it)
  | n + 1, buf, it =>
    match copyInner cls it.buf (it.buf.length - it.head) it.head with
    | .panic => (.error .panic, it)
    | .found _ .go => (.error .panic, it)
    | .found _ (.err e) => (.error e, it)
    | .found i (.stop f) =>
      match sliceOf it.buf it.head i with
      | none => (.error .panic, it)
      | some s => (.ok (f (buf ++ s)), { it with head := i })
    | .found i (.stopSkip f) =>
      match sliceOf it.buf it.head i with
      | none => (.error .panic, it)
      | some s => (.ok (f (buf ++ s)), { it with head := i + 1 })
    | .found i (.stopWith f) =>
      match sliceOf it.buf it.head (i + 1) with
      | none => (.error .panic, it)
      | some s => (.ok (f (buf ++ s)), { it with head := i + 1 })
    | .used i =>
      match sliceOf it.buf it.head i with
      | none => (.error .panic, it)
      | some s =>
        match ({ it with head := i } : It).readMore with
        | (none, it') => copyLoop cls onEOF n (buf ++ s) it'
        | (some e, it') => if e = .eof then (onEOF (buf ++ s), it') else (.error e, it')

/-- A copying loop on an iterator. -/
def It.copy (cls : Byte → CopyAct β) (onEOF : List Byte → Except Err β) (buf : List Byte) (it : It) : Except Err β × It :=
  copyLoop cls onEOF ((it.reader.getD []).length + 1) buf it

end

/-- The bytes of a string, `/repo/iterator_str.go:172-191`. -/
def copyStr (c : Byte) : CopyAct (List Byte × StrStop) :=
  if c < b! ' ' then .err (.invalidStringChar c)
  else if c = b! '"' then .stopSkip fun b => (b, .quote)
  else if c = b! '\\' then .stopSkip fun b => (b, .backslash)
  else .go

/-- The bytes of an exponent, `/repo/iterator_float64.go:60-67`. -/
def copyExp (c : Byte) : CopyAct (List Byte) := if intDigit c = none then .stop id else .go

/-- The bytes of a fraction, `/repo/iterator_float64.go:94-108`. -/
def copyFrac (c : Byte) : CopyAct (List Byte × NumStop) :=
  match floatDigit c with
  | .digit _ => .go
  | .exp => .stopWith fun b => (b, .exp)
  | _ => .stop fun b => (b, .fin)

/-- The bytes of an integer part, `/repo/iterator_float64.go:155-173`. -/
def copyInt (c : Byte) : CopyAct (List Byte × NumStop) :=
  match floatDigit c with
  | .digit _ => .go
  | .dot => .stopWith fun b => (b, .dot)
  | .exp => .stopWith fun b => (b, .exp)
  | .invalid => .stop fun b => (b, .fin)

/-- The loop of `readStringAsSliceSlow` with its escapes, `/repo/iterator_str.go:168-199`; the first argument bounds their number. -/
def copyStringSlow : Nat → List Byte → It → Except Err (List Byte) × It
  | 0, _, it => (.error .hang, it)
  | n + 1, buf, it =>
    match it.copy copyStr (fun _ => .error .eof) buf with
    | (.error e, it) => (.error e, it)
    | (.ok (buf, .quote), it) => (.ok buf, it)
    | (.ok (buf, .backslash), it) =>
      match (readEscapedChar buf).runM it with
      | (.error e, it) => (.error e, it)
      | (.ok buf, it) => copyStringSlow n buf it

/-- `readStringAsSlice`, `/repo/iterator_str.go:133-166`, for any content of `tmpBuffer`: one loop over the bytes that are in the
buffer, and `readStringAsSliceSlow` from the first escape or refill on. -/
def copyString (n : Nat) (tmpBuffer : List Byte) (it : It) : Except Err (List Byte) × It :=
  match copyInner copyStr it.buf (it.buf.length - it.head) it.head with
  | .panic => (.error .panic, it)
  | .found _ (.err e) => (.error e, it)
  | .found i (.stopSkip f) =>
    match sliceOf it.buf it.head i with
    | none => (.error .panic, it)
    | some s =>
      let buf := tmpBuffer.take 0 ++ s
      let it := { it with head := i + 1 }
      match (f buf).2 with
      | .quote => (.ok buf, it)
      | .backslash =>
        match (readEscapedChar buf).runM it with
        | (.error e, it) => (.error e, it)
        | (.ok buf, it) => copyStringSlow n buf it
  | .found _ _ => (.error .panic, it)
  | .used i =>
    match sliceOf it.buf it.head i with
    | none => (.error .panic, it)
    | some s =>
      let buf := tmpBuffer.take 0 ++ s
      match ({ it with head := i } : It).readMore with
      | (some e, it) => (.error e, it)
      | (none, it) => copyStringSlow (n + 1) buf it

/-- `if err != nil { return }` -/
def andThen {α β : Type} (x : Except Err α × It) (f : α → It → Except Err β × It) : Except Err β × It :=
  match x with
  | (.error e, it) => (.error e, it)
  | (.ok a, it) => f a it

section
variable {F : Type} (ops : FloatOps F)

/-- `readFloat64ExponentPart`, `/repo/iterator_float64.go:38-79`, with its copying loop. -/
def copyExponentPart (buf : List Byte) (it : It) : Except Err F × It :=
  andThen (nextByteTake.runM it) fun c it =>
  andThen (if c = b! '+' ∨ c = b! '-' then andThen (nextByteTake.runM it) fun d it => (.ok (buf ++ [c], d), it)
    else (.ok (buf, c), it)) fun x it =>
  if intDigit x.2 = none then (.error (.invalidFloat x.2), it)
  else andThen (it.copy copyExp (fun buf => .ok buf) (x.1 ++ [x.2])) fun buf it => (ops.parse buf, it)

/-- `readFloat64FractionPart`, `/repo/iterator_float64.go:81-121`, with its copying loop. -/
def copyFractionPart (buf : List Byte) (it : It) : Except Err F × It :=
  andThen it.nextByte fun c it =>
  if intDigit c = none then (.error (.invalidFloat c), it)
  else
    andThen (({ it with head := it.head + 1 } : It).copy copyFrac (fun buf => .ok (buf, .fin)) (buf ++ [c])) fun x it =>
    if x.2 = .exp then copyExponentPart ops x.1 it else (ops.parse x.1, it)

/-- `readPositiveFloat64`, `/repo/iterator_float64.go:123-187`, with its copying loop. -/
def copyPositiveFloat (c : Byte) (buf : List Byte) (it : It) : Except Err F × It :=
  match intDigit c with
  | none => (.error (.invalidFloat c), it)
  | some 0 =>
    let (e, it) := if it.head = it.buf.length then it.readMore else (none, it)
    match e with
    | some e => if e = .eof then (.ok ops.zero, it) else (.error e, it)
    | none =>
      match it.buf[it.head]? with
      | none => (.error .panic, it)
      | some d =>
        match floatDigit d with
        | .dot => copyFractionPart ops (buf ++ [c] ++ [b! '.']) { it with head := it.head + 1 }
        | .exp => copyExponentPart ops (buf ++ [c] ++ [b! 'e']) { it with head := it.head + 1 }
        | _ => (.ok ops.zero, it)
  | some _ =>
    andThen (it.copy copyInt (fun buf => .ok (buf, .fin)) (buf ++ [c])) fun x it =>
    match x.2 with
    | .dot => copyFractionPart ops x.1 it
    | .exp => copyExponentPart ops x.1 it
    | .fin => (ops.parse x.1, it)

/-- `ReadFloat64`, `/repo/iterator_float64.go:25-32`, with the copying loops, for any content of `tmpBuffer`. -/
def copyFloat (tmpBuffer : List Byte) (it : It) : Except Err F × It :=
  andThen (nextTokenTake.runM it) fun c it =>
  if c = b! '-' then
    andThen (nextByteTake.runM it) fun c it =>
    andThen (copyPositiveFloat ops c (tmpBuffer.take 0) it) fun f it => (.ok (ops.neg f), it)
  else copyPositiveFloat ops c (tmpBuffer.take 0) it

end

end Jzon
