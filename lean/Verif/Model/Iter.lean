import Verif.Basic

/-!
# The iterator and its buffer

Model of `/repo/iterator.go`: the buffer window, the refill routine and the two peeking routines.
-/

namespace Jzon

/-- The result of one `Read` call of an `io.Reader`: the bytes delivered and the error. -/
structure RdRes where
  data : List Byte
  err : Option Err
  deriving DecidableEq, Repr

/-- The part of `Iterator` that decoding depends on (`/repo/iterator.go:13-47`).
`buf` is `it.buffer[0:it.tail]`, so `it.tail = buf.length`; bytes of `it.buffer` behind `tail` are
never read.  `reader` is `none` for a nil reader, otherwise the results of the `Read` calls still to
come; when the list is used up, further calls return `0, io.EOF`.
Simplifications: the length of the slice passed to `Read` is not modelled (a script may deliver
chunks of any size, which only adds behaviours); `fixbuf` and `tmpBuffer` are storage for reuse. -/
structure It where
  buf : List Byte
  head : Nat
  offset : Nat
  capture : Bool
  reader : Option (List RdRes)
  deriving DecidableEq, Repr

/-- `/repo/iterator.go:97-104` (`ResetBytes`), applied to whatever iterator; `data` becomes the buffer. -/
def It.resetBytes (_it : It) (data : List Byte) : It :=
  { buf := data, head := 0, offset := 0, capture := false, reader := none }

/-- `/repo/iterator.go:79-94` (`Reset`) for a reader that is neither nil nor a `*bytes.Buffer`. -/
def It.resetReader (_it : It) (script : List RdRes) : It :=
  { buf := [], head := 0, offset := 0, capture := false, reader := some script }

/-- `/repo/iterator.go:63-70` (`reset`, the nil case of `Reset`). -/
def It.reset (_it : It) : It :=
  { buf := [], head := 0, offset := 0, capture := false, reader := none }

/-- The buffer update of one loop round of `readMore`, `/repo/iterator.go:151-168`, for a `Read` that
delivered `data`; `rest` are the results of the following `Read` calls. -/
def It.fill (it : It) (data : List Byte) (rest : List RdRes) : It :=
  if it.capture then
    { it with buf := it.buf ++ data, reader := some rest }
  else
    { it with offset := it.offset + it.buf.length, head := 0, buf := data, reader := some rest }

/-- The loop of `readMore`, `/repo/iterator.go:150-181`.  `none` is a nil error. -/
def It.readLoop : List RdRes → It → Option Err × It
  | [], it => (some .eof, it.fill [] [])
  | r :: rest, it =>
    let it' := it.fill r.data rest
    match r.err with
    | some e => if e = .eof ∧ r.data.length > 0 then (none, it') else (some e, it')
    | none => if r.data.length > 0 then (none, it') else It.readLoop rest it'

/-- `readMore`, `/repo/iterator.go:142-182`. -/
def It.readMore (it : It) : Option Err × It :=
  match it.reader with
  | none => (some .eof, it)
  | some script => It.readLoop script it

/-- `nextByte`, `/repo/iterator.go:187-194`: peek one byte, refilling at most once. The index
`it.buffer[it.head]` panics when out of range. -/
def It.nextByte (it : It) : Except Err Byte × It :=
  let (e, it) := if it.head = it.buf.length then it.readMore else (none, it)
  match e with
  | some e => (.error e, it)
  | none =>
    match it.buf[it.head]? with
    | some c => (.ok c, it)
    | none => (.error .panic, it)

/-- What the body of a byte scanning loop does with the current byte `it.buffer[i]`. -/
inductive Act (σ β : Type) where
  /-- `i++`, go on with new local variables -/
  | cont (s : σ)
  /-- `it.head = i; return` -/
  | stop (b : β)
  /-- `it.head = i + 1; return` -/
  | stopNext (b : β)
  /-- return an error, `it.head` is not changed -/
  | err (e : Err)

/-- Outcome of the inner loop over the bytes that are in the buffer. -/
inductive ScanRes (σ β : Type) where
  | exhausted (s : σ) (i : Nat)
  | stop (b : β) (head : Nat)
  | err (e : Err)

/-- The inner loop `for ; i < it.tail; i++ { body }`; the list is `it.buffer[i:it.tail]`. -/
def scanBuf {σ β : Type} (body : σ → Byte → Act σ β) : σ → Nat → List Byte → ScanRes σ β
  | s, i, [] => .exhausted s i
  | s, i, c :: l =>
    match body s c with
    | .cont s' => scanBuf body s' (i + 1) l
    | .stop b => .stop b i
    | .stopNext b => .stop b (i + 1)
    | .err e => .err e

/-- The scanning loop that occurs throughout the decoder:
```
for {
    i := it.head
    for ; i < it.tail; i++ { body }
    it.head = i
    if err := it.readMore(); err != nil { if err == io.EOF { onEOF }; return err }
}
```
The fuel bounds the number of refills; `scanM` below supplies enough of it. -/
def scanLoop {σ β : Type} (body : σ → Byte → Act σ β) (onEOF : σ → Except Err β) :
    Nat → σ → It → Except Err β × It
  | 0, _, it => (.error .hang, it)
  | fuel + 1, s, it =>
    match scanBuf body s it.head (it.buf.drop it.head) with
    | .stop b h => (.ok b, { it with head := h })
    | .err e => (.error e, it)
    | .exhausted s' i =>
      match ({ it with head := i } : It).readMore with
      | (none, it') => scanLoop body onEOF fuel s' it'
      | (some e, it') => if e = .eof then (onEOF s', it') else (.error e, it')

/-- The scanning loop with as much fuel as the reader has results (plus one). -/
def It.scan {σ β : Type} (body : σ → Byte → Act σ β) (onEOF : σ → Except Err β) (s : σ) (it : It) :
    Except Err β × It :=
  scanLoop body onEOF ((it.reader.getD []).length + 1) s it

end Jzon
