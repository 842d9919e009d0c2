import Verif.Model.Prog
import Verif.Model.Marshal

/-!
# Recycled iterators and streamers

Model of the storage of `/repo/iterator.go` that `Verif.Model.Iter` leaves out, and of the pools `/repo/iterator_pool.go` and
`/repo/streamer_pool.go`: the whole of `it.buffer` with the stale bytes behind `it.tail`, the slice handed to `Read`, the
capacity of `fixbuf`, and the fields that are set and cleared around a use.
-/

namespace Jzon

/-- The state of an `io.Reader`: the bytes it has still to deliver and the error that follows them, or that it has
reported `io.EOF`. -/
inductive Feed where
  | more (left : List Byte) (fin : Err)
  | ended

/-- A call `Read(p)` with `len(p) = n`: the result and the reader afterwards.  The chunks may be of any size that fits; an
empty chunk without an error is allowed; `io.EOF` may come with the last bytes or after them; any other error may come with
some bytes, and nothing is said about what follows it. -/
inductive Feed.Reads : Feed → Nat → RdRes → Feed → Prop
  | chunk (d l : List Byte) (e : Err) (n : Nat) : d.length ≤ n → Feed.Reads (.more (d ++ l) e) n ⟨d, none⟩ (.more l e)
  | last (d : List Byte) (n : Nat) : d.length ≤ n → Feed.Reads (.more d .eof) n ⟨d, some .eof⟩ .ended
  | broken (d : List Byte) (e : Err) (n : Nat) (f : Feed) : e ≠ .eof → d.length ≤ n →
      Feed.Reads (.more [] e) n ⟨d, some e⟩ f
  | again (n : Nat) : Feed.Reads .ended n ⟨[], some .eof⟩ .ended

/-- `Iterator`, `/repo/iterator.go:13-47`, except for `tmpBuffer` (used through `tmpBuffer[:0]` only) and `cfg`. -/
structure PhysIt where
  /-- all of `it.buffer`, also behind `it.tail` -/
  store : List Byte
  tail : Nat
  head : Nat
  offset : Nat
  capture : Bool
  /-- `it.reader` -/
  feed : Option Feed
  /-- `cap(it.fixbuf)` -/
  fixcap : Nat
  /-- `lastEfacePtr` and `lastEfaceOffset` -/
  last : Option (Nat × Nat)
  /-- `Context` -/
  context : Option Nat
  useNumber : Bool
  disallowUnknownFields : Bool

namespace PhysIt

/-- `New` of the pool, `/repo/iterator_pool.go:16-22`. -/
def new : PhysIt := ⟨[], 0, 0, 0, false, none, 64, none, none, false, false⟩

/-- `NewIterator`, `/repo/decoder_config_adaptor.go:4-10`. -/
def borrow (it : PhysIt) (useNumber disallowUnknownFields : Bool) : PhysIt :=
  { it with useNumber := useNumber, disallowUnknownFields := disallowUnknownFields }

/-- `it.iteratorEmbedded = iteratorEmbedded{}`, `/repo/iterator.go:14-30`. -/
def clear (it : PhysIt) : PhysIt := { it with capture := false, offset := 0, head := 0, last := none, context := none }

/-- `reset`, `/repo/iterator.go:63-70`. -/
def reset (it : PhysIt) : PhysIt := { it with feed := none, store := [], tail := 0 }.clear

/-- `ResetBytes`, `/repo/iterator.go:97-104`. -/
def resetBytes (it : PhysIt) (data : List Byte) : PhysIt := { it with feed := none, store := data, tail := data.length }.clear

/-- `Reset`, `/repo/iterator.go:79-94`, for a reader that is neither nil nor a `*bytes.Buffer`.  `stale` is what
`it.fixbuf[:cap(it.fixbuf)]` holds. -/
def resetReader (it : PhysIt) (stale : List Byte) (f : Feed) : PhysIt := { it with feed := some f, store := stale, tail := 0 }.clear

/-- `Release`, `/repo/iterator.go:59-61`, `/repo/iterator_pool.go:33-36`. -/
def release (it : PhysIt) : PhysIt := it.reset

/-- One round of the loop of `readMore`, `/repo/iterator.go:151-168`.  `Read` may use all of the slice it is given as scratch
space.  `append` keeps the capacity or takes a larger one. -/
inductive Fill : PhysIt → RdRes → PhysIt → Prop
  | captured (it : PhysIt) (f f' : Feed) (r : RdRes) (cap : Nat) : it.capture = true → it.feed = some f → f.Reads 512 r f' →
      it.fixcap ≤ cap → it.tail + r.data.length ≤ cap →
      Fill it r { it with store := it.store.take it.tail ++ r.data, tail := it.tail + r.data.length, feed := some f', fixcap := cap }
  | plain (it : PhysIt) (f f' : Feed) (r : RdRes) (store : List Byte) : it.capture = false → it.feed = some f →
      f.Reads it.store.length r f' → store.length = it.store.length → store.take r.data.length = r.data →
      Fill it r { it with store := store, offset := it.offset + it.tail, head := 0, tail := r.data.length, feed := some f' }

/-- `readMore`, `/repo/iterator.go:142-182`; `none` is a nil error.  The relation holds if the call returns. -/
inductive ReadMore : PhysIt → Option Err → PhysIt → Prop
  | noReader (it : PhysIt) : it.feed = none → ReadMore it (some .eof) it
  | error (it it' : PhysIt) (r : RdRes) (e : Err) : Fill it r it' → r.err = some e → ¬ (e = .eof ∧ r.data.length > 0) →
      ReadMore it (some e) it'
  | lastBytes (it it' : PhysIt) (r : RdRes) : Fill it r it' → r.err = some .eof → r.data.length > 0 → ReadMore it none it'
  | bytes (it it' : PhysIt) (r : RdRes) : Fill it r it' → r.err = none → r.data.length > 0 → ReadMore it none it'
  | empty (it it1 it' : PhysIt) (r : RdRes) (e : Option Err) : Fill it r it1 → r.err = none → r.data.length = 0 →
      ReadMore it1 e it' → ReadMore it e it'

/-- A scanning loop over `it.buffer[i]`, `i < it.tail` (compare `scanLoop`); reading behind the end of `it.buffer` panics. -/
inductive Scan {σ β : Type} (body : σ → Byte → Act σ β) (onEOF : σ → Except Err β) : σ → PhysIt → Except Err β → PhysIt → Prop
  | panic (s : σ) (it : PhysIt) : it.store.length < it.tail → Scan body onEOF s it (.error .panic) it
  | stop (s : σ) (it : PhysIt) (b : β) (i : Nat) : it.tail ≤ it.store.length →
      scanBuf body s it.head ((it.store.take it.tail).drop it.head) = .stop b i → Scan body onEOF s it (.ok b) { it with head := i }
  | err (s : σ) (it : PhysIt) (e : Err) : it.tail ≤ it.store.length →
      scanBuf body s it.head ((it.store.take it.tail).drop it.head) = .err e → Scan body onEOF s it (.error e) it
  | again (s s' : σ) (it it1 it' : PhysIt) (i : Nat) (r : Except Err β) : it.tail ≤ it.store.length →
      scanBuf body s it.head ((it.store.take it.tail).drop it.head) = .exhausted s' i →
      ReadMore { it with head := i } none it1 → Scan body onEOF s' it1 r it' → Scan body onEOF s it r it'
  | eof (s s' : σ) (it it1 : PhysIt) (i : Nat) : it.tail ≤ it.store.length →
      scanBuf body s it.head ((it.store.take it.tail).drop it.head) = .exhausted s' i →
      ReadMore { it with head := i } (some .eof) it1 → Scan body onEOF s it (onEOF s') it1
  | fault (s s' : σ) (it it1 : PhysIt) (i : Nat) (e : Err) : it.tail ≤ it.store.length →
      scanBuf body s it.head ((it.store.take it.tail).drop it.head) = .exhausted s' i →
      ReadMore { it with head := i } (some e) it1 → e ≠ .eof → Scan body onEOF s it (.error e) it1

/-- `nextByte`, `/repo/iterator.go:187-194`; a byte behind `it.tail` but inside `it.buffer` would be read without a panic. -/
inductive NextByte : PhysIt → Except Err Byte → PhysIt → Prop
  | here (it : PhysIt) (c : Byte) : it.head ≠ it.tail → it.store[it.head]? = some c → NextByte it (.ok c) it
  | panic (it : PhysIt) : it.head ≠ it.tail → it.store[it.head]? = none → NextByte it (.error .panic) it
  | more (it it' : PhysIt) (c : Byte) : it.head = it.tail → ReadMore it none it' → it'.store[it'.head]? = some c →
      NextByte it (.ok c) it'
  | morePanic (it it' : PhysIt) : it.head = it.tail → ReadMore it none it' → it'.store[it'.head]? = none →
      NextByte it (.error .panic) it'
  | error (it it' : PhysIt) (e : Err) : it.head = it.tail → ReadMore it (some e) it' → NextByte it (.error e) it'

/-- The caller's decision, compare `Dec.runM`. -/
def settle (it : PhysIt) (c : Byte) : Dec → Except Err Byte × PhysIt
  | .take => (.ok c, { it with head := it.head + 1 })
  | .leave => (.ok c, it)
  | .fail e => (.error e, it)

/-- The number of bytes still to come, compare `Op.remaining`. -/
def remaining (it : PhysIt) : Nat :=
  it.tail - it.head +
    match it.feed with
    | some (.more l _) => l.length
    | _ => 0

/-- The primitive operations, compare `Op.runM`. -/
inductive OpRun : {β : Type} → Op β → PhysIt → Except Err β → PhysIt → Prop
  | token (d : Byte → Dec) (it it' : PhysIt) (c : Byte) : Scan tokenBody (fun _ => .error .eof) () it (.ok c) it' →
      OpRun (.token d) it (it'.settle c (d c)).1 (it'.settle c (d c)).2
  | tokenError (d : Byte → Dec) (it it' : PhysIt) (e : Err) : Scan tokenBody (fun _ => .error .eof) () it (.error e) it' →
      OpRun (.token d) it (.error e) it'
  | byte (d : Byte → Dec) (it it' : PhysIt) (c : Byte) : NextByte it (.ok c) it' →
      OpRun (.byte d) it (it'.settle c (d c)).1 (it'.settle c (d c)).2
  | byteError (d : Byte → Dec) (it it' : PhysIt) (e : Err) : NextByte it (.error e) it' → OpRun (.byte d) it (.error e) it'
  | scan {σ β : Type} (body : σ → Byte → Act σ β) (onEOF : σ → Except Err β) (s : σ) (it it' : PhysIt) (r : Except Err β) :
      Scan body onEOF s it r it' → OpRun (.scan body onEOF s) it r it'
  | inputOffset (it : PhysIt) : OpRun .inputOffset it (.ok (it.offset + it.head)) it
  | remaining (it : PhysIt) : OpRun .remaining it (.ok it.remaining) it

/-- Programs, compare `Prog.runM`. -/
inductive Run : {α : Type} → Prog α → PhysIt → Except Err α → PhysIt → Prop
  | pure {α : Type} (a : α) (it : PhysIt) : Run (.pure a) it (.ok a) it
  | fail {α : Type} (e : Err) (it : PhysIt) : Run (.fail e : Prog α) it (.error e) it
  | op {α β : Type} (o : Op β) (k : β → Prog α) (it it1 it' : PhysIt) (b : β) (r : Except Err α) :
      OpRun o it (.ok b) it1 → Run (k b) it1 r it' → Run (.op o k) it r it'
  | opError {α β : Type} (o : Op β) (k : β → Prog α) (it it1 : PhysIt) (e : Err) :
      OpRun o it (.error e) it1 → Run (.op o k) it (.error e) it1
  | captured {α β : Type} (p : Prog β) (k : β × List Byte → Prog α) (it it1 it' : PhysIt) (b : β) (r : Except Err α) :
      Run p { it with capture := true } (.ok b) it1 → it.head ≤ it1.head ∧ it1.head ≤ it1.store.length →
      Run (k (b, (it1.store.take it1.head).drop it.head)) { it1 with capture := it.capture } r it' → Run (.captured p k) it r it'
  | capturedPanic {α β : Type} (p : Prog β) (k : β × List Byte → Prog α) (it it1 : PhysIt) (b : β) :
      Run p { it with capture := true } (.ok b) it1 → ¬ (it.head ≤ it1.head ∧ it1.head ≤ it1.store.length) →
      Run (.captured p k) it (.error .panic) { it1 with capture := it.capture }
  | capturedError {α β : Type} (p : Prog β) (k : β × List Byte → Prog α) (it it1 : PhysIt) (e : Err) :
      Run p { it with capture := true } (.error e) it1 → Run (.captured p k) it (.error e) { it1 with capture := it.capture }

/-- An iterator at any time of its life, in the pool or in use, after any sequence of calls. -/
inductive Life : PhysIt → Prop
  | new : Life .new
  | borrow (it : PhysIt) (u d : Bool) : Life it → Life (it.borrow u d)
  | reset (it : PhysIt) : Life it → Life it.reset
  | resetBytes (it : PhysIt) (data : List Byte) : Life it → Life (it.resetBytes data)
  | resetReader (it : PhysIt) (stale : List Byte) (f : Feed) : Life it → stale.length = it.fixcap → Life (it.resetReader stale f)
  | run {α : Type} (p : Prog α) (it it' : PhysIt) (r : Except Err α) : Life it → Run p it r it' → Life it'
  /-- a string for a `[]byte` that is cut off leaves `capture` set, `/repo/val_decoder_native_slice.go:59-63` -/
  | leftCapture (it : PhysIt) : Life it → Life { it with capture := true }
  | efaceCheck (it : PhysIt) (l : Option (Nat × Nat)) : Life it → Life { it with last := l }
  | setContext (it : PhysIt) (c : Option Nat) : Life it → Life { it with context := c }
  | options (it : PhysIt) (u d : Bool) : Life it → Life { it with useNumber := u, disallowUnknownFields := d }
  | release (it : PhysIt) : Life it → Life it.release

end PhysIt

/-- `New` of the streamer pool, `/repo/streamer_pool.go:16-20`. -/
def pooledNew : Streamer := ⟨none, [], none, false, false⟩

/-- A streamer at any time while it is in the pool: new, or returned after any use whatever (`returnStreamer`,
`/repo/streamer_pool.go:32-35`). -/
inductive PooledStreamer : Streamer → Prop
  | new : PooledStreamer pooledNew
  | returned (s : Streamer) : PooledStreamer s.reset

/-- `NewStreamer`, `/repo/encoder_config_adaptor.go:4-9`, which does not reset what it takes from the pool. -/
def borrowStreamer (s : Streamer) (escapeHTML : Bool) : Streamer := s.escapeHTML escapeHTML

end Jzon
