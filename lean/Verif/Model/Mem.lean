import Verif.Model.Pool

/-!
# Memory

The byte arrays behind the slices of iterators and streamers: which arrays are written, and which slices share an array.
`Verif.Model.Pool` has the content of `it.buffer` as a value; here it is a slice of an array, as are `fixbuf`, `tmpBuffer` and the
buffer of a streamer, and arrays of the calling program are in the same memory.
-/

namespace Jzon

/-- Arrays by number; the numbers from `next` on are not in use.  An array keeps its length. -/
structure Heap where
  arr : Nat → List Byte
  next : Nat

/-- Write `xs` into the array `a` from the index `off` on. -/
def Heap.write (m : Heap) (a off : Nat) (xs : List Byte) : Heap :=
  { m with arr := fun b => if b = a then (m.arr a).take off ++ xs ++ (m.arr a).drop (off + xs.length) else m.arr b }

/-- A new array, with the number `m.next`. -/
def Heap.alloc (m : Heap) (xs : List Byte) : Heap := ⟨fun b => if b = m.next then xs else m.arr b, m.next + 1⟩

/-- A slice `[]byte`. -/
structure Slice where
  arr : Nat
  off : Nat
  len : Nat
  cap : Nat
  deriving DecidableEq, Repr

namespace Slice

def nil : Slice := ⟨0, 0, 0, 0⟩

def bytes (m : Heap) (s : Slice) : List Byte := ((m.arr s.arr).drop s.off).take s.len

/-- `s[:k]` -/
def upto (s : Slice) (k : Nat) : Slice := { s with len := k }

/-- `s[i:j]` -/
def sub (s : Slice) (i j : Nat) : Slice := ⟨s.arr, s.off + i, j - i, s.cap - i⟩

/-- The slice lies in an array in use. -/
structure Ok (m : Heap) (s : Slice) : Prop where
  used : s.arr < m.next
  len : s.len ≤ s.cap
  fits : s.off + s.cap ≤ (m.arr s.arr).length

end Slice

/-- `append(s, xs...)`: in place if the capacity allows, else in a new array of any sufficient size. -/
inductive Append (m : Heap) (s : Slice) (xs : List Byte) : Heap → Slice → Prop
  | inPlace : s.len + xs.length ≤ s.cap →
      Append m s xs (m.write s.arr (s.off + s.len) xs) { s with len := s.len + xs.length }
  | grow (room : List Byte) : s.cap < s.len + xs.length →
      Append m s xs (m.alloc (s.bytes m ++ xs ++ room)) ⟨m.next, 0, s.len + xs.length, s.len + xs.length + room.length⟩

/-- `Iterator`, `/repo/iterator.go:13-47`, except for `cfg`. -/
structure MemIt where
  buffer : Slice
  fixbuf : Slice
  tmp : Slice
  tail : Nat
  head : Nat
  offset : Nat
  capture : Bool
  feed : Option Feed
  last : Option (Nat × Nat)
  context : Option Nat
  useNumber : Bool
  disallowUnknownFields : Bool

namespace MemIt

/-- The iterator as `Verif.Model.Pool` sees it. -/
def phys (m : Heap) (it : MemIt) : PhysIt :=
  ⟨it.buffer.bytes m, it.tail, it.head, it.offset, it.capture, it.feed, it.fixbuf.cap, it.last, it.context, it.useNumber,
    it.disallowUnknownFields⟩

/-- `New` of the pool, `/repo/iterator_pool.go:16-22`: two arrays of 64 bytes. -/
def new (m : Heap) : MemIt :=
  ⟨.nil, ⟨m.next, 0, 64, 64⟩, ⟨m.next + 1, 0, 64, 64⟩, 0, 0, 0, false, none, none, none, false, false⟩

/-- The memory after `New`. -/
def newMem (m : Heap) : Heap := (m.alloc (List.replicate 64 0)).alloc (List.replicate 64 0)

/-- `it.iteratorEmbedded = iteratorEmbedded{}`, `/repo/iterator.go:14-30`. -/
def clear (it : MemIt) : MemIt := { it with capture := false, offset := 0, head := 0, last := none, context := none }

/-- `reset`, `/repo/iterator.go:63-70`. -/
def reset (it : MemIt) : MemIt := { it with feed := none, buffer := .nil, tail := 0 }.clear

/-- `ResetBytes`, `/repo/iterator.go:97-104`. -/
def resetBytes (it : MemIt) (data : Slice) : MemIt := { it with feed := none, buffer := data, tail := data.len }.clear

/-- `Reset`, `/repo/iterator.go:79-94`, for a reader that is neither nil nor a `*bytes.Buffer`. -/
def resetReader (it : MemIt) (f : Feed) : MemIt :=
  { it with feed := some f, buffer := it.fixbuf.upto it.fixbuf.cap, tail := 0 }.clear

/-- One round of the loop of `readMore`, `/repo/iterator.go:151-168`.  With `capture` the reader gets an array of its own, and
`append(it.buffer[:it.tail], …)` follows; without, it gets `it.buffer`, all of which it may write to. -/
inductive Fill (m : Heap) (it : MemIt) : RdRes → Heap → MemIt → Prop
  | captured (f f' : Feed) (r : RdRes) (m' : Heap) (s : Slice) : it.capture = true → it.feed = some f → f.Reads 512 r f' →
      Append m (it.buffer.upto it.tail) r.data m' s →
      Fill m it r m' { it with buffer := s, fixbuf := s, tail := it.tail + r.data.length, feed := some f' }
  | plain (f f' : Feed) (r : RdRes) (new : List Byte) : it.capture = false → it.feed = some f →
      f.Reads it.buffer.len r f' → new.length = it.buffer.len → new.take r.data.length = r.data →
      Fill m it r (m.write it.buffer.arr it.buffer.off new)
        { it with offset := it.offset + it.tail, head := 0, tail := r.data.length, feed := some f' }

/-- What the rest of the program may do to memory while an iterator is in use: anything that leaves the arrays of the iterator and
the array of its input alone. -/
structure Env (m : Heap) (it : MemIt) (m' : Heap) : Prop where
  next : m.next ≤ m'.next
  buffer : m'.arr it.buffer.arr = m.arr it.buffer.arr
  fixbuf : m'.arr it.fixbuf.arr = m.arr it.fixbuf.arr
  tmp : m'.arr it.tmp.arr = m.arr it.tmp.arr

/-- `readMore`, `/repo/iterator.go:142-182`. -/
inductive ReadMore : Heap → MemIt → Option Err → Heap → MemIt → Prop
  | env (m m1 m' : Heap) (it it' : MemIt) (e : Option Err) : Env m it m1 → ReadMore m1 it e m' it' → ReadMore m it e m' it'
  | noReader (m : Heap) (it : MemIt) : it.feed = none → ReadMore m it (some .eof) m it
  | error (m m' : Heap) (it it' : MemIt) (r : RdRes) (e : Err) : Fill m it r m' it' → r.err = some e →
      ¬ (e = .eof ∧ r.data.length > 0) → ReadMore m it (some e) m' it'
  | lastBytes (m m' : Heap) (it it' : MemIt) (r : RdRes) : Fill m it r m' it' → r.err = some .eof → r.data.length > 0 →
      ReadMore m it none m' it'
  | bytes (m m' : Heap) (it it' : MemIt) (r : RdRes) : Fill m it r m' it' → r.err = none → r.data.length > 0 →
      ReadMore m it none m' it'
  | empty (m m1 m' : Heap) (it it1 it' : MemIt) (r : RdRes) (e : Option Err) : Fill m it r m1 it1 → r.err = none →
      r.data.length = 0 → ReadMore m1 it1 e m' it' → ReadMore m it e m' it'

/-- `it.buffer[it.head:it.tail]` as the loops see it. -/
def window (m : Heap) (it : MemIt) : List Byte := ((it.buffer.bytes m).take it.tail).drop it.head

/-- A scanning loop, compare `PhysIt.Scan`. -/
inductive Scan {σ β : Type} (body : σ → Byte → Act σ β) (onEOF : σ → Except Err β) :
    σ → Heap → MemIt → Except Err β → Heap → MemIt → Prop
  | env (s : σ) (m m1 m' : Heap) (it it' : MemIt) (r : Except Err β) : Env m it m1 → Scan body onEOF s m1 it r m' it' →
      Scan body onEOF s m it r m' it'
  | panic (s : σ) (m : Heap) (it : MemIt) : it.buffer.len < it.tail → Scan body onEOF s m it (.error .panic) m it
  | stop (s : σ) (m : Heap) (it : MemIt) (b : β) (i : Nat) : it.tail ≤ it.buffer.len →
      scanBuf body s it.head (it.window m) = .stop b i → Scan body onEOF s m it (.ok b) m { it with head := i }
  | err (s : σ) (m : Heap) (it : MemIt) (e : Err) : it.tail ≤ it.buffer.len →
      scanBuf body s it.head (it.window m) = .err e → Scan body onEOF s m it (.error e) m it
  | again (s s' : σ) (m m1 m' : Heap) (it it1 it' : MemIt) (i : Nat) (r : Except Err β) : it.tail ≤ it.buffer.len →
      scanBuf body s it.head (it.window m) = .exhausted s' i → ReadMore m { it with head := i } none m1 it1 →
      Scan body onEOF s' m1 it1 r m' it' → Scan body onEOF s m it r m' it'
  | eof (s s' : σ) (m m1 : Heap) (it it1 : MemIt) (i : Nat) : it.tail ≤ it.buffer.len →
      scanBuf body s it.head (it.window m) = .exhausted s' i → ReadMore m { it with head := i } (some .eof) m1 it1 →
      Scan body onEOF s m it (onEOF s') m1 it1
  | fault (s s' : σ) (m m1 : Heap) (it it1 : MemIt) (i : Nat) (e : Err) : it.tail ≤ it.buffer.len →
      scanBuf body s it.head (it.window m) = .exhausted s' i → ReadMore m { it with head := i } (some e) m1 it1 → e ≠ .eof →
      Scan body onEOF s m it (.error e) m1 it1

/-- `nextByte`, `/repo/iterator.go:187-194`. -/
inductive NextByte : Heap → MemIt → Except Err Byte → Heap → MemIt → Prop
  | env (m m1 m' : Heap) (it it' : MemIt) (r : Except Err Byte) : Env m it m1 → NextByte m1 it r m' it' → NextByte m it r m' it'
  | here (m : Heap) (it : MemIt) (c : Byte) : it.head ≠ it.tail → (it.buffer.bytes m)[it.head]? = some c → NextByte m it (.ok c) m it
  | panic (m : Heap) (it : MemIt) : it.head ≠ it.tail → (it.buffer.bytes m)[it.head]? = none → NextByte m it (.error .panic) m it
  | more (m m' : Heap) (it it' : MemIt) (c : Byte) : it.head = it.tail → ReadMore m it none m' it' →
      (it'.buffer.bytes m')[it'.head]? = some c → NextByte m it (.ok c) m' it'
  | morePanic (m m' : Heap) (it it' : MemIt) : it.head = it.tail → ReadMore m it none m' it' →
      (it'.buffer.bytes m')[it'.head]? = none → NextByte m it (.error .panic) m' it'
  | error (m m' : Heap) (it it' : MemIt) (e : Err) : it.head = it.tail → ReadMore m it (some e) m' it' →
      NextByte m it (.error e) m' it'

/-- The caller's decision, compare `Dec.runM`. -/
def settle (it : MemIt) (c : Byte) : Dec → Except Err Byte × MemIt
  | .take => (.ok c, { it with head := it.head + 1 })
  | .leave => (.ok c, it)
  | .fail e => (.error e, it)

/-- The primitive operations, compare `PhysIt.OpRun`. -/
inductive OpRun : {β : Type} → Op β → Heap → MemIt → Except Err β → Heap → MemIt → Prop
  | token (d : Byte → Dec) (m m' : Heap) (it it' : MemIt) (c : Byte) : Scan tokenBody (fun _ => .error .eof) () m it (.ok c) m' it' →
      OpRun (.token d) m it (it'.settle c (d c)).1 m' (it'.settle c (d c)).2
  | tokenError (d : Byte → Dec) (m m' : Heap) (it it' : MemIt) (e : Err) :
      Scan tokenBody (fun _ => .error .eof) () m it (.error e) m' it' → OpRun (.token d) m it (.error e) m' it'
  | byte (d : Byte → Dec) (m m' : Heap) (it it' : MemIt) (c : Byte) : NextByte m it (.ok c) m' it' →
      OpRun (.byte d) m it (it'.settle c (d c)).1 m' (it'.settle c (d c)).2
  | byteError (d : Byte → Dec) (m m' : Heap) (it it' : MemIt) (e : Err) : NextByte m it (.error e) m' it' →
      OpRun (.byte d) m it (.error e) m' it'
  | scan {σ β : Type} (body : σ → Byte → Act σ β) (onEOF : σ → Except Err β) (s : σ) (m m' : Heap) (it it' : MemIt)
      (r : Except Err β) : Scan body onEOF s m it r m' it' → OpRun (.scan body onEOF s) m it r m' it'
  | inputOffset (m : Heap) (it : MemIt) : OpRun .inputOffset m it (.ok (it.offset + it.head)) m it
  | remaining (m : Heap) (it : MemIt) : OpRun .remaining m it (.ok (it.phys m).remaining) m it

/-- Programs, compare `PhysIt.Run`.  The string and float readers use `tmpBuffer` in between (rule `temp`): `append` to
`tmpBuffer[:k]`, `/repo/iterator_str.go:133-199`, `/repo/iterator_float64.go:15-20`, `/repo/val_decoder_native_struct.go:130-131`. -/
inductive Run : {α : Type} → Prog α → Heap → MemIt → Except Err α → Heap → MemIt → Prop
  | env {α : Type} (p : Prog α) (m m1 m' : Heap) (it it' : MemIt) (r : Except Err α) : Env m it m1 → Run p m1 it r m' it' →
      Run p m it r m' it'
  | temp {α : Type} (p : Prog α) (m m1 m' : Heap) (it it' : MemIt) (r : Except Err α) (k : Nat) (xs : List Byte) (s : Slice) :
      k ≤ it.tmp.len → Append m (it.tmp.upto k) xs m1 s → Run p m1 { it with tmp := s } r m' it' → Run p m it r m' it'
  | pure {α : Type} (a : α) (m : Heap) (it : MemIt) : Run (.pure a) m it (.ok a) m it
  | fail {α : Type} (e : Err) (m : Heap) (it : MemIt) : Run (.fail e : Prog α) m it (.error e) m it
  | op {α β : Type} (o : Op β) (k : β → Prog α) (m m1 m' : Heap) (it it1 it' : MemIt) (b : β) (r : Except Err α) :
      OpRun o m it (.ok b) m1 it1 → Run (k b) m1 it1 r m' it' → Run (.op o k) m it r m' it'
  | opError {α β : Type} (o : Op β) (k : β → Prog α) (m m1 : Heap) (it it1 : MemIt) (e : Err) :
      OpRun o m it (.error e) m1 it1 → Run (.op o k) m it (.error e) m1 it1
  | captured {α β : Type} (p : Prog β) (k : β × List Byte → Prog α) (m m1 m' : Heap) (it it1 it' : MemIt) (b : β)
      (r : Except Err α) : Run p m { it with capture := true } (.ok b) m1 it1 → it.head ≤ it1.head ∧ it1.head ≤ it1.buffer.len →
      Run (k (b, (it1.buffer.sub it.head it1.head).bytes m1)) m1 { it1 with capture := it.capture } r m' it' →
      Run (.captured p k) m it r m' it'
  | capturedPanic {α β : Type} (p : Prog β) (k : β × List Byte → Prog α) (m m1 : Heap) (it it1 : MemIt) (b : β) :
      Run p m { it with capture := true } (.ok b) m1 it1 → ¬ (it.head ≤ it1.head ∧ it1.head ≤ it1.buffer.len) →
      Run (.captured p k) m it (.error .panic) m1 { it1 with capture := it.capture }
  | capturedError {α β : Type} (p : Prog β) (k : β × List Byte → Prog α) (m m1 : Heap) (it it1 : MemIt) (e : Err) :
      Run p m { it with capture := true } (.error e) m1 it1 →
      Run (.captured p k) m it (.error e) m1 { it1 with capture := it.capture }

/-- What a step of an iterator may do to slices that were handed out. -/
inductive Kind where
  /-- nothing -/
  | quiet
  /-- slices of `it.buffer` become invalid if there is a reader: refill without `capture`, or a reset -/
  | refill
  /-- slices of `tmpBuffer` become invalid -/
  | temp
  deriving DecidableEq, Repr

/-- The steps that any code can do with an iterator, in any order (the programs are sequences of such steps). -/
inductive Step (m : Heap) (it : MemIt) : Kind → Heap → MemIt → Prop
  | fillCaptured (r : RdRes) (m' : Heap) (it' : MemIt) : it.capture = true → Fill m it r m' it' → Step m it .quiet m' it'
  | fillPlain (r : RdRes) (m' : Heap) (it' : MemIt) : it.capture = false → Fill m it r m' it' → Step m it .refill m' it'
  | move (i : Nat) : Step m it .quiet m { it with head := i }
  | capture (b : Bool) : Step m it .quiet m { it with capture := b }
  | temp (k : Nat) (xs : List Byte) (m' : Heap) (s : Slice) : k ≤ it.tmp.len → Append m (it.tmp.upto k) xs m' s →
      Step m it .temp m' { it with tmp := s }
  | resetBytes (data : Slice) : data.Ok m → Step m it .refill m (it.resetBytes data)
  | resetReader (f : Feed) : Step m it .refill m (it.resetReader f)
  | reset : Step m it .refill m it.reset
  | fields (l : Option (Nat × Nat)) (c : Option Nat) (u d : Bool) :
      Step m it .quiet m { it with last := l, context := c, useNumber := u, disallowUnknownFields := d }

end MemIt

/-- What a streamer does with its buffer: `append` everywhere in `/repo/streamer*.go`, `reset` and `Flush`
(`/repo/streamer.go:42-49`, `/repo/streamer.go:73-91`). -/
inductive StreamStep (m : Heap) (s : Slice) : Heap → Slice → Prop
  | append (xs : List Byte) (m' : Heap) (s' : Slice) : Append m s xs m' s' → StreamStep m s m' s'
  | reset : StreamStep m s m (s.upto 0)
  /-- `copy(s.buffer, s.buffer[n:]); s.buffer = s.buffer[:l-n]` -/
  | keep (n : Nat) : n ≤ s.len → StreamStep m s (m.write s.arr s.off ((s.bytes m).drop n)) (s.upto (s.len - n))

/-- A whole program: memory, all iterators and streamers (in use or in a pool), and the arrays that belong to the program itself:
inputs, results, anything else. -/
structure World where
  mem : Heap
  iters : Nat → Option MemIt
  streams : Nat → Option Slice
  user : Nat → Prop

/-- Who did a step. -/
inductive Who where
  /-- the program writes into its array `a` (also through `AppendRaw`, `ReadStringAndAppend`, or the decoder of `json.RawMessage`,
  which append to a slice of the program) -/
  | program (a : Nat)
  /-- a new array, iterator or streamer -/
  | alloc
  | iter (i : Nat) (k : MemIt.Kind)
  | stream (i : Nat)
  deriving DecidableEq, Repr

def setAt {α : Type} (f : Nat → Option α) (i : Nat) (a : α) : Nat → Option α := fun j => if j = i then some a else f j

/-- The steps of all goroutines, in any interleaving. -/
inductive World.Step (w : World) : Who → World → Prop
  /-- a new array of the program; results of the library are such arrays: `string(buf)`, `make` and `copy` in `Marshal`
  (`/repo/encoder_config.go:96-97`), `append(nil, …)` in `ReadRaw` -/
  | alloc (xs : List Byte) : World.Step w .alloc { w with mem := w.mem.alloc xs, user := fun a => w.user a ∨ a = w.mem.next }
  | write (a off : Nat) (xs : List Byte) : w.user a → off + xs.length ≤ (w.mem.arr a).length →
      World.Step w (.program a) { w with mem := w.mem.write a off xs }
  /-- `New` of the iterator pool -/
  | newIter (i : Nat) : w.iters i = none →
      World.Step w .alloc { w with mem := MemIt.newMem w.mem, iters := setAt w.iters i (MemIt.new w.mem) }
  | iter (i : Nat) (it it' : MemIt) (k : MemIt.Kind) (m' : Heap) : w.iters i = some it → MemIt.Step w.mem it k m' it' →
      World.Step w (.iter i k) { w with mem := m', iters := setAt w.iters i it' }
  /-- `New` of the streamer pool, `/repo/streamer_pool.go:16-20` -/
  | newStream (i : Nat) : w.streams i = none →
      World.Step w .alloc { w with mem := w.mem.alloc (List.replicate 64 0), streams := setAt w.streams i ⟨w.mem.next, 0, 0, 64⟩ }
  | stream (i : Nat) (s s' : Slice) (m' : Heap) : w.streams i = some s → StreamStep w.mem s m' s' →
      World.Step w (.stream i) { w with mem := m', streams := setAt w.streams i s' }

/-- Before the program starts: the array 0 is the one of nil slices, `n` further arrays belong to the program. -/
def World.start (n : Nat) (arr : Nat → List Byte) : World :=
  ⟨⟨fun a => if a = 0 then [] else arr a, n + 1⟩, fun _ => none, fun _ => none, fun a => 0 < a ∧ a ≤ n⟩

/-- A sequence of steps, with their labels. -/
inductive World.Steps : World → List Who → World → Prop
  | nil (w : World) : World.Steps w [] w
  | cons (w w1 w' : World) (l : Who) (ls : List Who) : World.Step w l w1 → World.Steps w1 ls w' → World.Steps w (l :: ls) w'

end Jzon
