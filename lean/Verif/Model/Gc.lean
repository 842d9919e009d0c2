import Verif.Model.Prog

/-!
# Pointers and garbage collection

What the decoders of pointers, slices, maps, arrays and structs do to memory, step by step, with the pointers that each of them
holds between the steps: `/repo/val_decoder_native_ptr.go`, `/repo/val_decoder_native_slice.go`, `/repo/val_decoder_native_map.go`,
`/repo/val_decoder_native_array.go`, `/repo/val_decoder_native_struct.go`, `/repo/link_reflect.go`.  Between any two steps a garbage
collection may take place: memory that no pointer leads to is given to others, who may write anything there.  What the input is
(and whether it is JSON) is left to a list of events, any list.
-/

namespace Jzon.Gc

/-- A pointer: an object and a place in it. -/
structure Loc where
  obj : Nat
  off : Nat
  deriving DecidableEq, Repr

/-- A word of memory.  Whether a word is a pointer is known from the type that the memory was allocated for; an address in a word of
type `uintptr` is no pointer for the garbage collector. -/
inductive Cell where
  | ptr (a : Option Loc)
  | uintptr (a : Option Loc)
  | num (n : Nat)
  deriving DecidableEq, Repr

/-- What a pointer leads to. -/
def Cell.ref : Cell → Option Nat
  | .ptr (some a) => some a.obj
  | _ => none

/-- An object: its words, or for a map its entries. -/
structure Obj where
  cells : List Cell
  entries : List (Nat × List Cell)
  deriving DecidableEq, Repr

/-- Objects by number; the numbers from `next` on are not in use. -/
structure Store where
  obj : Nat → Obj
  next : Nat

/-- The types, as far as their words are concerned: numbers and booleans, strings, pointers, slices, maps (with numbers as keys),
arrays, structs, and fields of structs that are reached through an embedded pointer. -/
inductive Typ where
  | leaf
  | str
  | ptr (t : Typ)
  | slice (t : Typ)
  | map (t : Typ)
  | array (n : Nat) (t : Typ)
  | pair (a b : Typ)
  | embed (t : Typ)
  deriving DecidableEq, Repr

/-- The zero value, `unsafe_New`. -/
def zeroCells : Typ → List Cell
  | .leaf => [.num 0]
  | .str => [.ptr none, .num 0]
  | .ptr _ => [.ptr none]
  | .slice _ => [.ptr none, .num 0, .num 0]
  | .map _ => [.ptr none]
  | .array n t => (List.replicate n (zeroCells t)).flatten
  | .pair a b => zeroCells a ++ zeroCells b
  | .embed _ => [.ptr none]

/-- The size of a type in words. -/
def size (t : Typ) : Nat := (zeroCells t).length

/-- A computation on memory; `none` is a fault: a word is read or written that is not there. -/
abbrev Mem (α : Type) := Store → Option (α × Store)

namespace Mem

def pure {α : Type} (a : α) : Mem α := fun h => some (a, h)

def bind {α β : Type} (m : Mem α) (f : α → Mem β) : Mem β := fun h => (m h).bind fun r => f r.1 r.2

def fault {α : Type} : Mem α := fun _ => none

instance : Monad Mem where
  pure := pure
  bind := bind

/-- Read a word. -/
def read (p : Loc) : Mem Cell := fun h => ((h.obj p.obj).cells[p.off]?).map fun c => (c, h)

/-- Read `n` words. -/
def readAll (p : Loc) (n : Nat) : Mem (List Cell) := fun h =>
  if p.off + n ≤ (h.obj p.obj).cells.length then some (((h.obj p.obj).cells.drop p.off).take n, h) else none

def put (h : Store) (o : Nat) (x : Obj) : Store := { h with obj := fun i => if i = o then x else h.obj i }

/-- Write `cs` from `p` on. -/
def write (p : Loc) (cs : List Cell) : Mem Unit := fun h =>
  let x := h.obj p.obj
  if p.off + cs.length ≤ x.cells.length then
    some ((), put h p.obj { x with cells := x.cells.take p.off ++ cs ++ x.cells.drop (p.off + cs.length) })
  else none

/-- New memory. -/
def alloc (x : Obj) : Mem Nat := fun h => some (h.next, ⟨fun i => if i = h.next then x else h.obj i, h.next + 1⟩)

def setKey (k : Nat) (cs : List Cell) : List (Nat × List Cell) → List (Nat × List Cell)
  | [] => [(k, cs)]
  | e :: es => if e.1 = k then (k, cs) :: es else e :: setKey k cs es

/-- `mapassign`, `/repo/link_reflect.go:35-60`. -/
def assign (m : Nat) (k : Nat) (cs : List Cell) : Mem Unit := fun h =>
  some ((), put h m { h.obj m with entries := setKey k cs (h.obj m).entries })

/-- `*(*unsafe.Pointer)(p)` -/
def deref (p : Loc) : Mem (Option Loc) := do
  match ← read p with
  | .ptr a => pure a
  | _ => fault

end Mem

/-- The headers that `unsafeMakeSlice` makes: is `Data` a pointer?  In the code it is not: `sliceHeader = reflect.SliceHeader`,
`/repo/eface.go:29`; in the definition that is commented out it is, `/repo/eface.go:37-41`. -/
inductive HeaderKind where
  | uintptr
  | pointer
  deriving DecidableEq, Repr

def HeaderKind.cell : HeaderKind → Option Loc → Cell
  | .uintptr, a => .uintptr a
  | .pointer, a => .ptr a

/-- A slice header: `Data`, `Len`, `Cap`. -/
structure Header where
  data : Option Loc
  len : Nat
  cap : Nat

/-- Read a slice header that `unsafeMakeSlice` made. -/
def readHeader (k : HeaderKind) (p : Loc) : Mem Header := do
  match k, ← Mem.readAll p 3 with
  | .pointer, [.ptr a, .num l, .num c] => pure ⟨a, l, c⟩
  | .uintptr, [.uintptr a, .num l, .num c] => pure ⟨a, l, c⟩
  | _, _ => Mem.fault

/-- What is still to do: one entry for each call of a `Decode` that is not over, and for each place inside of it.  The pointers of an
entry are the variables of that call that are still used. -/
inductive Frame where
  /-- `Decode(p)` of the decoder of type `t` begins -/
  | dec (t : Typ) (p : Loc)
  /-- `*(*unsafe.Pointer)(p) = q`, `/repo/val_decoder_native_ptr.go:55-57`; also the string is stored thus, with its length as `rest` -/
  | store (p : Loc) (q : Nat) (rest : List Nat)
  /-- the pointer to the embedded struct is stored, and then used, `/repo/val_decoder_native_struct.go:140-143` -/
  | embed (t : Typ) (p : Loc) (q : Nat)
  /-- `[` is read, `/repo/val_decoder_native_slice.go:76-81` -/
  | sliceStart (t : Typ) (p : Loc)
  /-- inside `unsafeMakeSlice`, between the two allocations, `/repo/link_reflect.go:66-72`; `old` is the header to copy from -/
  | sliceHeader (t : Typ) (p : Loc) (old : Option Loc) (arr : Nat) (len cap : Nat)
  /-- before the first element, `/repo/val_decoder_native_slice.go:82-84` -/
  | sliceFirst (t : Typ) (p hdr : Loc)
  /-- `unsafeGrowSlice`, `/repo/link_reflect.go:85-106` -/
  | grow (t : Typ) (p hdr : Loc) (len : Nat)
  /-- `typedslicecopy`, `/repo/link_reflect.go:24-60` -/
  | copy (t : Typ) (p old hdr : Loc) (len : Nat)
  /-- `unsafeSliceChildPtr`, `/repo/val_decoder_native_slice.go:88` -/
  | child (t : Typ) (p hdr : Loc) (len : Nat)
  /-- after an element, `/repo/val_decoder_native_slice.go:92-103` -/
  | sliceNext (t : Typ) (p hdr : Loc) (len : Nat)
  /-- `*(*sliceHeader)(ptr) = *(*sliceHeader)(newPtr)`, `/repo/val_decoder_native_slice.go:106` -/
  | sliceEnd (p hdr : Loc)
  /-- `typedmemmove(dec.rtype, ptr, unsafeMakeMap(dec.rtype, 0))`, `/repo/val_decoder_native_map.go:84-91` -/
  | mapStore (t : Typ) (p : Loc) (m : Nat)
  /-- before the first key, `/repo/val_decoder_native_map.go:82-92` -/
  | mapFirst (t : Typ) (p : Loc)
  /-- a key follows, `/repo/val_decoder_native_map.go:92-108` -/
  | mapKey (t : Typ) (p : Loc)
  /-- the value for the key `k` is at `q`, `/repo/val_decoder_native_map.go:112` -/
  | mapAssign (t : Typ) (p : Loc) (k : Nat) (q : Nat)
  /-- after a value, `/repo/val_decoder_native_map.go:113-126` -/
  | mapNext (t : Typ) (p : Loc)
  /-- `i` elements of an array are done, `/repo/val_decoder_native_array.go:60-97` -/
  | array (n : Nat) (t : Typ) (p : Loc) (i : Nat)
  /-- between the fields of a struct, `/repo/val_decoder_native_struct.go:125-180` -/
  | fields (a b : Typ) (p : Loc)
  deriving DecidableEq, Repr

/-- The variables that are still used: the pointers on the stack.  A `uintptr` is none, so between the allocation of the array and
that of the header nothing points to the array if `Data` is no pointer. -/
def Frame.live (k : HeaderKind) : Frame → List Nat
  | .dec _ p => [p.obj]
  | .store p q _ => [p.obj, q]
  | .embed _ p q => [p.obj, q]
  | .sliceStart _ p => [p.obj]
  | .sliceHeader _ p old arr _ _ =>
    p.obj :: (old.map Loc.obj).toList ++ match k with
      | .uintptr => []
      | .pointer => [arr]
  | .sliceFirst _ p hdr => [p.obj, hdr.obj]
  | .grow _ p hdr _ => [p.obj, hdr.obj]
  | .copy _ p old hdr _ => [p.obj, old.obj, hdr.obj]
  | .child _ p hdr _ => [p.obj, hdr.obj]
  | .sliceNext _ p hdr _ => [p.obj, hdr.obj]
  | .sliceEnd p hdr => [p.obj, hdr.obj]
  | .mapStore _ p m => [p.obj, m]
  | .mapFirst _ p => [p.obj]
  | .mapKey _ p => [p.obj]
  | .mapAssign _ p _ q => [p.obj, q]
  | .mapNext _ p => [p.obj]
  | .array _ _ p _ => [p.obj]
  | .fields _ _ p => [p.obj]

/-- What the input says. -/
inductive Event where
  | null
  /-- a number, a boolean, or a string with the content `n` -/
  | scalar (n : Nat)
  /-- `[` or `{` -/
  | opening
  /-- `]` or `}` -/
  | closing
  /-- `,` -/
  | comma
  /-- a key, of a map: the number; of a struct: which field -/
  | key (k : Nat)
  /-- nothing is read -/
  | silent
  /-- one value that is skipped -/
  | skip
  deriving DecidableEq, Repr

/-- The capacity that `unsafeGrowSlice` asks for, `/repo/link_reflect.go:91-103`. -/
def growCap (cap len : Nat) : Nat :=
  if cap = 0 then len
  else go cap len len
where
  /-- the loop; `fuel` bounds the number of rounds (each makes the capacity larger) -/
  go (cap len : Nat) : Nat → Nat
    | 0 => cap
    | fuel + 1 => if cap < len then go (if cap < 1024 then 2 * cap else cap + cap / 4) len fuel else cap

/-- One step of the innermost call: what it does to memory, and what is to do instead. -/
def step (k : HeaderKind) : Frame → Event → Mem (List Frame)
  -- `/repo/val_decoder_native_numbers.go:10-25` and the like
  | .dec .leaf p, .scalar n => do Mem.write p [.num n]; pure []
  | .dec .leaf _, .null => pure []
  -- `/repo/val_decoder_native_string.go:9-40`: a new string, then the header is stored
  | .dec .str p, .scalar n => do
    let o ← Mem.alloc ⟨[.num n], []⟩
    pure [.store p o [1]]
  | .dec .str _, .null => pure []
  | .store p q rest, .silent => do Mem.write p (.ptr (some ⟨q, 0⟩) :: rest.map .num); pure []
  -- `/repo/val_decoder_native_ptr.go:32-60`
  | .dec (.ptr _) p, .null => do Mem.write p [.ptr none]; pure []
  | .dec (.ptr t) p, .silent => do
    match ← Mem.deref p with
    | some q => pure [.dec t q]
    | none => do
      let q ← Mem.alloc ⟨zeroCells t, []⟩
      pure [.dec t ⟨q, 0⟩, .store p q []]
  -- `/repo/val_decoder_native_struct.go:135-145`
  | .dec (.embed t) p, .silent => do
    match ← Mem.deref p with
    | some q => pure [.dec t q]
    | none => do
      let q ← Mem.alloc ⟨zeroCells t, []⟩
      pure [.embed t p q]
  | .embed t p q, .silent => do Mem.write p [.ptr (some ⟨q, 0⟩)]; pure [.dec t ⟨q, 0⟩]
  -- `/repo/val_decoder_native_slice.go:38-108`
  | .dec (.slice _) p, .null => do Mem.write p [.ptr none, .num 0, .num 0]; pure []
  | .dec (.slice t) p, .opening => pure [.sliceStart t p]
  | .sliceStart t p, .silent => do
    let a ← Mem.alloc ⟨[], []⟩
    pure [.sliceHeader t p none a 0 0]
  | .sliceHeader t p old arr len cap, .silent => do
    let o ← Mem.alloc ⟨[k.cell (some ⟨arr, 0⟩), .num len, .num cap], []⟩
    match old with
    | none => pure [.sliceFirst t p ⟨o, 0⟩]
    | some old => pure [.copy t p old ⟨o, 0⟩ len]
  | .sliceFirst _ p hdr, .closing => pure [.sliceEnd p hdr]
  | .sliceFirst t p hdr, .silent => pure [.grow t p hdr 1]
  | .grow t p hdr len, .silent => do
    let h ← readHeader k hdr
    if len < h.cap then do
      Mem.write ⟨hdr.obj, hdr.off + 1⟩ [.num len]
      pure [.child t p hdr len]
    else do
      let c := growCap h.cap len
      let a ← Mem.alloc ⟨(List.replicate c (zeroCells t)).flatten, []⟩
      pure [.sliceHeader t p (some hdr) a len c]
  | .copy t p old hdr len, .silent => do
    let src ← readHeader k old
    let dst ← readHeader k hdr
    let n := min src.len dst.len * size t
    if n = 0 then pure [.child t p hdr len]
    else
      match src.data, dst.data with
      | some s, some d => do
        let cs ← Mem.readAll s n
        Mem.write d cs
        pure [.child t p hdr len]
      | _, _ => Mem.fault
  | .child t p hdr len, .silent => do
    let h ← readHeader k hdr
    match h.data with
    | some a => pure [.dec t ⟨a.obj, a.off + (len - 1) * size t⟩, .sliceNext t p hdr len]
    | none => Mem.fault
  | .sliceNext t p hdr len, .comma => pure [.grow t p hdr (len + 1)]
  | .sliceNext _ p hdr _, .closing => pure [.sliceEnd p hdr]
  | .sliceEnd p hdr, .silent => do
    let h ← readHeader k hdr
    Mem.write p [.ptr h.data, .num h.len, .num h.cap]
    pure []
  -- `/repo/val_decoder_native_map.go:60-127`
  | .dec (.map _) p, .null => do Mem.write p [.ptr none]; pure []
  | .dec (.map t) p, .opening => do
    match ← Mem.deref p with
    | some _ => pure [.mapFirst t p]
    | none => do
      let m ← Mem.alloc ⟨[], []⟩
      pure [.mapStore t p m]
  | .mapStore t p m, .silent => do Mem.write p [.ptr (some ⟨m, 0⟩)]; pure [.mapFirst t p]
  | .mapFirst _ _, .closing => pure []
  | .mapFirst t p, .silent => pure [.mapKey t p]
  | .mapKey t p, .key n => do
    let q ← Mem.alloc ⟨zeroCells t, []⟩
    pure [.dec t ⟨q, 0⟩, .mapAssign t p n q]
  | .mapAssign t p n q, .silent => do
    match ← Mem.deref p with
    | some m => do
      let cs ← Mem.readAll ⟨q, 0⟩ (size t)
      Mem.assign m.obj n cs
      pure [.mapNext t p]
    | none => Mem.fault
  | .mapNext _ _, .closing => pure []
  | .mapNext t p, .comma => pure [.mapKey t p]
  -- `/repo/val_decoder_native_array.go:41-99`
  | .dec (.array _ _) _, .null => pure []
  | .dec (.array n t) p, .opening => pure [.array n t p 0]
  | .array n t p i, .silent => if i < n then pure [.dec t ⟨p.obj, p.off + i * size t⟩, .array n t p (i + 1)] else Mem.fault
  | .array n t p i, .skip => if i < n then Mem.fault else pure [.array n t p i]
  | .array n t p i, .closing => do
    Mem.write ⟨p.obj, p.off + i * size t⟩ (List.replicate (n - i) (zeroCells t)).flatten
    pure []
  -- `/repo/val_decoder_native_struct.go:99-185`; a field may come any number of times
  | .dec (.pair _ _) _, .null => pure []
  | .dec (.pair a b) p, .opening => pure [.fields a b p]
  | .fields a b p, .key 0 => pure [.dec a p, .fields a b p]
  | .fields a b p, .key 1 => pure [.dec b ⟨p.obj, p.off + size a⟩, .fields a b p]
  | .fields a b p, .skip => pure [.fields a b p]
  | .fields _ _ _, .closing => pure []
  | _, _ => Mem.fault

/-- The state of a program inside `Decode`: the calls, innermost first, and memory; `base` are the pointers of the rest of the
program. -/
structure State where
  frames : List Frame
  base : List Nat
  store : Store

/-- The pointers that a garbage collection begins with. -/
def State.roots (k : HeaderKind) (s : State) : List Nat := s.frames.flatMap (Frame.live k) ++ s.base

/-- The objects that the pointers of an object lead to. -/
def Obj.refs (x : Obj) : List Nat :=
  (x.cells ++ x.entries.flatMap Prod.snd).filterMap Cell.ref

/-- What a garbage collection finds. -/
inductive Reach (h : Store) (roots : List Nat) : Nat → Prop
  | root (o : Nat) : o ∈ roots → Reach h roots o
  | ref (o o' : Nat) : Reach h roots o → o' ∈ (h.obj o).refs → Reach h roots o'

/-- A garbage collection: what it finds stays; what it does not find is given to others, and may hold anything afterwards. -/
structure Collect (roots : List Nat) (h h' : Store) : Prop where
  next : h'.next = h.next
  kept : ∀ o, Reach h roots o → h'.obj o = h.obj o

/-- Steps of the program: `Decode` goes on with the next event, or fails, which ends all calls. -/
inductive Step (k : HeaderKind) : State → Option Event → State → Prop
  | go (f : Frame) (fs fs' : List Frame) (base : List Nat) (e : Event) (h h' : Store) : step k f e h = some (fs', h') →
      Step k ⟨f :: fs, base, h⟩ (some e) ⟨fs' ++ fs, base, h'⟩
  | fail (s : State) : Step k s none { s with frames := [] }

/-- Runs without a garbage collection. -/
inductive Run (k : HeaderKind) : State → List (Option Event) → State → Prop
  | nil (s : State) : Run k s [] s
  | cons (s s1 s' : State) (e : Option Event) (es : List (Option Event)) : Step k s e s1 → Run k s1 es s' → Run k s (e :: es) s'

/-- Runs with garbage collections at any time. -/
inductive RunGc (k : HeaderKind) : State → List (Option Event) → State → Prop
  | nil (s : State) : RunGc k s [] s
  | cons (s s1 s' : State) (e : Option Event) (es : List (Option Event)) : Step k s e s1 → RunGc k s1 es s' → RunGc k s (e :: es) s'
  | gc (s s' : State) (h : Store) (es : List (Option Event)) : Collect (s.roots k) s.store h → RunGc k { s with store := h } es s' →
      RunGc k s es s'

end Jzon.Gc
