/-!
# The coder caches under concurrency

Model of `createDecoder` and `createDecoderInternal` (`/repo/decoder_config.go:103-248`) as a transition system: any number of
goroutines look up and construct coders; every step is one atomic action of one goroutine, and the order of the steps is
arbitrary.  The steps of the construction itself are a parameter (`Builder`), so that the encoder side can use the same
transition system.
Simplification: the transition system is sequentially consistent.  That no goroutine reads an object while another one writes it,
which makes this adequate in the memory model of Go, is a theorem (`C31_frozen`, `C31_enc_frozen`).
-/

namespace Jzon

/-- An `rtype`. -/
abbrev TypeId := Nat

/-- A cache, `/repo/decoder_config.go:35` and `/repo/encoder_config.go:24`; `none` is a missing entry. -/
abbrev CoderMap (C : Type) := TypeId → Option C

def CoderMap.put {C : Type} (m : CoderMap C) (t : TypeId) (c : C) : CoderMap C := fun u => if u = t then some c else m u

/-- The construction of coders by the goroutine that holds the lock: `C` are coders, `G` is what the lock protects besides the
published cache (the objects, the internal cache), `L` are the local variables. -/
structure Builder (C G L : Type) where
  /-- the local variables when the construction for a type begins, from the published cache -/
  start : CoderMap C → TypeId → L
  step : G → L → G → L → Prop
  /-- the new cache, at the end of the construction -/
  done : L → Option (CoderMap C)

/-- Where a goroutine is. -/
inductive Phase (C L : Type) where
  /-- not in one of the functions -/
  | idle
  /-- has not found the type in the published cache and calls `createDecoder`, `/repo/decoder_config.go:117` -/
  | wait (t : TypeId)
  /-- holds the lock, `/repo/decoder_config.go:120` -/
  | locked (t : TypeId)
  /-- runs `createDecoderInternal`, `/repo/decoder_config.go:132` -/
  | building (t : TypeId) (l : L)
  /-- is about to return the coder and to release the lock, `/repo/decoder_config.go:134` -/
  | leaving (t : TypeId) (c : Option C)

/-- What the goroutines share, and where each of them is; `log` are the coders that were handed out, the latest first. -/
structure CacheState (C G L : Type) where
  pub : CoderMap C
  glob : G
  lock : Option Nat
  phase : Nat → Phase C L
  log : List (Nat × TypeId × Option C)

section
variable {C G L : Type}

def CacheState.goto (s : CacheState C G L) (i : Nat) (p : Phase C L) : CacheState C G L :=
  { s with phase := fun j => if j = i then p else s.phase j }

/-- One step of the goroutine `i`. -/
inductive CacheStep (B : Builder C G L) (i : Nat) : CacheState C G L → CacheState C G L → Prop
  /-- `getDecoderFromCache` finds a coder, `/repo/decoder_config.go:103-105` and `/repo/iterator_val.go:14` -/
  | hit {s : CacheState C G L} (t : TypeId) (c : C) (h : s.phase i = .idle) (hp : s.pub t = some c) :
      CacheStep B i s { s with log := (i, t, some c) :: s.log }
  /-- `getDecoderFromCache` finds none -/
  | miss {s : CacheState C G L} (t : TypeId) (h : s.phase i = .idle) (hp : s.pub t = none) :
      CacheStep B i s (s.goto i (.wait t))
  /-- `cacheMu.Lock`, `/repo/decoder_config.go:118` -/
  | acquire {s : CacheState C G L} (t : TypeId) (h : s.phase i = .wait t) (hl : s.lock = none) :
      CacheStep B i s ({ s with lock := some i }.goto i (.locked t))
  /-- the double check succeeds, `/repo/decoder_config.go:120-124` -/
  | found {s : CacheState C G L} (t : TypeId) (c : C) (h : s.phase i = .locked t) (hp : s.pub t = some c) :
      CacheStep B i s (s.goto i (.leaving t (some c)))
  /-- the double check fails; the cache is copied, `/repo/decoder_config.go:125-131` -/
  | begin {s : CacheState C G L} (t : TypeId) (h : s.phase i = .locked t) (hp : s.pub t = none) :
      CacheStep B i s (s.goto i (.building t (B.start s.pub t)))
  /-- one step of the construction -/
  | build {s : CacheState C G L} (t : TypeId) (l l' : L) (g' : G) (h : s.phase i = .building t l) (hb : B.step s.glob l g' l') :
      CacheStep B i s ({ s with glob := g' }.goto i (.building t l'))
  /-- `decoderCache.Store(newCache)` and `newCache[rType]`, `/repo/decoder_config.go:133-134` -/
  | publish {s : CacheState C G L} (t : TypeId) (l : L) (m : CoderMap C) (h : s.phase i = .building t l) (hd : B.done l = some m) :
      CacheStep B i s ({ s with pub := m }.goto i (.leaving t (m t)))
  /-- `cacheMu.Unlock`, `/repo/decoder_config.go:119`, and the return -/
  | release {s : CacheState C G L} (t : TypeId) (c : Option C) (h : s.phase i = .leaving t c) :
      CacheStep B i s ({ s with lock := none, log := (i, t, c) :: s.log }.goto i .idle)

/-- Any number of steps of any goroutines. -/
inductive CacheRun (B : Builder C G L) : CacheState C G L → CacheState C G L → Prop
  | refl (s : CacheState C G L) : CacheRun B s s
  | tail {s1 s2 s3 : CacheState C G L} (i : Nat) (h : CacheRun B s1 s2) (h' : CacheStep B i s2 s3) : CacheRun B s1 s3

end

/-! ## The decoder cache -/

/-- A decoder: one without links to other decoders (a nil pointer of a decoder type, a custom decoder), or an object with links. -/
inductive Coder where
  | prim (p : Nat)
  | obj (a : Nat)
  deriving DecidableEq, Repr

/-- What `createDecoderInternal` finds out about a type, `/repo/decoder_config.go:148-242`. -/
inductive DecShape where
  /-- the decoder is `p`: global decoders, `json.Unmarshaler`, `encoding.TextUnmarshaler`, interfaces, structs without fields,
  types without support -/
  | prim (p : Nat)
  /-- the type is of a kind whose native type is `k` and whose decoder is `p` -/
  | native (k : TypeId) (p : Nat)
  /-- a decoder with links to the decoders of the types `kids`: structs, pointers, arrays, slices, maps -/
  | node (kids : List TypeId)
  deriving DecidableEq, Repr

/-- The types, and the decoders of `DecoderOption.ValDecoders` (taken to be not nil). -/
structure DecTypes where
  shape : TypeId → DecShape
  custom : TypeId → Option Nat

/-- A decoder object; `links` is `none` before `build`, and a link is `none` if it is nil. -/
structure DecObj where
  ty : TypeId
  links : Option (List (Option Coder))

/-- The local variables of `createDecoderInternal`: the new cache, `typesToCreate` (`/repo/type_queue.go`, the last one first) and
`rebuildMap`. -/
structure DecLoc where
  cache : CoderMap Coder
  queue : List TypeId
  rebuild : List (TypeId × Nat)

/-- `typesToCreate.push` for each of the types in turn. -/
def pushAll (kids queue : List TypeId) : List TypeId := kids.reverse ++ queue

/-- One step of `createDecoderInternal`, `/repo/decoder_config.go:141-248`; the heap is the list of objects. -/
inductive DecStep (tt : DecTypes) : List DecObj → DecLoc → List DecObj → DecLoc → Prop
  /-- the type was visited before, `/repo/decoder_config.go:145-147` -/
  | visited {g : List DecObj} {l : DecLoc} (t : TypeId) (q : List TypeId) (c : Coder) (hq : l.queue = t :: q) (hc : l.cache t = some c) :
      DecStep tt g l g { l with queue := q }
  | prim {g : List DecObj} {l : DecLoc} (t : TypeId) (q : List TypeId) (p : Nat) (hq : l.queue = t :: q) (hc : l.cache t = none)
      (hs : tt.shape t = .prim p) : DecStep tt g l g { l with queue := q, cache := l.cache.put t (.prim p) }
  /-- `/repo/decoder_config.go:168-171` -/
  | nativeCached {g : List DecObj} {l : DecLoc} (t : TypeId) (q : List TypeId) (k : TypeId) (p : Nat) (c : Coder) (hq : l.queue = t :: q)
      (hc : l.cache t = none) (hs : tt.shape t = .native k p) (hk : l.cache k = some c) :
      DecStep tt g l g { l with queue := q, cache := l.cache.put t c }
  /-- `/repo/decoder_config.go:173-176` -/
  | native {g : List DecObj} {l : DecLoc} (t : TypeId) (q : List TypeId) (k : TypeId) (p : Nat) (hq : l.queue = t :: q)
      (hc : l.cache t = none) (hs : tt.shape t = .native k p) (hk : l.cache k = none) :
      DecStep tt g l g { l with queue := q, cache := l.cache.put t (.prim p) }
  /-- `/repo/decoder_config.go:192-239` -/
  | node {g : List DecObj} {l : DecLoc} (t : TypeId) (q : List TypeId) (kids : List TypeId) (hq : l.queue = t :: q)
      (hc : l.cache t = none) (hs : tt.shape t = .node kids) :
      DecStep tt g l (g ++ [⟨t, none⟩])
        { cache := l.cache.put t (.obj g.length), queue := pushAll kids q, rebuild := (t, g.length) :: l.rebuild }
  /-- `builder.build(cache)` for any of the builders that are left, `/repo/decoder_config.go:245-247`, `/repo/val_decoder_native_ptr.go:22-24`
  and likewise for the other kinds -/
  | rebuild {g : List DecObj} {l : DecLoc} (t : TypeId) (a : Nat) (kids : List TypeId) (hq : l.queue = []) (hr : (t, a) ∈ l.rebuild)
      (hs : tt.shape t = .node kids) :
      DecStep tt g l (g.set a ⟨t, some (kids.map l.cache)⟩) { l with rebuild := l.rebuild.filter (· ≠ (t, a)) }

/-- The construction of decoders. -/
def decBuilder (tt : DecTypes) : Builder Coder (List DecObj) DecLoc where
  start pub t := { cache := pub, queue := [t], rebuild := [] }
  step := DecStep tt
  done l := if l.queue = [] ∧ l.rebuild = [] then some l.cache else none

/-- After `NewDecoderConfig`, `/repo/decoder_config.go:54-74`, with all goroutines still to begin. -/
def decInit (tt : DecTypes) : CacheState Coder (List DecObj) DecLoc where
  pub t := (tt.custom t).map .prim
  glob := []
  lock := none
  phase _ := .idle
  log := []

end Jzon
