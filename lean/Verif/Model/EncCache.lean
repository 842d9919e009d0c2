import Verif.Model.Cache

/-!
# The encoder cache under concurrency

Model of `createEncoder` and `createEncoderInternal` (`/repo/encoder_config.go:110-374`) in the transition system of `Model/Cache.lean`.
Unlike the decoder side there are two caches: the published one (root encoders, for values as they are stored in interfaces), which
is copied and replaced, and the internal one, which is modified in place while the lock is held.
-/

namespace Jzon

/-- An encoder: one without links (a nil pointer of an encoder type, a marshaler encoder, a custom encoder), an object with
links, or a `directEncoder` around another encoder (`/repo/val_encoder_direct.go:7-17`; never changed after it was made) or around nil. -/
inductive ECoder where
  | prim (p : Nat)
  | obj (a : Nat)
  | direct (c : ECoder)
  | directNil
  deriving DecidableEq, Repr

/-- `(*uint8Encoder)(nil)` and `(*base64Encoder)(nil)`. -/
def uint8Coder : Nat := 0
def base64Coder : Nat := 1

/-- What `createEncoderInternal` finds out about a type, `/repo/encoder_config.go:139-303`. -/
inductive EncShape where
  /-- the encoder is `p`, in the published cache inside a `directEncoder` if `direct`; the types `push` are pushed nevertheless:
  global encoders, marshalers, interfaces, empty arrays, structs without fields, types without support -/
  | prim (p : Nat) (direct : Bool) (push : List TypeId)
  /-- the type is of a kind whose native type is `k` and whose encoder is `p`, `/repo/encoder_config.go:220-236` -/
  | native (k : TypeId) (p : Nat)
  /-- pointers, `/repo/encoder_config.go:162-168`, `/repo/encoder_config.go:197-203`, `/repo/encoder_config.go:239-244` -/
  | ptr (elem : TypeId)
  /-- maps, `/repo/encoder_config.go:268-279` -/
  | map (elem : TypeId)
  /-- slices, `/repo/encoder_config.go:280-284`; `bytes` if the elements are of the kind `Uint8` -/
  | slice (elem : TypeId) (bytes : Bool)
  /-- arrays and structs, `/repo/encoder_config.go:245-257`, `/repo/encoder_config.go:285-298`; `direct` if a value is stored
  directly in an interface -/
  | node (elems : List TypeId) (direct : Bool)
  deriving DecidableEq, Repr

/-- The types, the pointer type to each (`reflect.PtrTo`), and the encoders of `EncoderOption.ValEncoders` (taken to be not nil). -/
structure EncTypes where
  shape : TypeId → EncShape
  ptrTo : TypeId → TypeId
  custom : TypeId → Option Nat

/-- The types that are pushed when a type is met. -/
def EncTypes.pushes (tt : EncTypes) (t : TypeId) : List TypeId :=
  match tt.shape t with
  | .prim _ _ push => push
  | .native _ _ => []
  | .ptr e => [e]
  | .map e => [e]
  | .slice e _ => [tt.ptrTo e]
  | .node es _ => es.map tt.ptrTo

/-- The encoder of the type has links. -/
def EncShape.linked : EncShape → Bool
  | .prim _ _ _ | .native _ _ => false
  | _ => true

def EncShape.isPtr : EncShape → Bool
  | .ptr _ => true
  | _ => false

/-- An encoder object; `ptr` if it is a `*pointerEncoder`; before it is built `links` is empty, and a link is `none` if it is nil. -/
structure EncObj where
  ty : TypeId
  ptr : Bool
  links : List (Option ECoder)

/-- What the lock protects. -/
structure EncGlob where
  heap : List EncObj
  internal : CoderMap ECoder

/-- The four loops of `createEncoderInternal`. -/
inductive EncStage where
  | create
  | base64
  | ptrs
  | others
  deriving DecidableEq, Repr

/-- The local variables of `createEncoderInternal`: the new cache, `typesToCreate`, `rebuildMap`, and what the loop over
`rebuildMap` has still to visit. -/
structure EncLoc where
  cache : CoderMap ECoder
  queue : List TypeId
  rebuild : List (TypeId × Nat)
  stage : EncStage
  todo : List (TypeId × Nat)

def CoderMap.set {C : Type} (m : CoderMap C) (t : TypeId) (c : Option C) : CoderMap C := fun u => if u = t then c else m u

/-- `preferPtrEncoder`, `/repo/encoder_config.go:33-41`. -/
def preferPtr (tt : EncTypes) (g : EncGlob) (e : TypeId) : Option ECoder :=
  match g.internal (tt.ptrTo e) with
  | none => some .directNil
  | some (.obj b) =>
    match g.heap[b]? with
    | some o => if o.ptr then o.links.headD none else some (.direct (.obj b))
    | none => some (.direct (.obj b))
  | some c => some (.direct c)

/-- The links that the third loop over `rebuildMap` gives to an encoder, `/repo/encoder_config.go:341-365`. -/
def otherLinks (tt : EncTypes) (g : EncGlob) : EncShape → List (Option ECoder)
  | .map e => [g.internal e]
  | .slice e _ => [preferPtr tt g e]
  | .node es _ => es.map (preferPtr tt g)
  | _ => []

/-- The root encoder that the third loop stores, `/repo/encoder_config.go:342-371`. -/
def otherRoot (a : Nat) : EncShape → ECoder
  | .map _ => .direct (.obj a)
  | .node _ true => .direct (.obj a)
  | _ => .obj a

/-- The conditions under which a slice is written in base64, `/repo/encoder_config.go:309-325`. -/
def IsBase64 (tt : EncTypes) (g : EncGlob) (t : TypeId) : Prop :=
  ∃ e, tt.shape t = .slice e true ∧ (∃ b o, g.internal (tt.ptrTo e) = some (.obj b) ∧ g.heap[b]? = some o ∧ o.ptr = true) ∧
    g.internal e = some (.prim uint8Coder)

/-- One step of `createEncoderInternal`, `/repo/encoder_config.go:136-374`. -/
inductive EncStep (tt : EncTypes) : EncGlob → EncLoc → EncGlob → EncLoc → Prop
  /-- the type was visited before, `/repo/encoder_config.go:140-142` -/
  | visited {g : EncGlob} {l : EncLoc} (t : TypeId) (q : List TypeId) (c : ECoder) (hs : l.stage = .create) (hq : l.queue = t :: q)
      (hc : g.internal t = some c) : EncStep tt g l g { l with queue := q }
  | prim {g : EncGlob} {l : EncLoc} (t : TypeId) (q : List TypeId) (p : Nat) (d : Bool) (push : List TypeId) (hs : l.stage = .create)
      (hq : l.queue = t :: q) (hc : g.internal t = none) (hsh : tt.shape t = .prim p d push) :
      EncStep tt g l { g with internal := g.internal.put t (.prim p) }
        { l with queue := pushAll push q, cache := l.cache.put t (if d then .direct (.prim p) else .prim p) }
  /-- `/repo/encoder_config.go:224-228` -/
  | nativeCached {g : EncGlob} {l : EncLoc} (t : TypeId) (q : List TypeId) (k : TypeId) (p : Nat) (c : ECoder) (hs : l.stage = .create)
      (hq : l.queue = t :: q) (hc : g.internal t = none) (hsh : tt.shape t = .native k p) (hk : g.internal k = some c) :
      EncStep tt g l { g with internal := g.internal.put t c } { l with queue := q, cache := l.cache.put t c }
  /-- `/repo/encoder_config.go:230-234` -/
  | native {g : EncGlob} {l : EncLoc} (t : TypeId) (q : List TypeId) (k : TypeId) (p : Nat) (hs : l.stage = .create)
      (hq : l.queue = t :: q) (hc : g.internal t = none) (hsh : tt.shape t = .native k p) (hk : g.internal k = none) :
      EncStep tt g l { g with internal := g.internal.put t (.prim p) } { l with queue := q, cache := l.cache.put t (.prim p) }
  /-- a new object, `/repo/encoder_config.go:238-298` -/
  | linked {g : EncGlob} {l : EncLoc} (t : TypeId) (q : List TypeId) (hs : l.stage = .create) (hq : l.queue = t :: q)
      (hc : g.internal t = none) (hsh : (tt.shape t).linked = true) :
      EncStep tt g l { heap := g.heap ++ [⟨t, (tt.shape t).isPtr, []⟩], internal := g.internal.put t (.obj g.heap.length) }
        { l with queue := pushAll (tt.pushes t) q, rebuild := (t, g.heap.length) :: l.rebuild }
  | toBase64 {g : EncGlob} {l : EncLoc} (hs : l.stage = .create) (hq : l.queue = []) :
      EncStep tt g l g { l with stage := .base64, todo := l.rebuild }
  /-- `/repo/encoder_config.go:326-329` -/
  | base64 {g : EncGlob} {l : EncLoc} (t : TypeId) (a : Nat) (hs : l.stage = .base64) (hm : (t, a) ∈ l.todo) (hb : IsBase64 tt g t) :
      EncStep tt g l { g with internal := g.internal.put t (.prim base64Coder) }
        { l with cache := l.cache.put t (.prim base64Coder), rebuild := l.rebuild.filter (· ≠ (t, a)),
                 todo := l.todo.filter (· ≠ (t, a)) }
  | skipBase64 {g : EncGlob} {l : EncLoc} (t : TypeId) (a : Nat) (hs : l.stage = .base64) (hm : (t, a) ∈ l.todo) (hb : ¬IsBase64 tt g t) :
      EncStep tt g l g { l with todo := l.todo.filter (· ≠ (t, a)) }
  | toPtrs {g : EncGlob} {l : EncLoc} (hs : l.stage = .base64) (ht : l.todo = []) :
      EncStep tt g l g { l with stage := .ptrs, todo := l.rebuild }
  /-- `/repo/encoder_config.go:335-339` -/
  | ptr {g : EncGlob} {l : EncLoc} (t : TypeId) (a : Nat) (e : TypeId) (hs : l.stage = .ptrs) (hm : (t, a) ∈ l.todo)
      (hsh : tt.shape t = .ptr e) :
      EncStep tt g l { g with heap := g.heap.set a ⟨t, true, [g.internal e]⟩ }
        { l with cache := l.cache.set t (g.internal e), rebuild := l.rebuild.filter (· ≠ (t, a)), todo := l.todo.filter (· ≠ (t, a)) }
  | skipPtr {g : EncGlob} {l : EncLoc} (t : TypeId) (a : Nat) (hs : l.stage = .ptrs) (hm : (t, a) ∈ l.todo)
      (hsh : (tt.shape t).isPtr = false) : EncStep tt g l g { l with todo := l.todo.filter (· ≠ (t, a)) }
  | toOthers {g : EncGlob} {l : EncLoc} (hs : l.stage = .ptrs) (ht : l.todo = []) :
      EncStep tt g l g { l with stage := .others, todo := l.rebuild }
  /-- `/repo/encoder_config.go:342-372`; here the entry leaves `rebuild` too, which nothing can tell -/
  | other {g : EncGlob} {l : EncLoc} (t : TypeId) (a : Nat) (hs : l.stage = .others) (hm : (t, a) ∈ l.todo) :
      EncStep tt g l { g with heap := g.heap.set a ⟨t, false, otherLinks tt g (tt.shape t)⟩ }
        { l with cache := l.cache.put t (otherRoot a (tt.shape t)), rebuild := l.rebuild.filter (· ≠ (t, a)),
                 todo := l.todo.filter (· ≠ (t, a)) }

/-- The construction of encoders, `/repo/encoder_config.go:122-133`. -/
def encBuilder (tt : EncTypes) : Builder ECoder EncGlob EncLoc where
  start pub t := { cache := pub, queue := [t], rebuild := [], stage := .create, todo := [] }
  step := EncStep tt
  done l := if l.stage = .others ∧ l.todo = [] then some l.cache else none

/-- After `NewEncoderConfig`, `/repo/encoder_config.go:60-82`, with all goroutines still to begin. -/
def encInit (tt : EncTypes) : CacheState ECoder EncGlob EncLoc where
  pub t := (tt.custom t).map .prim
  glob := { heap := [], internal := fun t => (tt.custom t).map .prim }
  lock := none
  phase _ := .idle
  log := []

end Jzon
