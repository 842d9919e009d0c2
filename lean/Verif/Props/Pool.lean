import Verif.Proof.Phys
import Verif.Spec.Sample
import Verif.Spec.EncSample

/-!
# C32: recycled objects behave as new ones
-/

namespace Jzon.Props

open Jzon Spec

/-! ## The stack objects -/

/-- **C32**: skipping and reading give the same result, and leave the iterator in the same state, whichever stack object the
pool hands out. -/
theorem C32_stack {F : Type} (cfg : ReadCfg F) (pool pool' : Stack) (it : It) :
    (Skip pool).runM it = (Skip pool').runM it ∧ (SkipArray pool).runM it = (SkipArray pool').runM it ∧
      (SkipObject pool).runM it = (SkipObject pool').runM it ∧ (SkipRaw pool).runM it = (SkipRaw pool').runM it ∧
      (∀ b, (AppendRaw pool b).runM it = (AppendRaw pool' b).runM it) ∧ (Read cfg pool).runM it = (Read cfg pool').runM it :=
  ⟨by rw [Skip_pool pool pool'], by rw [SkipArray_pool pool pool'], by rw [SkipObject_pool pool pool'],
    by rw [SkipRaw_pool pool pool'], fun b => by rw [AppendRaw_pool pool pool'], by rw [Read_pool cfg pool pool']⟩

/-- A recycled stack object full of ones, and a new one. -/
example : ((Skip ⟨[0xFFFFFFFFFFFFFFFF, 0xFFFFFFFFFFFFFFFF], 77⟩).runM (sampleIt.resetBytes (bs! "[[{\"a\":[]}]] 7"))) =
    (.ok (), ⟨bs! "[[{\"a\":[]}]] 7", 12, 0, false, none⟩) := by rfl

/-! ## Whole calls -/

/-- **C32**: `Valid` does not depend on the iterator and the stack object it is given. -/
theorem C32_valid (it it' : It) (pool pool' : Stack) (data : List Byte) : Valid it pool data = Valid it' pool' data := by
  unfold Valid
  rw [validProg_pool pool pool']
  rfl

example : Valid ⟨bs! "left over", 4, 9, true, some []⟩ ⟨[0xFFFFFFFFFFFFFFFF], 3⟩ (bs! "[{}]") = true := by rfl

/-- **C32**: `Unmarshal` gives the same value or the same error whatever the pools hand out. -/
theorem C32_unmarshal {F : Type} (Γ : TyEnv F) (cfg : DecCfg F) (pools pools' : Pools) (it it' : It) (data : List Byte) (t : Ty)
    (old : Val F) : Unmarshal Γ cfg pools it data t old = Unmarshal Γ cfg pools' it' data t old := by
  unfold Unmarshal
  rw [unmarshalProg_pool Γ cfg pools pools']
  rfl

/-- **C32**: `UnmarshalFromReader` gives the same value or the same error whatever the pools hand out. -/
theorem C32_unmarshal_reader {F : Type} (Γ : TyEnv F) (cfg : DecCfg F) (pools pools' : Pools) (it it' : It) (script : List RdRes)
    (t : Ty) (old : Val F) :
    UnmarshalFromReader Γ cfg pools it script t old = UnmarshalFromReader Γ cfg pools' it' script t old := by
  unfold UnmarshalFromReader
  rw [unmarshalProg_pool Γ cfg pools pools']
  rfl

/-- **C32**: all calls on a new decoder are answered in the same way whatever the pools hand out. -/
theorem C32_decoder {F : Type} (Γ : TyEnv F) (cfg : DecCfg F) (pools pools' : Pools) (it it' : It) (script : List RdRes)
    (calls : List (DecCall F)) :
    (newDecoder cfg it script).calls Γ cfg pools calls = (newDecoder cfg it' script).calls Γ cfg pools' calls := by
  rw [Decoder.calls_pool Γ cfg pools pools']
  rfl

/-- **C32**: decoding into variables that hold interfaces and pointers ends in the same way whatever the pools hand out; in
particular the checkpoint of the loop detection does not survive. -/
theorem C32_variables {F : Type} (Γ : TyEnv F) (cfg : DecCfg F) (pools pools' : Pools) (n : Nat) (s s' : EIt) (data : List Byte)
    (m : Mem F) (a : Nat) : UnmarshalVar Γ cfg pools n s data m a = UnmarshalVar Γ cfg pools' n s' data m a := by
  unfold UnmarshalVar
  rw [decodeVar_pool Γ cfg pools pools']
  rfl

/-- **C32**: an iterator that was given another reader decodes into variables as a new one does. -/
theorem C32_variables_reader {F : Type} (Γ : TyEnv F) (cfg : DecCfg F) (pools pools' : Pools) (n : Nat) (s s' : EIt) (script : List RdRes)
    (m : Mem F) (a : Nat) :
    decodeVar Γ cfg pools n m a (s.resetReader script) = decodeVar Γ cfg pools' n m a (s'.resetReader script) := by
  rw [decodeVar_pool Γ cfg pools pools']
  rfl

/-- The checkpoint left behind names the very variable and position of the next call. -/
example : ∃ m, UnmarshalVar sampleEnv sampleCfg samplePools 5 ⟨sampleIt, some (0, 0)⟩ (bs! "1") [.any .nil] 0 = .ok m := ⟨_, rfl⟩

example : ∃ s', decodeVar sampleEnv sampleCfg samplePools 5 [.any .nil] 0 ((⟨sampleIt, some (0, 0)⟩ : EIt).resetReader [⟨bs! "1", some .eof⟩]) =
    (.ok [.any (.number (bs! "1"))], s') := ⟨_, rfl⟩

/-! ## Streamers -/

/-- **C32**: a streamer from the pool is as good as a new one. -/
theorem C32_streamer {s : Streamer} (h : PooledStreamer s) (html : Bool) : borrowStreamer s html = borrowStreamer pooledNew html := by
  cases h <;> rfl

/-- **C32**: what the model of `Marshal` starts from is what `NewStreamer` takes from the pool. -/
theorem C32_streamer_model {F : Type} (E : EncEnv F) {s : Streamer} (h : PooledStreamer s) (old : Streamer) :
    newStreamer E old = borrowStreamer s E.escapeHTML := by
  cases h <;> rfl

/-- **C32**: any chain of calls on a streamer from the pool has the effect it has on a new one. -/
theorem C32_streamer_calls {s : Streamer} (h : PooledStreamer s) (html : Bool) (cs : List Call) :
    (borrowStreamer s html).calls cs = (borrowStreamer pooledNew html).calls cs := by
  rw [C32_streamer h]

/-- **C32**: an encoder on a streamer from the pool is as good as one on a new streamer. -/
theorem C32_encoder {s : Streamer} (h : PooledStreamer s) (html : Bool) (w : Writer) (value : Streamer → Streamer) :
    Encoder.encode ⟨(borrowStreamer s html).resetWriter (some w), none⟩ value =
      Encoder.encode ⟨(borrowStreamer pooledNew html).resetWriter (some w), none⟩ value := by
  rw [C32_streamer h]

/-- **C32**: `Marshal` gives the same text or the same error whichever streamer it gets from the pool. -/
theorem C32_marshal {F : Type} (Γ : TyEnv F) (E : EncEnv F) {s s' : Streamer} (h : PooledStreamer s) (h' : PooledStreamer s') (n : Nat)
    (T : Ty) (v : Val F) : Marshal Γ E s n T v = Marshal Γ E s' n T v := by
  cases h <;> cases h' <;> rfl

/-- A streamer returned after a failed use with HTML escaping on. -/
example : PooledStreamer (Streamer.reset ⟨none, bs! "[1,", some .panic, true, true⟩) ∧
    (borrowStreamer (Streamer.reset ⟨none, bs! "[1,", some .panic, true, true⟩) false).calls [.string (bs! "<")] =
      ⟨none, bs! "\"<\"", none, true, false⟩ := ⟨.returned _, rfl⟩

/-! ## Iterators with their storage -/

/-- **C32**: at any time of the life of an iterator `head ≤ tail ≤ len(buffer)`, and the storage kept for readers has not
shrunk. -/
theorem C32_window {it : PhysIt} (h : PhysIt.Life it) : it.head ≤ it.tail ∧ it.tail ≤ it.store.length ∧ 64 ≤ it.fixcap :=
  ⟨h.facts.1.head, h.facts.1.tail, h.facts.2⟩

theorem reader_ok (it : PhysIt) (u d : Bool) (stale : List Byte) (f : Feed) : ((it.borrow u d).resetReader stale f).Ok :=
  ⟨Nat.le_refl _, Nat.zero_le _⟩

theorem bytes_ok (it : PhysIt) (u d : Bool) (data : List Byte) : ((it.borrow u d).resetBytes data).Ok :=
  ⟨Nat.zero_le _, Nat.le_refl _⟩

theorem alike_after {α : Type} {p : Prog α} {a a' b b' : PhysIt} {r s : Except Err α} (ha : PhysIt.Run p a r a')
    (hb : PhysIt.Run p b s b') (oa : a.Ok) (ob : b.Ok) (h : Alike a b) : r = s ∧ ∀ x, r = .ok x → Alike a' b' := by
  obtain ⟨h1, h2⟩ := ha.same hb oa ob h.unread h.fin h.position
  refine ⟨h1, fun x hx => ?_⟩
  obtain ⟨h3, h4, h5⟩ := h2 x hx
  have ka := ha.kept
  have kb := hb.kept
  exact ⟨h3, h5, h4, by rw [ka.last, kb.last, h.last], by rw [ka.context, kb.context, h.context],
    by rw [ka.useNumber, kb.useNumber, h.useNumber], by rw [ka.disallow, kb.disallow, h.disallow],
    by rw [ha.capture, hb.capture, h.capture]⟩

/-- **C32**: an iterator from the pool, in whatever state it was left, that is set on a reader does what a new iterator does:
every run of every program ends with the same result, and then the two are again alike.  The stale bytes in its storage, the
size of the storage and the way the reader cuts its bytes make no difference. -/
theorem C32_reader {α : Type} {p : Prog α} {it it' fresh' : PhysIt} {u d : Bool} {stale : List Byte} {f : Feed} {r s : Except Err α}
    (h : PhysIt.Run p ((it.borrow u d).resetReader stale f) r it') (hf : PhysIt.Run p (freshReader u d f) s fresh') :
    r = s ∧ ∀ x, r = .ok x → Alike it' fresh' :=
  alike_after h hf (reader_ok _ _ _ _ _) (reader_ok _ _ _ _ _) ⟨rfl, rfl, rfl, rfl, rfl, rfl, rfl, rfl⟩

/-- **C32**: the same for an iterator that is set on bytes; moreover the bytes are not written to. -/
theorem C32_bytes {α : Type} {p : Prog α} {it it' fresh' : PhysIt} {u d : Bool} {data : List Byte} {r s : Except Err α}
    (h : PhysIt.Run p ((it.borrow u d).resetBytes data) r it') (hf : PhysIt.Run p (freshBytes u d data) s fresh') :
    r = s ∧ (∀ x, r = .ok x → Alike it' fresh') ∧ it'.store = data := by
  obtain ⟨h1, h2⟩ := alike_after h hf (bytes_ok _ _ _ _) (bytes_ok _ _ _ _) ⟨rfl, rfl, rfl, rfl, rfl, rfl, rfl, rfl⟩
  exact ⟨h1, h2, (h.kept.bytes rfl).2.1⟩

/-- **C32**: an iterator that was returned to the pool and is taken out again is, even without `Reset`, like a new one. -/
theorem C32_released (it : PhysIt) (u d : Bool) : Alike (it.release.borrow u d) (PhysIt.new.borrow u d) :=
  ⟨rfl, rfl, rfl, rfl, rfl, rfl, rfl, rfl⟩

/-- **C32**: such runs exist: `Read` is never handed an empty slice while there are bytes to come, so a reader that does
deliver its bytes gets every program to its end. -/
theorem C32_reader_runs {α : Type} (p : Prog α) {it : PhysIt} (u d : Bool) {stale : List Byte} (f : Feed) (life : PhysIt.Life it)
    (size : stale.length = it.fixcap) : ∃ r it', PhysIt.Run p ((it.borrow u d).resetReader stale f) r it' := by
  have h64 := life.facts.2
  obtain ⟨r, it', h, _⟩ := PhysIt.run_exists p ((it.borrow u d).resetReader stale f) (reader_ok _ _ _ _ _)
    (.inl (by intro h; have : stale = [] := h; subst this; simp at size; omega))
  exact ⟨r, it', h⟩

theorem C32_bytes_runs {α : Type} (p : Prog α) (it : PhysIt) (u d : Bool) (data : List Byte) :
    ∃ r it', PhysIt.Run p ((it.borrow u d).resetBytes data) r it' := by
  obtain ⟨r, it', h, _⟩ := PhysIt.run_exists p ((it.borrow u d).resetBytes data) (bytes_ok _ _ _ _) (.inr (.inl rfl))
  exact ⟨r, it', h⟩

/-- **C32**: the iterator without storage, on which the other statements are proved, gives the result of the iterator with
storage, whatever the chunks. -/
theorem C32_model_reader {α : Type} {p : Prog α} {it it' : PhysIt} {u d : Bool} {stale l : List Byte} {e : Err} {r : Except Err α}
    (h : PhysIt.Run p ((it.borrow u d).resetReader stale (.more l e)) r it') (m : It) {script : List RdRes}
    (hs : Delivers script l e) : (p.runM (m.resetReader script)).1 = r :=
  h.model (reader_ok _ _ _ _ _) (unread_reader m hs) rfl

theorem C32_model_bytes {α : Type} {p : Prog α} {it it' : PhysIt} {u d : Bool} {data : List Byte} {r : Except Err α}
    (h : PhysIt.Run p ((it.borrow u d).resetBytes data) r it') (m : It) :
    (p.runM (m.resetBytes data)).1 = r := by
  refine h.model (bytes_ok _ _ _ _) ?_ rfl
  have e : ((it.borrow u d).resetBytes data).unread = data := by
    simp [PhysIt.unread, PhysIt.resetBytes, PhysIt.clear, Feed.left]
  rw [e]
  exact unread_bytes m data

/-- **C32**: a call of `UnmarshalFromReader` on a recycled iterator with its storage returns what the model of the call says. -/
theorem C32_unmarshal_storage {F : Type} (Γ : TyEnv F) (cfg : DecCfg F) (pools pools' : Pools) {it it' : PhysIt}
    {stale l : List Byte} {e : Err} {t : Ty} {old : Val F} {r : Except Err (Val F)}
    (h : PhysIt.Run (unmarshalProg Γ cfg pools t old)
      ((it.borrow cfg.useNumber cfg.disallowUnknownFields).resetReader stale (.more l e)) r it')
    (m : It) {script : List RdRes} (hs : Delivers script l e) : UnmarshalFromReader Γ cfg pools' m script t old = r := by
  unfold UnmarshalFromReader
  rw [unmarshalProg_pool Γ cfg pools' pools]
  exact C32_model_reader h m hs

/-- A life: a failed use on a reader, with the context set and the checkpoint taken, then the return to the pool; the next
user of the iterator finds its storage full of other bytes. -/
example : ∃ it, PhysIt.Life it ∧ ∃ r it', PhysIt.Run (Skip ⟨[0xFF], 1⟩)
    ((it.borrow true false).resetReader (List.replicate it.fixcap 0x5A) (.more (bs! "[1, 2]") .eof)) r it' ∧ r = .ok () := by
  obtain ⟨r1, it1, h1⟩ := C32_reader_runs (SkipRaw ⟨[], 0⟩) true true (stale := List.replicate 64 0) (.more (bs! "[x") .eof) .new rfl
  have l1 := PhysIt.Life.release _ (.efaceCheck _ (some (4, 2)) (.setContext _ (some 3)
    (.run _ _ it1 r1 (.resetReader _ (List.replicate 64 0) (.more (bs! "[x") .eof) (.borrow _ true true .new) rfl) h1)))
  obtain ⟨r, it', h⟩ := C32_reader_runs (Skip ⟨[0xFF], 1⟩) true false (stale := List.replicate it1.fixcap 0x5A)
    (.more (bs! "[1, 2]") .eof) l1 List.length_replicate
  refine ⟨_, l1, r, it', h, ?_⟩
  rw [← C32_model_reader h sampleIt (.last (bs! "[1, 2]") [] (by simp))]
  rfl

end Jzon.Props
