import Verif.Proof.EncCache

/-!
# C31: the encoder cache under concurrency
-/

namespace Jzon.Props

open Jzon Spec

variable {tt : EncTypes} {s s' : CacheState ECoder EncGlob EncLoc}

/-- C31 (complete): whatever the goroutines do and in whichever order, every goroutine that asks for the encoder of a type is handed
one, not nil, in which no link is missing however far links are followed, and which has at each place the encoder that the type of
that place should have.  It is so when the encoder is handed out and remains so in all later states. -/
theorem C31_enc_complete (hok : EncTypesOk tt) (hr : CacheRun (encBuilder tt) (encInit tt) s) {i : Nat} {t : TypeId}
    {c : Option ECoder} (hl : (i, t, c) ∈ s.log) (hr' : CacheRun (encBuilder tt) s s') :
    ∃ d, c = some d ∧ ∀ n, EncodesRoot tt s'.glob.heap n t d := by
  have h := (cacheInv_run (encInit_inv hok) hr).1
  obtain ⟨d, h1, h2⟩ := h.log _ hl
  obtain ⟨h', h3, _⟩ := cacheInv_run h hr'
  exact ⟨d, h1, fun n => encodesRoot_of_pub (encPub_of_inv h') n (h3 _ _ h2)⟩

/-- C31 (unique): all goroutines are handed the same encoder for the same type, at any times. -/
theorem C31_enc_unique (hok : EncTypesOk tt) (hr : CacheRun (encBuilder tt) (encInit tt) s) {i j : Nat} {t : TypeId}
    {c d : Option ECoder} (h1 : (i, t, c) ∈ s.log) (h2 : (j, t, d) ∈ s.log) : c = d := by
  have h := (cacheInv_run (encInit_inv hok) hr).1
  obtain ⟨c', h3, h4⟩ := h.log _ h1
  obtain ⟨d', h5, h6⟩ := h.log _ h2
  rw [h4] at h6
  cases h6
  exact h3.trans h5.symm

/-- C31 (stable): an entry of the published cache never changes and never disappears; and what was handed out stays handed out. -/
theorem C31_enc_stable (hok : EncTypesOk tt) (hr : CacheRun (encBuilder tt) (encInit tt) s) (hr' : CacheRun (encBuilder tt) s s') :
    (∀ t c, s.pub t = some c → s'.pub t = some c) ∧ ∀ x ∈ s.log, x ∈ s'.log := by
  obtain ⟨_, h2, new, h3⟩ := cacheInv_run (cacheInv_run (encInit_inv hok) hr).1 hr'
  exact ⟨h2, fun x hx => by rw [h3]; exact List.mem_append.mpr (.inr hx)⟩

/-- C31 (frozen): no step of any goroutine writes to an object that can be reached, through links, from an encoder in the published
cache or from an encoder that was handed out. -/
theorem C31_enc_frozen (hok : EncTypesOk tt) (hr : CacheRun (encBuilder tt) (encInit tt) s) {j : Nat}
    (hs : CacheStep (encBuilder tt) j s s') {t : TypeId} {c : ECoder} (hc : s.pub t = some c ∨ ∃ i, (i, t, some c) ∈ s.log) {b : Nat}
    (hb : EncLinksTo s.glob.heap c b) : s'.glob.heap[b]? = s.glob.heap[b]? := by
  have h := (cacheInv_run (encInit_inv hok) hr).1
  have hc : s.pub t = some c := by
    rcases hc with hc | ⟨i, hi⟩
    · exact hc
    · obtain ⟨d, h1, h2⟩ := h.log _ hi
      cases h1
      exact h2
  obtain ⟨u, r, hu, hub⟩ := encLinksTo_pub (encPub_of_inv h) hb (pubCoder_root (encPub_of_inv h) hc)
  cases hs with
  | build t l l' g' hp hb =>
    have hl : s.lock = some j := lock_of_inside h (by rw [hp]; exact id)
    have hb' := h.held j hl
    rw [hp] at hb'
    exact encStep_frozen hb' hb hu hub
  | _ => rfl

/-- C31 (mutual exclusion): at most one goroutine constructs; so the internal cache, which is modified in place, is used by one
goroutine at a time. -/
theorem C31_enc_exclusive (hok : EncTypesOk tt) (hr : CacheRun (encBuilder tt) (encInit tt) s) {i j : Nat} {t u : TypeId} {l k : EncLoc}
    (hi : s.phase i = .building t l) (hj : s.phase j = .building u k) : i = j := by
  have h := (cacheInv_run (encInit_inv hok) hr).1
  have h1 := lock_of_inside h (i := i) (by rw [hi]; exact id)
  have h2 := lock_of_inside h (i := j) (by rw [hj]; exact id)
  rw [h1] at h2
  cases h2
  rfl

/-- C31 (the construction ends): with finitely many types within reach, no construction goes on forever. -/
theorem C31_enc_ends {S : List TypeId} (hS : EncClosed tt S) {t : TypeId} (ht : t ∈ S) (pub : CoderMap ECoder)
    (g : Nat → EncGlob) (l : Nat → EncLoc) (h0 : l 0 = (encBuilder tt).start pub t) :
    ¬∀ n, (encBuilder tt).step (g n) (l n) (g (n + 1)) (l (n + 1)) := by
  intro h
  have : ∀ n, (∀ u ∈ (l n).queue, u ∈ S) ∧ encMeasure tt S (g n) (l n) + n ≤ encMeasure tt S (g 0) (l 0) := by
    intro n
    induction n with
    | zero => rw [h0]; exact ⟨by simpa [encBuilder] using ht, by omega⟩
    | succ n ih =>
      obtain ⟨h1, h2⟩ := encStep_measure hS ih.1 (h n)
      exact ⟨h2, by have := ih.2; omega⟩
  have := (this (encMeasure tt S (g 0) (l 0) + 1)).2
  omega

/-- C31 (no deadlock): if each type leads to finitely many types, then at any time a goroutine that waits for the encoder of a type
can still be handed one, and the lock is then free. -/
theorem C31_enc_served (hok : EncTypesOk tt) (hfin : ∀ t, ∃ S, t ∈ S ∧ EncClosed tt S)
    (hr : CacheRun (encBuilder tt) (encInit tt) s) {i : Nat} {t : TypeId} (hi : s.phase i = .wait t) :
    ∃ s' d, CacheRun (encBuilder tt) s s' ∧ (i, t, some d) ∈ s'.log ∧ s'.lock = none :=
  cache_served (enc_ends hok hfin) (cacheInv_run (encInit_inv hok) hr).1 hi

/-! ### A concrete case -/

/-- Type 0 is a struct with two fields, `[]byte` (type 2) and a pointer (type 1) to the struct itself; types 3 and 4 are the pointers
to the types 2 and 1; type 5 is `byte` and type 6 the pointer to it. -/
def byteTypes : EncTypes where
  shape
    | 0 => .node [2, 1] false
    | 1 => .ptr 0
    | 2 => .slice 5 true
    | 3 => .ptr 2
    | 4 => .ptr 1
    | 5 => .native 5 0
    | 6 => .ptr 5
    | _ => .prim 9 true []
  ptrTo
    | 0 => 1
    | 1 => 4
    | 2 => 3
    | 5 => 6
    | n => n + 7
  custom _ := none

example : EncTypesOk byteTypes := by
  constructor
  · intro t k p h
    match t, h with
    | 0, h | 1, h | 2, h | 3, h | 4, h | 6, h => simp [byteTypes] at h
    | 5, h => simp only [byteTypes, EncShape.native.injEq] at h; obtain ⟨rfl, rfl⟩ := h; rfl
    | n + 7, h => simp [byteTypes] at h
  · intro e e' h
    match e, h with
    | 0, h | 1, h | 2, h | 5, h => simp [byteTypes] at h; exact h.symm
    | 3, h | 4, h | 6, h => simp [byteTypes] at h
    | n + 7, h => simp [byteTypes] at h

example : EncClosed byteTypes [0, 1, 2, 3, 4, 5, 6] := by
  intro t ht k hk
  simp only [List.mem_cons, List.not_mem_nil, or_false] at ht
  rcases ht with rfl | rfl | rfl | rfl | rfl | rfl | rfl <;> simp [byteTypes, EncTypes.pushes] at hk <;> simp <;> grind

/-- Two goroutines ask for the encoder of the struct and one of them constructs it: the byte slice is written in base64, and the
struct has a link to itself by way of the pointer. -/
example : ∃ s, CacheRun (encBuilder byteTypes) (encInit byteTypes) s ∧ s.log = [(2, 0, some (.obj 0)), (1, 0, some (.obj 0))] ∧
    s.glob.heap[0]? = some ⟨0, false, [some (.prim base64Coder), some (.obj 2)]⟩ ∧ s.glob.heap[2]? = some ⟨1, true, [some (.obj 0)]⟩ := by
  have r := CacheRun.refl (B := encBuilder byteTypes) (encInit byteTypes)
  have r := r.tail 1 (.miss 0 rfl rfl)
  have r := r.tail 2 (.miss 0 rfl rfl)
  have r := r.tail 1 (.acquire 0 rfl rfl)
  have r := r.tail 1 (.begin 0 rfl rfl)
  have r := r.tail 1 (.build 0 _ _ _ rfl (.linked 0 [] rfl rfl rfl rfl))
  have r := r.tail 1 (.build 0 _ _ _ rfl (.linked 4 [3] rfl rfl rfl rfl))
  have r := r.tail 1 (.build 0 _ _ _ rfl (.linked 1 [3] rfl rfl rfl rfl))
  have r := r.tail 1 (.build 0 _ _ _ rfl (.visited 0 [3] (.obj 0) rfl rfl rfl))
  have r := r.tail 1 (.build 0 _ _ _ rfl (.linked 3 [] rfl rfl rfl rfl))
  have r := r.tail 1 (.build 0 _ _ _ rfl (.linked 2 [] rfl rfl rfl rfl))
  have r := r.tail 1 (.build 0 _ _ _ rfl (.linked 6 [] rfl rfl rfl rfl))
  have r := r.tail 1 (.build 0 _ _ _ rfl (.native 5 [] 5 0 rfl rfl rfl rfl rfl))
  have r := r.tail 1 (.build 0 _ _ _ rfl (.toBase64 rfl rfl))
  have r := r.tail 1 (.build 0 _ _ _ rfl (.base64 2 4 rfl (by decide) ⟨5, rfl, ⟨5, _, rfl, rfl, rfl⟩, rfl⟩))
  have no : ∀ {g : EncGlob} {t : TypeId}, t ≠ 2 → ¬IsBase64 byteTypes g t := by
    rintro g t ht ⟨e, h, _⟩
    match t, ht, h with
    | 0, _, h | 1, _, h | 3, _, h | 4, _, h | 5, _, h | 6, _, h => simp [byteTypes] at h
    | n + 7, _, h => simp [byteTypes] at h
  have r := r.tail 1 (.build 0 _ _ _ rfl (.skipBase64 0 0 rfl (by decide) (no (by decide))))
  have r := r.tail 1 (.build 0 _ _ _ rfl (.skipBase64 6 5 rfl (by decide) (no (by decide))))
  have r := r.tail 1 (.build 0 _ _ _ rfl (.skipBase64 3 3 rfl (by decide) (no (by decide))))
  have r := r.tail 1 (.build 0 _ _ _ rfl (.skipBase64 1 2 rfl (by decide) (no (by decide))))
  have r := r.tail 1 (.build 0 _ _ _ rfl (.skipBase64 4 1 rfl (by decide) (no (by decide))))
  have r := r.tail 1 (.build 0 _ _ _ rfl (.toPtrs rfl (by decide)))
  have r := r.tail 1 (.build 0 _ _ _ rfl (.ptr 3 3 2 rfl (by decide) rfl))
  have r := r.tail 1 (.build 0 _ _ _ rfl (.ptr 1 2 0 rfl (by decide) rfl))
  have r := r.tail 1 (.build 0 _ _ _ rfl (.skipPtr 0 0 rfl (by decide) rfl))
  have r := r.tail 1 (.build 0 _ _ _ rfl (.ptr 4 1 1 rfl (by decide) rfl))
  have r := r.tail 1 (.build 0 _ _ _ rfl (.ptr 6 5 5 rfl (by decide) rfl))
  have r := r.tail 1 (.build 0 _ _ _ rfl (.toOthers rfl (by decide)))
  have r := r.tail 1 (.build 0 _ _ _ rfl (.other 0 0 rfl (by decide)))
  have r := r.tail 1 (.publish 0 _ _ rfl rfl)
  have r := r.tail 1 (.release 0 _ rfl)
  have r := r.tail 2 (.acquire 0 rfl rfl)
  have r := r.tail 2 (.found 0 (.obj 0) rfl rfl)
  have r := r.tail 2 (.release 0 _ rfl)
  exact ⟨_, r, rfl, rfl, rfl⟩

end Jzon.Props
