import Verif.Proof.Cache

/-!
# C31: the coder caches under concurrency
-/

namespace Jzon.Props

open Jzon Spec

variable {tt : DecTypes} {s s' : CacheState Coder (List DecObj) DecLoc}

/-! ## The decoder cache -/

/-- C31 (complete): whatever the goroutines do and in whichever order, every goroutine that asks for the decoder of a type is handed
one, not nil, in which no link is missing however far links are followed, and which has at each place the decoder that the type of
that place should have.  It is so when the decoder is handed out and remains so in all later states. -/
theorem C31_complete (hself : NativeSelf tt) (hr : CacheRun (decBuilder tt) (decInit tt) s) {i : Nat} {t : TypeId}
    {c : Option Coder} (hl : (i, t, c) ∈ s.log) (hr' : CacheRun (decBuilder tt) s s') :
    ∃ d, c = some d ∧ ∀ n, Complete tt s'.glob n t d := by
  have h := (cacheInv_run (decInit_inv hself) hr).1
  obtain ⟨d, h1, h2⟩ := h.log _ hl
  obtain ⟨h', h3, _⟩ := cacheInv_run h hr'
  exact ⟨d, h1, fun n => complete_of_pub (decPub_of_inv h') n t d (h3 _ _ h2)⟩

/-- C31 (unique): all goroutines are handed the same decoder for the same type, at any times. -/
theorem C31_unique (hself : NativeSelf tt) (hr : CacheRun (decBuilder tt) (decInit tt) s) {i j : Nat} {t : TypeId}
    {c d : Option Coder} (h1 : (i, t, c) ∈ s.log) (h2 : (j, t, d) ∈ s.log) : c = d := by
  have h := (cacheInv_run (decInit_inv hself) hr).1
  obtain ⟨c', h3, h4⟩ := h.log _ h1
  obtain ⟨d', h5, h6⟩ := h.log _ h2
  rw [h4] at h6
  cases h6
  exact h3.trans h5.symm

/-- C31 (stable): an entry of the published cache never changes and never disappears; and what was handed out stays handed out. -/
theorem C31_stable (hself : NativeSelf tt) (hr : CacheRun (decBuilder tt) (decInit tt) s) (hr' : CacheRun (decBuilder tt) s s') :
    (∀ t c, s.pub t = some c → s'.pub t = some c) ∧ ∀ x ∈ s.log, x ∈ s'.log := by
  obtain ⟨_, h2, new, h3⟩ := cacheInv_run (cacheInv_run (decInit_inv hself) hr).1 hr'
  exact ⟨h2, fun x hx => by rw [h3]; exact List.mem_append.mpr (.inr hx)⟩

/-- C31 (frozen): no step of any goroutine writes to an object that can be reached, through links, from a decoder in the published
cache or from a decoder that was handed out.  So the goroutines that use decoders do not race with the one that constructs. -/
theorem C31_frozen (hself : NativeSelf tt) (hr : CacheRun (decBuilder tt) (decInit tt) s) {j : Nat} (hs : CacheStep (decBuilder tt) j s s')
    {t : TypeId} {c : Coder} (hc : s.pub t = some c ∨ ∃ i, (i, t, some c) ∈ s.log) {b : Nat} (hb : LinksTo s.glob c b) :
    s'.glob[b]? = s.glob[b]? := by
  have h := (cacheInv_run (decInit_inv hself) hr).1
  have hc : s.pub t = some c := by
    rcases hc with hc | ⟨i, hi⟩
    · exact hc
    · obtain ⟨d, h1, h2⟩ := h.log _ hi
      cases h1
      exact h2
  obtain ⟨u, hu⟩ := reaches_pub (decPub_of_inv h) hb hc
  cases hs with
  | build t l l' g' hp hb =>
    have hl : s.lock = some j := lock_of_inside h (by rw [hp]; exact id)
    have hb' := h.held j hl
    rw [hp] at hb'
    exact decStep_frozen hb' hb hu
  | _ => rfl

/-- C31 (mutual exclusion): at most one goroutine constructs, and it is the one that holds the lock. -/
theorem C31_exclusive (hself : NativeSelf tt) (hr : CacheRun (decBuilder tt) (decInit tt) s) {i j : Nat} {t u : TypeId} {l k : DecLoc}
    (hi : s.phase i = .building t l) (hj : s.phase j = .building u k) : i = j := by
  have h := (cacheInv_run (decInit_inv hself) hr).1
  have h1 := lock_of_inside h (i := i) (by rw [hi]; exact id)
  have h2 := lock_of_inside h (i := j) (by rw [hj]; exact id)
  rw [h1] at h2
  cases h2
  rfl

/-- C31 (the construction ends): with finitely many types within reach, no construction goes on forever. -/
theorem C31_ends {S : List TypeId} (hS : ClosedTypes tt S) {t : TypeId} (ht : t ∈ S) (pub : CoderMap Coder)
    (g : Nat → List DecObj) (l : Nat → DecLoc) (h0 : l 0 = (decBuilder tt).start pub t) :
    ¬∀ n, (decBuilder tt).step (g n) (l n) (g (n + 1)) (l (n + 1)) := by
  intro h
  have : ∀ n, (∀ u ∈ (l n).queue, u ∈ S) ∧ decMeasure tt S (l n) + n ≤ decMeasure tt S (l 0) := by
    intro n
    induction n with
    | zero => rw [h0]; exact ⟨by simpa [decBuilder] using ht, by omega⟩
    | succ n ih =>
      obtain ⟨h1, h2⟩ := decStep_measure hS ih.1 (h n)
      exact ⟨h2, by have := ih.2; omega⟩
  have := (this (decMeasure tt S (l 0) + 1)).2
  omega

/-- C31 (no deadlock): if each type leads to finitely many types, then at any time a goroutine that waits for the decoder of a type
can still be handed one, and the lock is then free. -/
theorem C31_served (hself : NativeSelf tt) (hfin : ∀ t, ∃ S, t ∈ S ∧ ClosedTypes tt S)
    (hr : CacheRun (decBuilder tt) (decInit tt) s) {i : Nat} {t : TypeId} (hi : s.phase i = .wait t) :
    ∃ s' d, CacheRun (decBuilder tt) s s' ∧ (i, t, some d) ∈ s'.log ∧ s'.lock = none :=
  cache_served (dec_ends hself hfin) (cacheInv_run (decInit_inv hself) hr).1 hi

/-! ### A concrete case -/

/-- Type 0 is the pointer to a struct with two fields, a number (type 1, of native type 2) and a pointer to the struct itself (type
3, which leads to 0); type 4 has a custom decoder. -/
def nodeTypes : DecTypes where
  shape
    | 0 => .node [1, 3]
    | 1 => .native 2 7
    | 2 => .native 2 7
    | 3 => .node [0]
    | _ => .prim 9
  custom
    | 4 => some 5
    | _ => none

example : NativeSelf nodeTypes := by
  intro t k p h
  match t, h with
  | 0, h | 3, h => simp [nodeTypes] at h
  | 1, h | 2, h => simp only [nodeTypes, DecShape.native.injEq] at h; obtain ⟨rfl, rfl⟩ := h; rfl
  | n + 4, h => simp [nodeTypes] at h

example : ClosedTypes nodeTypes [0, 1, 2, 3] := by
  intro t ht kids hk k hkk
  simp only [List.mem_cons, List.not_mem_nil, or_false] at ht
  rcases ht with rfl | rfl | rfl | rfl <;> simp [nodeTypes] at hk <;> subst hk <;> simp at hkk ⊢ <;> grind

/-- Two goroutines ask for the decoder of the struct; the first one constructs, the second one waits and finds it.  The decoder
has a link to itself by way of the pointer. -/
example : ∃ s, CacheRun (decBuilder nodeTypes) (decInit nodeTypes) s ∧ s.log = [(2, 0, some (.obj 0)), (1, 0, some (.obj 0))] ∧
    s.glob = [⟨0, some [some (.prim 7), some (.obj 1)]⟩, ⟨3, some [some (.obj 0)]⟩] := by
  have r := CacheRun.refl (B := decBuilder nodeTypes) (decInit nodeTypes)
  have r := r.tail 1 (.miss 0 rfl rfl)
  have r := r.tail 2 (.miss 0 rfl rfl)
  have r := r.tail 1 (.acquire 0 rfl rfl)
  have r := r.tail 1 (.begin 0 rfl rfl)
  have r := r.tail 1 (.build 0 _ _ _ rfl (.node 0 [] [1, 3] rfl rfl rfl))
  have r := r.tail 1 (.build 0 _ _ _ rfl (.node 3 [1] [0] rfl rfl rfl))
  have r := r.tail 1 (.build 0 _ _ _ rfl (.visited 0 [1] (.obj 0) rfl rfl))
  have r := r.tail 1 (.build 0 _ _ _ rfl (.native 1 [] 2 7 rfl rfl rfl rfl))
  have r := r.tail 1 (.build 0 _ _ _ rfl (.rebuild 0 0 [1, 3] rfl (by decide) rfl))
  have r := r.tail 1 (.build 0 _ _ _ rfl (.rebuild 3 1 [0] rfl (by decide) rfl))
  have r := r.tail 1 (.publish 0 _ _ rfl rfl)
  have r := r.tail 1 (.release 0 _ rfl)
  have r := r.tail 2 (.acquire 0 rfl rfl)
  have r := r.tail 2 (.found 0 (.obj 0) rfl rfl)
  have r := r.tail 2 (.release 0 _ rfl)
  exact ⟨_, r, rfl, rfl⟩

end Jzon.Props
