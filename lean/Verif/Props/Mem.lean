import Verif.Proof.Mem
import Verif.Spec.Mem
import Verif.Props.Pool

/-!
# C46: nobody writes to the memory of others

For any number of goroutines, iterators and streamers, in use or in their pools, and any interleaving of their steps: an array has
one owner, only its owner writes to it, and what the library hands out stays as it is for as long as documented.
-/

set_option linter.unusedSimpArgs false

namespace Jzon.Props
open Jzon Spec

/-- Invariant of all programs. -/
structure WorldInv (w : World) : Prop where
  zero : 0 < w.mem.next
  iters : ∀ i it, w.iters i = some it → it.Ok w.mem
  streams : ∀ i s, w.streams i = some s → s.Ok w.mem
  used : ∀ o a, Owns w o a → 0 < a ∧ a < w.mem.next
  alone : ∀ o o' a, Owns w o a → Owns w o' a → o = o'

theorem start_inv (n : Nat) (arr : Nat → List Byte) : WorldInv (World.start n arr) := by
  refine ⟨Nat.succ_pos _, fun i it h => by simp [World.start] at h, fun i s h => by simp [World.start] at h, ?_, ?_⟩
  · intro o a h
    cases o with
    | program =>
      have h : 0 < a ∧ a ≤ n := h
      exact ⟨h.1, by show a < n + 1; omega⟩
    | iter i => obtain ⟨it, h, _⟩ := h; simp [World.start] at h
    | stream i => obtain ⟨it, h, _⟩ := h; simp [World.start] at h
  · intro o o' a h h'
    cases o <;> cases o'
    all_goals first
      | rfl
      | (obtain ⟨_, h, _⟩ := h; simp [World.start] at h)
      | (obtain ⟨_, h, _⟩ := h'; simp [World.start] at h)

/-- One owner may get new arrays, the others keep what they have. -/
theorem owners_step {w w' : World} (hi : WorldInv w) (o : Owner) (hn : w.mem.next ≤ w'.mem.next)
    (other : ∀ o' a, o' ≠ o → Owns w' o' a → Owns w o' a)
    (own : ∀ a, Owns w' o a → Owns w o a ∨ w.mem.next ≤ a ∧ a < w'.mem.next) :
    (∀ o a, Owns w' o a → 0 < a ∧ a < w'.mem.next) ∧ ∀ o o' a, Owns w' o a → Owns w' o' a → o = o' := by
  have hz := hi.zero
  refine ⟨fun p a h => ?_, fun p q a h h' => ?_⟩
  · by_cases hp : p = o
    · subst hp
      rcases own a h with h | h
      · have := hi.used _ _ h
        omega
      · omega
    · have := hi.used _ _ (other p a hp h)
      omega
  · by_cases hp : p = o
    · by_cases hq : q = o
      · rw [hp, hq]
      · subst hp
        have h2 := other q a hq h'
        rcases own a h with h1 | h1
        · exact hi.alone _ _ _ h1 h2
        · have := hi.used _ _ h2
          omega
    · by_cases hq : q = o
      · subst hq
        have h2 := other p a hp h
        rcases own a h' with h1 | h1
        · exact hi.alone _ _ _ h2 h1
        · have := hi.used _ _ h2
          omega
      · exact hi.alone _ _ _ (other p a hp h) (other q a hq h')

theorem setAt_same {α : Type} (f : Nat → Option α) (i : Nat) (a : α) : setAt f i a i = some a := by simp [setAt]

theorem setAt_other {α : Type} {f : Nat → Option α} {i j : Nat} {a : α} (h : j ≠ i) : setAt f i a j = f j := by simp [setAt, h]

theorem stream_spec {m m' : Heap} {s s' : Slice} (h : StreamStep m s m' s') (hs : s.Ok m) :
    s'.Ok m' ∧ m.Ext m' ∧ (∀ a, a < m.next → a ≠ s.arr → m'.arr a = m.arr a) ∧
      (s'.arr = s.arr ∨ m.next ≤ s'.arr ∧ s'.arr < m'.next) := by
  cases h with
  | append xs _ _ ha =>
    have h := append_spec hs ha
    refine ⟨h.ok, h.ext, h.other, ?_⟩
    rcases h.arr with ⟨h1, _⟩ | ⟨h1, h2⟩
    · exact .inl h1
    · exact .inr (by omega)
  | reset => exact ⟨upto_ok hs (Nat.zero_le _), .refl _, fun _ _ _ => rfl, .inl rfl⟩
  | keep n hn =>
    have h1 := hs.len
    have h2 := hs.fits
    have he : m.Ext (m.write s.arr s.off ((s.bytes m).drop n)) :=
      write_ext (by rw [List.length_drop, bytes_length hs]; omega)
    exact ⟨(upto_ok hs (by omega)).ext he, he, fun a _ hne => write_other hne, .inl rfl⟩

/-- What a step does to memory. -/
structure Touches (w : World) (l : Who) (w' : World) : Prop where
  inv : WorldInv w'
  ext : w.mem.Ext w'.mem
  other : ∀ a, a < w.mem.next → (∀ o, actor l = some o → ¬ Owns w o a) → w'.mem.arr a = w.mem.arr a
  target : ∀ a, l = .program a → ∀ b, b ≠ a → w'.mem.arr b = w.mem.arr b
  owners : ∀ o a, Owns w' o a → Owns w o a ∨ w.mem.next ≤ a
  user : ∀ a, w.user a → w'.user a

theorem iters_ext {w : World} (hi : WorldInv w) {m' : Heap} (he : w.mem.Ext m') :
    ∀ i it, w.iters i = some it → it.Ok m' := fun i it h => (hi.iters i it h).ext he

theorem step_touches {w w' : World} {l : Who} (hi : WorldInv w) (h : World.Step w l w') : Touches w l w' := by
  cases h with
  | alloc xs =>
    have he := alloc_ext w.mem xs
    have ho := owners_step (w := w) (w' := { w with mem := w.mem.alloc xs, user := fun a => w.user a ∨ a = w.mem.next }) hi .program he.next
      (fun o' a hne h => by cases o' with
        | program => exact absurd rfl hne
        | iter i => exact h
        | stream i => exact h)
      (fun a h => by
        have h : w.user a ∨ a = w.mem.next := h
        rcases h with h | h
        · exact .inl h
        · exact .inr ⟨by omega, by show a < w.mem.next + 1; omega⟩)
    refine ⟨⟨Nat.succ_pos _, iters_ext hi he, fun i s h => (hi.streams i s h).ext he, ho.1, ho.2⟩, he,
      fun a ha _ => alloc_old ha, fun a h => by simp at h, ?_, fun a h => .inl h⟩
    intro o a h
    cases o with
    | program =>
      have h : w.user a ∨ a = w.mem.next := h
      rcases h with h | h
      · exact .inl h
      · exact .inr (by omega)
    | iter i => exact .inl h
    | stream i => exact .inl h
  | write a off xs hu hl =>
    have he : w.mem.Ext (w.mem.write a off xs) := write_ext hl
    refine ⟨⟨hi.zero, iters_ext hi he, fun i s h => (hi.streams i s h).ext he, hi.used, hi.alone⟩, he, ?_, ?_,
      fun o a h => .inl h, fun a h => h⟩
    · intro b _ hb
      exact write_other (fun h => hb .program rfl (by subst h; exact hu))
    · intro b hb c hc
      obtain rfl : a = b := by simpa using hb
      exact write_other hc
  | newIter i hn =>
    have he1 := alloc_ext w.mem (List.replicate 64 0)
    have he2 := alloc_ext (w.mem.alloc (List.replicate 64 0)) (List.replicate 64 0)
    have he : w.mem.Ext (MemIt.newMem w.mem) := he1.trans he2
    have hnext : (MemIt.newMem w.mem).next = w.mem.next + 2 := rfl
    have hok : (MemIt.new w.mem).Ok (MemIt.newMem w.mem) := by
      have h1 : ((MemIt.newMem w.mem).arr w.mem.next).length = 64 := by
        rw [MemIt.newMem, alloc_old (by show w.mem.next < w.mem.next + 1; omega), alloc_new]
        simp
      have h2 : ((MemIt.newMem w.mem).arr (w.mem.next + 1)).length = 64 := by
        have := alloc_new (w.mem.alloc (List.replicate 64 0)) (List.replicate 64 0)
        rw [MemIt.newMem]
        rw [alloc_next] at this
        rw [this]
        simp
      refine ⟨⟨by rw [hnext]; show 0 < _; omega, Nat.le_refl _, Nat.zero_le _⟩, ⟨by rw [hnext]; show w.mem.next < _; omega, Nat.le_refl _, ?_⟩,
        ⟨by rw [hnext]; show w.mem.next + 1 < _; omega, Nat.le_refl _, ?_⟩, Nat.le_refl _, ?_, fun h => absurd rfl h⟩
      · show 0 + 64 ≤ ((MemIt.newMem w.mem).arr w.mem.next).length
        omega
      · show 0 + 64 ≤ ((MemIt.newMem w.mem).arr (w.mem.next + 1)).length
        omega
      · show w.mem.next ≠ w.mem.next + 1
        omega
    have hown : ∀ o a, Owns { w with mem := MemIt.newMem w.mem, iters := setAt w.iters i (MemIt.new w.mem) } o a →
        Owns w o a ∨ o = .iter i ∧ w.mem.next ≤ a ∧ a < w.mem.next + 2 := by
      intro o a h
      cases o with
      | program => exact .inl h
      | stream j => exact .inl h
      | iter j =>
        obtain ⟨it, h1, h2⟩ := h
        have h1 : setAt w.iters i (MemIt.new w.mem) j = some it := h1
        by_cases hj : j = i
        · subst hj
          rw [setAt_same] at h1
          cases h1
          refine .inr ⟨rfl, ?_⟩
          rcases h2 with h2 | h2
          · have h2 : a = w.mem.next := h2
            omega
          · have h2 : a = w.mem.next + 1 := h2
            omega
        · rw [setAt_other hj] at h1
          exact .inl ⟨it, h1, h2⟩
    have ho := owners_step (w := w) (w' := { w with mem := MemIt.newMem w.mem, iters := setAt w.iters i (MemIt.new w.mem) })
      hi (.iter i) he.next (fun o' a hne h => (hown o' a h).elim id (fun x => absurd x.1 hne))
      (fun a h => (hown _ a h).elim .inl (fun x => .inr ⟨x.2.1, x.2.2⟩))
    refine ⟨⟨Nat.lt_of_lt_of_le hi.zero he.next, ?_, fun i s h => (hi.streams i s h).ext he, ho.1, ho.2⟩, he, ?_,
      fun a h => by simp at h, fun o a h => (hown o a h).elim .inl (fun x => .inr x.2.1), fun a h => h⟩
    · intro j it h
      have h : setAt w.iters i (MemIt.new w.mem) j = some it := h
      by_cases hj : j = i
      · subst hj
        rw [setAt_same] at h
        cases h
        exact hok
      · rw [setAt_other hj] at h
        exact (hi.iters j it h).ext he
    · intro a ha _
      show (MemIt.newMem w.mem).arr a = _
      rw [MemIt.newMem, alloc_old (by rw [alloc_next]; omega), alloc_old ha]
  | iter i it it' k m' hit hs =>
    obtain ⟨hok, hf⟩ := MemIt.step_spec hs (hi.iters i it hit) hi.zero
    have hown : ∀ o a, Owns { w with mem := m', iters := setAt w.iters i it' } o a →
        Owns w o a ∨ o = .iter i ∧ w.mem.next ≤ a ∧ a < m'.next := by
      intro o a h
      cases o with
      | program => exact .inl h
      | stream j => exact .inl h
      | iter j =>
        obtain ⟨it1, h1, h2⟩ := h
        have h1 : setAt w.iters i it' j = some it1 := h1
        by_cases hj : j = i
        · subst hj
          rw [setAt_same] at h1
          cases h1
          rcases hf.own a h2 with h3 | h3
          · exact .inl ⟨it, hit, h3⟩
          · refine .inr ⟨rfl, h3, ?_⟩
            rcases h2 with rfl | rfl
            · exact hok.fixbuf.used
            · exact hok.tmp.used
        · rw [setAt_other hj] at h1
          exact .inl ⟨it1, h1, h2⟩
    have ho := owners_step (w := w) (w' := { w with mem := m', iters := setAt w.iters i it' })
      hi (.iter i) hf.ext.next (fun o' a hne h => (hown o' a h).elim id (fun x => absurd x.1 hne))
      (fun a h => (hown _ a h).elim .inl (fun x => .inr ⟨x.2.1, x.2.2⟩))
    refine ⟨⟨Nat.lt_of_lt_of_le hi.zero hf.ext.next, ?_, fun i s h => (hi.streams i s h).ext hf.ext, ho.1, ho.2⟩, hf.ext, ?_,
      fun a h => by simp at h, fun o a h => (hown o a h).elim .inl (fun x => .inr x.2.1), fun a h => h⟩
    · intro j it1 h
      have h : setAt w.iters i it' j = some it1 := h
      by_cases hj : j = i
      · subst hj
        rw [setAt_same] at h
        cases h
        exact hok
      · rw [setAt_other hj] at h
        exact (hi.iters j it1 h).ext hf.ext
    · intro a ha hn
      exact hf.other a ha (fun h => hn (.iter i) rfl ⟨it, hit, h⟩)
  | newStream i hn =>
    have he := alloc_ext w.mem (List.replicate 64 0)
    have hown : ∀ o a, Owns { w with mem := w.mem.alloc (List.replicate 64 0), streams := setAt w.streams i ⟨w.mem.next, 0, 0, 64⟩ } o a →
        Owns w o a ∨ o = .stream i ∧ w.mem.next ≤ a ∧ a < w.mem.next + 1 := by
      intro o a h
      cases o with
      | program => exact .inl h
      | iter j => exact .inl h
      | stream j =>
        obtain ⟨s, h1, h2⟩ := h
        have h1 : setAt w.streams i ⟨w.mem.next, 0, 0, 64⟩ j = some s := h1
        by_cases hj : j = i
        · subst hj
          rw [setAt_same] at h1
          cases h1
          have h2 : a = w.mem.next := h2
          exact .inr ⟨rfl, by omega⟩
        · rw [setAt_other hj] at h1
          exact .inl ⟨s, h1, h2⟩
    have ho := owners_step (w := w) (w' := { w with mem := w.mem.alloc (List.replicate 64 0), streams := setAt w.streams i ⟨w.mem.next, 0, 0, 64⟩ })
      hi (.stream i) he.next (fun o' a hne h => (hown o' a h).elim id (fun x => absurd x.1 hne))
      (fun a h => (hown _ a h).elim .inl (fun x => .inr ⟨x.2.1, x.2.2⟩))
    refine ⟨⟨Nat.succ_pos _, iters_ext hi he, ?_, ho.1, ho.2⟩, he, fun a ha _ => alloc_old ha,
      fun a h => by simp at h, fun o a h => (hown o a h).elim .inl (fun x => .inr x.2.1), fun a h => h⟩
    intro j s h
    have h : setAt w.streams i ⟨w.mem.next, 0, 0, 64⟩ j = some s := h
    by_cases hj : j = i
    · subst hj
      rw [setAt_same] at h
      cases h
      refine ⟨Nat.lt_succ_self _, by simp, ?_⟩
      show 0 + 64 ≤ ((w.mem.alloc (List.replicate 64 0)).arr w.mem.next).length
      rw [alloc_new]
      simp
    · rw [setAt_other hj] at h
      exact (hi.streams j s h).ext he
  | stream i s s' m' hit hs =>
    obtain ⟨hok, he, hf, harr⟩ := stream_spec hs (hi.streams i s hit)
    have hown : ∀ o a, Owns { w with mem := m', streams := setAt w.streams i s' } o a →
        Owns w o a ∨ o = .stream i ∧ w.mem.next ≤ a ∧ a < m'.next := by
      intro o a h
      cases o with
      | program => exact .inl h
      | iter j => exact .inl h
      | stream j =>
        obtain ⟨s1, h1, h2⟩ := h
        have h1 : setAt w.streams i s' j = some s1 := h1
        by_cases hj : j = i
        · subst hj
          rw [setAt_same] at h1
          cases h1
          rcases harr with h3 | h3
          · exact .inl ⟨s, hit, h2.trans h3⟩
          · exact .inr ⟨rfl, h2 ▸ h3⟩
        · rw [setAt_other hj] at h1
          exact .inl ⟨s1, h1, h2⟩
    have ho := owners_step (w := w) (w' := { w with mem := m', streams := setAt w.streams i s' })
      hi (.stream i) he.next (fun o' a hne h => (hown o' a h).elim id (fun x => absurd x.1 hne))
      (fun a h => (hown _ a h).elim .inl (fun x => .inr ⟨x.2.1, x.2.2⟩))
    refine ⟨⟨Nat.lt_of_lt_of_le hi.zero he.next, iters_ext hi he, ?_, ho.1, ho.2⟩, he, ?_,
      fun a h => by simp at h, fun o a h => (hown o a h).elim .inl (fun x => .inr x.2.1), fun a h => h⟩
    · intro j s1 h
      have h : setAt w.streams i s' j = some s1 := h
      by_cases hj : j = i
      · subst hj
        rw [setAt_same] at h
        cases h
        exact hok
      · rw [setAt_other hj] at h
        exact (hi.streams j s1 h).ext he
    · intro a ha hn
      exact hf a ha (fun h => hn (.stream i) rfl ⟨s, hit, h⟩)

theorem steps_inv {w w' : World} {ls : List Who} (h : World.Steps w ls w') (hi : WorldInv w) : WorldInv w' := by
  induction h with
  | nil => exact hi
  | cons w w1 w' l ls hs _ ih => exact ih (step_touches hi hs).inv

theorem reachable_inv {w : World} (h : Reachable w) : WorldInv w := by
  obtain ⟨n, arr, ls, h⟩ := h
  exact steps_inv h (start_inv n arr)

/-- **C46**: an array has one owner: no two iterators or streamers, in use or in a pool, share storage with each other or with an
array of the program. -/
theorem C46_one_owner {w : World} (h : Reachable w) {o o' : Owner} {a : Nat} (h1 : Owns w o a) (h2 : Owns w o' a) : o = o' :=
  (reachable_inv h).alone o o' a h1 h2

/-- **C46**: a step changes the arrays of the part that makes it and no others. -/
theorem C46_only_owner_writes {w w' : World} {l : Who} (h : Reachable w) (hs : World.Step w l w') {a : Nat} (ha : a < w.mem.next)
    (hc : w'.mem.arr a ≠ w.mem.arr a) : ∃ o, actor l = some o ∧ Owns w o a :=
  Classical.byContradiction fun hn =>
    hc ((step_touches (reachable_inv h) hs).other a ha fun o h1 h2 => hn ⟨o, h1, h2⟩)

/-- An array of the program keeps its content as long as the program itself does not write to it. -/
theorem kept_of {w w' : World} {ls : List Who} (h : World.Steps w ls w') (hi : WorldInv w) {a : Nat} (hu : w.user a)
    (hp : Who.program a ∉ ls) : w'.mem.arr a = w.mem.arr a ∧ w'.user a := by
  induction h with
  | nil => exact ⟨rfl, hu⟩
  | cons w w1 w' l ls hs _ ih =>
    have ht := step_touches hi hs
    obtain ⟨h1, h2⟩ := ih ht.inv (ht.user a hu) (fun h => hp (List.mem_cons_of_mem _ h))
    refine ⟨h1.trans ?_, h2⟩
    by_cases hl : ∃ b, l = .program b
    · obtain ⟨b, rfl⟩ := hl
      exact ht.target b rfl a (fun h => hp (by subst h; simp))
    · refine ht.other a (hi.used .program a hu).2 fun o ho hw => ?_
      cases l with
      | program b => exact hl ⟨b, rfl⟩
      | alloc => simp [actor] at ho
      | iter i k =>
        obtain rfl : Owner.iter i = o := by simpa [actor] using ho
        exact Owner.noConfusion (hi.alone _ .program a hw hu)
      | stream i =>
        obtain rfl : Owner.stream i = o := by simpa [actor] using ho
        exact Owner.noConfusion (hi.alone _ .program a hw hu)

/-- **C46**: whatever is done with any number of iterators and streamers, the bytes of an input given to the library, and of a
result that the library has returned as a copy, do not change unless the program itself writes to them. -/
theorem C46_kept {w w' : World} {ls : List Who} (hr : Reachable w) (h : World.Steps w ls w') {a : Nat} (hu : w.user a)
    (hp : Who.program a ∉ ls) : w'.mem.arr a = w.mem.arr a :=
  (kept_of h (reachable_inv hr) hu hp).1

/-- **C46**: a slice that `SkipRaw` (or `Buffer`) has handed out from an input given as bytes lies in that input, so it keeps its
bytes for as long as the program leaves them alone, whatever else is done with the iterator. -/
theorem C46_lent_bytes {w w' : World} {ls : List Who} (hr : Reachable w) (h : World.Steps w ls w') {b e : Nat} {it : MemIt}
    (hin : w.user it.buffer.arr) (hp : Who.program it.buffer.arr ∉ ls) :
    (it.buffer.sub b e).bytes w'.mem = (it.buffer.sub b e).bytes w.mem :=
  bytes_congr (C46_kept hr h hin hp)

/-- A lent slice of an iterator with a reader: it lies in front of `tail` in the storage of the iterator, or in storage that the
iterator has given up. -/
structure Lent (w : World) (i a n : Nat) (old : List Byte) : Prop where
  used : a < w.mem.next
  bytes : (w.mem.arr a).take n = old
  held : (∃ it, w.iters i = some it ∧ it.feed ≠ none ∧ it.fixbuf.arr = a ∧ n ≤ it.fixbuf.off + it.tail) ∨ ∀ o, ¬ Owns w o a

theorem lent_other {w w' : World} {l : Who} {i a n : Nat} {old : List Byte} (hi : WorldInv w) (hs : World.Step w l w')
    (hl : Lent w i a n old) (hne : ∀ k, l ≠ .iter i k) (hit : w'.iters i = w.iters i) : Lent w' i a n old := by
  have ht := step_touches hi hs
  have hfix : w'.mem.arr a = w.mem.arr a := by
    refine ht.other a hl.used fun o ho hw => ?_
    rcases hl.held with ⟨it, h1, h2, h3, h4⟩ | h
    · have := hi.alone o (.iter i) a hw ⟨it, h1, .inl h3.symm⟩
      subst this
      cases l with
      | iter j k =>
        have : j = i := by simpa [actor] using ho
        exact hne k (by rw [this])
      | program b => simp [actor] at ho
      | alloc => simp [actor] at ho
      | stream j => simp [actor] at ho
    · exact h o hw
  refine ⟨Nat.lt_of_lt_of_le hl.used ht.ext.next, by rw [hfix]; exact hl.bytes, ?_⟩
  rcases hl.held with ⟨it, h1, h2⟩ | h
  · exact .inl ⟨it, hit ▸ h1, h2⟩
  · refine .inr fun o hw => ?_
    rcases ht.owners o a hw with h1 | h1
    · exact h o h1
    · exact absurd hl.used (by omega)

theorem lent_step {w w' : World} {l : Who} {i a n : Nat} {old : List Byte} (hi : WorldInv w) (hs : World.Step w l w')
    (hl : Lent w i a n old) (hne : l ≠ .iter i .refill) : Lent w' i a n old := by
  have ht := step_touches hi hs
  cases hs with
  | alloc xs => exact lent_other hi (.alloc xs) hl (by simp) rfl
  | write b off xs h1 h2 => exact lent_other hi (.write b off xs h1 h2) hl (by simp) rfl
  | newStream j h => exact lent_other hi (.newStream j h) hl (by simp) rfl
  | stream j s s' m' h1 h2 => exact lent_other hi (.stream j s s' m' h1 h2) hl (by simp) rfl
  | newIter j h =>
    by_cases hj : i = j
    · subst hj
      refine ⟨Nat.lt_of_lt_of_le hl.used ht.ext.next, ?_, ?_⟩
      · rw [ht.other a hl.used (by simp [actor])]
        exact hl.bytes
      · rcases hl.held with ⟨it, h1, _⟩ | h1
        · rw [h] at h1
          cases h1
        · refine .inr fun o hw => ?_
          rcases ht.owners o a hw with h2 | h2
          · exact h1 o h2
          · exact absurd hl.used (by omega)
    · exact lent_other hi (.newIter j h) hl (by simp) (setAt_other hj)
  | iter j it it' k m' h1 h2 =>
    by_cases hj : i = j
    · subst hj
      have hok := hi.iters i it h1
      have hsp := MemIt.step_spec h2 hok hi.zero
      rcases hl.held with ⟨it0, h3, h4, h5, h6⟩ | h3
      · rw [h1] at h3
        cases h3
        obtain ⟨hb, hoff, hcap⟩ := hok.reader h4
        -- steps that leave the array and the storage as they are
        have quiet : ∀ (it1 : MemIt), setAt w.iters i it' i = some it1 → it1.feed ≠ none → it1.fixbuf = it.fixbuf →
            it.tail ≤ it1.tail → m'.arr a = w.mem.arr a → Lent { w with mem := m', iters := setAt w.iters i it' } i a n old := by
          intro it1 e1 e2 e3 e4 e5
          refine ⟨Nat.lt_of_lt_of_le hl.used ht.ext.next, by show (m'.arr a).take n = old; rw [e5]; exact hl.bytes,
            .inl ⟨it1, e1, e2, by rw [e3]; exact h5, by rw [e3]; omega⟩⟩
        cases h2 with
        | fillPlain r _ _ hc hf => exact absurd rfl hne
        | resetBytes data hd => exact absurd rfl hne
        | resetReader f => exact absurd rfl hne
        | reset => exact absurd rfl hne
        | move p => exact quiet _ (setAt_same _ _ _) h4 rfl (Nat.le_refl _) rfl
        | capture p => exact quiet _ (setAt_same _ _ _) h4 rfl (Nat.le_refl _) rfl
        | fields p q u d => exact quiet _ (setAt_same _ _ _) h4 rfl (Nat.le_refl _) rfl
        | temp k xs _ s hk ha =>
          refine quiet _ (setAt_same _ _ _) h4 rfl (Nat.le_refl _) ?_
          exact (append_spec (upto_ok hok.tmp (Nat.le_trans hk hok.tmp.len)) ha).other a hl.used
            (by rw [← h5]; exact hok.distinct)
        | fillCaptured r _ _ hc hf =>
          cases hf with
          | plain f f' r xs hc' => rw [hc] at hc'; cases hc'
          | captured f f' r _ s _ hfd hr ha =>
            have hs := append_spec (upto_ok hok.buffer (Nat.le_trans hok.tail hok.buffer.len)) ha
            have hba : it.buffer.arr = a := hb.trans h5
            have hbefore : (m'.arr a).take n = old := by
              have h7 := hs.before
              have h7 : (m'.arr it.buffer.arr).take (it.buffer.off + it.tail) = (w.mem.arr it.buffer.arr).take (it.buffer.off + it.tail) := h7
              rw [hba] at h7
              have h8 : n ≤ it.buffer.off + it.tail := by rw [hoff]; exact h6
              rw [← hl.bytes, ← Nat.min_eq_left h8, ← List.take_take, h7, List.take_take]
            rcases hs.arr with ⟨h9, h10, _⟩ | ⟨h9, h10⟩
            · refine ⟨Nat.lt_of_lt_of_le hl.used ht.ext.next, hbefore, .inl ⟨_, setAt_same _ _ _, by simp, ?_, ?_⟩⟩
              · show s.arr = a
                rw [h9]
                exact hba
              · show n ≤ s.off + (it.tail + r.data.length)
                rw [h10]
                show n ≤ it.buffer.off + _
                rw [hoff]
                omega
            · refine ⟨Nat.lt_of_lt_of_le hl.used ht.ext.next, hbefore, .inr fun o hw => ?_⟩
              have hu := hl.used
              rcases ht.owners o a hw with h11 | h11
              · obtain rfl := hi.alone o (.iter i) a h11 ⟨it, h1, .inl h5.symm⟩
                obtain ⟨it1, h12, h13⟩ := hw
                have h12 : setAt w.iters i _ i = some it1 := h12
                rw [setAt_same] at h12
                cases h12
                rcases h13 with h13 | h13
                · have h13 : a = s.arr := h13
                  omega
                · have h13 : a = it.tmp.arr := h13
                  exact hok.distinct (h5.trans h13)
              · omega
      · refine ⟨Nat.lt_of_lt_of_le hl.used ht.ext.next, ?_, .inr fun o hw => ?_⟩
        · show (m'.arr a).take n = old
          rw [show m'.arr a = w.mem.arr a from ht.other a hl.used fun o _ hw => h3 o hw]
          exact hl.bytes
        · rcases ht.owners o a hw with h4 | h4
          · exact h3 o h4
          · exact absurd hl.used (by omega)
    · exact lent_other hi (.iter j it it' k m' h1 h2) hl (by intro k h; simp at h; exact hj h.1.symm) (setAt_other hj)

theorem lent_steps {w w' : World} {ls : List Who} (h : World.Steps w ls w') (hi : WorldInv w) {i a n : Nat} {old : List Byte}
    (hl : Lent w i a n old) (hne : Who.iter i .refill ∉ ls) : Lent w' i a n old := by
  induction h with
  | nil => exact hl
  | cons w w1 w' l ls hs _ ih =>
    exact ih (step_touches hi hs).inv (lent_step hi hs hl (fun h => hne (by subst h; simp)))
      (fun h => hne (List.mem_cons_of_mem _ h))

/-- **C46**: a slice that `SkipRaw` (or `Buffer`) has handed out from an iterator with a reader keeps its bytes until that iterator
reads on without `capture` or is reset: the storage may grow and move in between, tokens of the value being captured may be read,
and anything may be done with other iterators, streamers and arrays. -/
theorem C46_lent_reader {w w' : World} {ls : List Who} (hr : Reachable w) (h : World.Steps w ls w') {i b e : Nat} {it : MemIt}
    (hi : w.iters i = some it) (hf : it.feed ≠ none) (hb : b ≤ e) (he : e ≤ it.tail) (hne : Who.iter i .refill ∉ ls) :
    (it.buffer.sub b e).bytes w'.mem = (it.buffer.sub b e).bytes w.mem := by
  have inv := reachable_inv hr
  have hok := inv.iters i it hi
  obtain ⟨h1, h2, h3⟩ := hok.reader hf
  have hl : Lent w i it.buffer.arr (it.buffer.off + e) ((w.mem.arr it.buffer.arr).take (it.buffer.off + e)) :=
    ⟨hok.buffer.used, rfl, .inl ⟨it, hi, hf, h1.symm, by rw [h2]; omega⟩⟩
  have h4 := (lent_steps h inv hl hne).bytes
  have key : ∀ m : Heap, (it.buffer.sub b e).bytes m = ((m.arr it.buffer.arr).take (it.buffer.off + e)).drop (it.buffer.off + b) := by
    intro m
    simp only [Slice.bytes, Slice.sub, List.drop_take]
    congr 1
    omega
  rw [key, key, h4]

/-- **C46**: the slice that `ReadStringAsSlice` has returned keeps its bytes until that iterator reads another string or float. -/
theorem C46_lent_temp {w w' : World} {ls : List Who} (hr : Reachable w) (h : World.Steps w ls w') {i : Nat} {it : MemIt}
    (hi : w.iters i = some it) (hne : Who.iter i .temp ∉ ls) : it.tmp.bytes w'.mem = it.tmp.bytes w.mem := by
  have inv := reachable_inv hr
  have key : ∀ {w w' : World} {ls : List Who}, World.Steps w ls w' → WorldInv w → Who.iter i .temp ∉ ls → ∀ it, w.iters i = some it →
      w'.mem.arr it.tmp.arr = w.mem.arr it.tmp.arr := by
    intro w w' ls h
    induction h with
    | nil => intros; rfl
    | cons w w1 w' l ls hs _ ih =>
      intro hw hne it hi
      have ht := step_touches hw hs
      have hok := hw.iters i it hi
      have hu := hok.tmp.used
      have hown : Owns w (.iter i) it.tmp.arr := ⟨it, hi, .inr rfl⟩
      have hrest : Who.iter i .temp ∉ ls := fun h => hne (List.mem_cons_of_mem _ h)
      have other : ∀ o', o' ≠ Owner.iter i → ¬ Owns w o' it.tmp.arr := fun o' h h' => h (hw.alone _ _ _ h' hown)
      cases hs with
      | alloc xs => exact (ih ht.inv hrest it hi).trans (ht.other _ hu (by simp [actor]))
      | write b off xs h1 h2 => exact (ih ht.inv hrest it hi).trans (ht.other _ hu (by simp [actor]; exact other _ (by simp)))
      | newStream j h => exact (ih ht.inv hrest it hi).trans (ht.other _ hu (by simp [actor]))
      | stream j s s' m' h1 h2 => exact (ih ht.inv hrest it hi).trans (ht.other _ hu (by simp [actor]; exact other _ (by simp)))
      | newIter j h =>
        have hj : i ≠ j := by rintro rfl; rw [h] at hi; cases hi
        exact (ih ht.inv hrest it ((setAt_other hj).trans hi)).trans (ht.other _ hu (by simp [actor]))
      | iter j it1 it' k m' h1 h2 =>
        by_cases hj : i = j
        · subst hj
          rw [hi] at h1
          cases h1
          have hfill : ∀ r, MemIt.Fill w.mem it r m' it' → it'.tmp = it.tmp ∧ m'.arr it.tmp.arr = w.mem.arr it.tmp.arr := by
            intro r hf
            obtain ⟨h3, h4, _⟩ := MemIt.fill_spec hok hf
            cases hf with
            | captured f f' r _ s hc hfd hr ha =>
              refine ⟨rfl, (append_spec (upto_ok hok.buffer (Nat.le_trans hok.tail hok.buffer.len)) ha).other _ hu ?_⟩
              show it.tmp.arr ≠ it.buffer.arr
              rw [(hok.reader (by rw [hfd]; simp)).1]
              exact hok.distinct.symm
            | plain f f' r xs hc hfd =>
              refine ⟨rfl, write_other ?_⟩
              rw [(hok.reader (by rw [hfd]; simp)).1]
              exact hok.distinct.symm
          have fin : it'.tmp = it.tmp → m'.arr it.tmp.arr = w.mem.arr it.tmp.arr → w'.mem.arr it.tmp.arr = w.mem.arr it.tmp.arr := by
            intro e1 e2
            have := ih ht.inv hrest it' (setAt_same _ _ _)
            rw [e1] at this
            exact this.trans e2
          cases h2 with
          | fillPlain r _ _ hc hf => exact fin (hfill r hf).1 (hfill r hf).2
          | fillCaptured r _ _ hc hf => exact fin (hfill r hf).1 (hfill r hf).2
          | resetBytes data hd => exact fin rfl rfl
          | resetReader f => exact fin rfl rfl
          | reset => exact fin rfl rfl
          | move p => exact fin rfl rfl
          | capture p => exact fin rfl rfl
          | fields p q u d => exact fin rfl rfl
          | temp k xs _ s hk ha => exact absurd (List.mem_cons_self ..) hne
        · refine (ih ht.inv hrest it ((setAt_other hj).trans hi)).trans (ht.other _ hu ?_)
          intro o ho
          obtain rfl : Owner.iter j = o := by simpa [actor] using ho
          exact other _ (fun h => hj (by cases h; rfl))
  exact bytes_congr (key h inv hne it hi)

/-- **C46**: `append(tmpBuffer[:k], xs...)` gives the first `k` bytes and `xs`, wherever they are put; so the slice that a string
reader builds piece by piece holds the pieces. -/
theorem C46_temp_bytes {m m' : Heap} {s s' : Slice} {k : Nat} {xs : List Byte} (hs : s.Ok m) (hk : k ≤ s.len)
    (h : Append m (s.upto k) xs m' s') : s'.bytes m' = (s.bytes m).take k ++ xs := by
  rw [(append_spec (upto_ok hs (Nat.le_trans hk hs.len)) h).bytes, upto_bytes hk]

/-- **C46**: a step of anyone else is one that `MemIt.Run` allows for, provided that the program leaves the input alone. -/
theorem C46_env {w w' : World} {l : Who} (hr : Reachable w) (hs : World.Step w l w') {i : Nat} {it : MemIt} (hi : w.iters i = some it)
    (hl : ∀ k, l ≠ .iter i k) (hin : it.feed ≠ none ∨ it.buffer.arr = 0 ∨ w.user it.buffer.arr ∧ l ≠ .program it.buffer.arr) :
    MemIt.Env w.mem it w'.mem := by
  have inv := reachable_inv hr
  have ht := step_touches inv hs
  have hok := inv.iters i it hi
  have own : ∀ a, it.own a → w'.mem.arr a = w.mem.arr a := by
    intro a ha
    have h1 : Owns w (.iter i) a := ⟨it, hi, ha⟩
    refine ht.other a (inv.used _ _ h1).2 fun o ho hw => ?_
    obtain rfl := inv.alone _ _ _ hw h1
    cases l with
    | iter j k =>
      have : j = i := by simpa [actor] using ho
      exact hl k (by rw [this])
    | program b => simp [actor] at ho
    | alloc => simp [actor] at ho
    | stream j => simp [actor] at ho
  refine ⟨ht.ext.next, ?_, own _ (.inl rfl), own _ (.inr rfl)⟩
  rcases hin with h | h | ⟨h1, h2⟩
  · exact own _ (.inl (hok.reader h).1)
  · refine ht.other _ hok.buffer.used fun o _ hw => ?_
    have := (inv.used _ _ hw).1
    omega
  · by_cases hp : ∃ b, l = .program b
    · obtain ⟨b, rfl⟩ := hp
      exact ht.target b rfl _ (fun h => h2 (by rw [h]))
    · refine ht.other _ hok.buffer.used fun o ho hw => ?_
      obtain rfl := inv.alone _ .program _ hw h1
      cases l with
      | program b => exact hp ⟨b, rfl⟩
      | alloc => simp [actor] at ho
      | iter j k => simp [actor] at ho
      | stream j => simp [actor] at ho

/-- **C46**: on an input of the program, with anything going on elsewhere, a call returns what the model of the call returns on the
bytes of the input. -/
theorem C46_bytes {α : Type} {p : Prog α} {w : World} (hr : Reachable w) {i : Nat} {it it' : MemIt} (hi : w.iters i = some it)
    {data : Slice} (hd : data.Ok w.mem) (hu : w.user data.arr) {m' : Heap} {r : Except Err α}
    (h : MemIt.Run p w.mem (it.resetBytes data) r m' it') (x : It) : (p.runM (x.resetBytes (data.bytes w.mem))).1 = r := by
  have inv := reachable_inv hr
  obtain ⟨hok, _⟩ := MemIt.step_spec (.resetBytes data hd) (inv.iters i it hi) inv.zero
  have hap : (it.resetBytes data).Apart := by
    intro h
    have h : data.arr = it.tmp.arr := h
    exact Owner.noConfusion (inv.alone .program (.iter i) _ hu ⟨it, hi, .inr h⟩)
  obtain ⟨_, _, _, h4⟩ := MemIt.run_spec h hok hap
  have e : (it.resetBytes data).phys w.mem =
      ((it.phys w.mem).borrow it.useNumber it.disallowUnknownFields).resetBytes (data.bytes w.mem) := by
    simp [MemIt.phys, MemIt.resetBytes, MemIt.clear, PhysIt.borrow, PhysIt.resetBytes, PhysIt.clear, bytes_length hd]
  rw [e] at h4
  exact C32_model_bytes h4 x

/-- **C46**: the same for a reader. -/
theorem C46_reader {α : Type} {p : Prog α} {w : World} (hr : Reachable w) {i : Nat} {it it' : MemIt} (hi : w.iters i = some it)
    {l : List Byte} {e : Err} {m' : Heap} {r : Except Err α} (h : MemIt.Run p w.mem (it.resetReader (.more l e)) r m' it') (x : It)
    {script : List RdRes} (hs : Delivers script l e) : (p.runM (x.resetReader script)).1 = r := by
  have inv := reachable_inv hr
  obtain ⟨hok, _⟩ := MemIt.step_spec (.resetReader (.more l e)) (inv.iters i it hi) inv.zero
  have hap : (it.resetReader (.more l e)).Apart := (inv.iters i it hi).distinct
  obtain ⟨_, _, _, h4⟩ := MemIt.run_spec h hok hap
  have e : (it.resetReader (.more l e)).phys w.mem = ((it.phys w.mem).borrow it.useNumber it.disallowUnknownFields).resetReader
      ((it.fixbuf.upto it.fixbuf.cap).bytes w.mem) (.more l e) := by
    simp [MemIt.phys, MemIt.resetReader, MemIt.clear, PhysIt.borrow, PhysIt.resetReader, PhysIt.clear]
  rw [e] at h4
  exact C32_model_reader h4 x hs

/-- **C46**: what a run does in memory is a sequence of the steps above and of steps of the rest of the program. -/
theorem C46_run_steps {α : Type} {p : Prog α} {m m' : Heap} {it it' : MemIt} {r : Except Err α} (h : MemIt.Run p m it r m' it')
    (ho : it.Ok m) (ha : it.Apart) : MemIt.Path m it m' it' := (MemIt.run_spec h ho ha).2.2.1

/-- **C46**: such runs exist, for every program and every input. -/
theorem C46_bytes_runs {α : Type} (p : Prog α) {w : World} (hr : Reachable w) {i : Nat} {it : MemIt} (hi : w.iters i = some it)
    {data : Slice} (hd : data.Ok w.mem) : ∃ r m' it', MemIt.Run p w.mem (it.resetBytes data) r m' it' := by
  have inv := reachable_inv hr
  obtain ⟨hok, _⟩ := MemIt.step_spec (.resetBytes data hd) (inv.iters i it hi) inv.zero
  obtain ⟨r, pit', h, _⟩ := PhysIt.run_exists p ((it.resetBytes data).phys w.mem) (hok.phys (Nat.zero_le _)) (.inr (.inl rfl))
  obtain ⟨m', it', h1, _⟩ := MemIt.run_back h ⟨hok, _, rfl⟩
  exact ⟨r, m', it', h1⟩

/-- A program with two arrays of its own. -/
def memStart : World := World.start 2 fun a => if a = 1 then bs! "[1]" else bs! "zz"

/-- An iterator set on a reader that delivers `[12]x` in pieces, while a part of it is captured. -/
theorem memTrace : ∃ (w : World) (ls : List Who) (w' : World) (it : MemIt), Reachable w ∧ w.iters 0 = some it ∧ it.feed ≠ none ∧ 2 ≤ it.tail ∧
    (it.buffer.sub 0 2).bytes w.mem = bs! "[1" ∧ World.Steps w ls w' ∧ ls = [.iter 0 .quiet, .program 2, .iter 0 .temp] ∧
      w'.mem.arr 2 = bs! "zy" ∧ w'.mem.arr 3 ≠ w.mem.arr 3 ∧ w.user 1 ∧ w.mem.arr 1 = bs! "[1]" := by
  let w1 : World := { memStart with mem := MemIt.newMem memStart.mem, iters := setAt memStart.iters 0 (MemIt.new memStart.mem) }
  have s1 : World.Step memStart .alloc w1 := .newIter 0 rfl
  let it2 := (MemIt.new memStart.mem).resetReader (.more (bs! "[12]x") .eof)
  let w2 : World := { w1 with iters := setAt w1.iters 0 it2 }
  have s2 : World.Step w1 (.iter 0 .refill) w2 := .iter 0 _ it2 .refill _ rfl (.resetReader _)
  let new : List Byte := bs! "[1" ++ List.replicate 62 7
  let it3 : MemIt := { it2 with offset := 0, head := 0, tail := 2, feed := some (.more (bs! "2]x") .eof) }
  let m3 : Heap := w2.mem.write 3 0 new
  let w3 : World := { w2 with mem := m3, iters := setAt w2.iters 0 it3 }
  have s3 : World.Step w2 (.iter 0 .refill) w3 :=
    .iter 0 it2 it3 .refill m3 rfl (.fillPlain ⟨bs! "[1", none⟩ m3 it3 rfl
      (.plain _ _ _ new rfl rfl (.chunk (bs! "[1") (bs! "2]x") .eof 64 (by decide)) rfl rfl))
  let it4 : MemIt := { it3 with capture := true }
  let w4 : World := { w3 with iters := setAt w3.iters 0 it4 }
  have s4 : World.Step w3 (.iter 0 .quiet) w4 := .iter 0 it3 it4 .quiet _ rfl (.capture true)
  let m5 : Heap := m3.write 3 2 (bs! "2]")
  let it5 : MemIt := { it4 with buffer := ⟨3, 0, 4, 64⟩, fixbuf := ⟨3, 0, 4, 64⟩, tail := 4, feed := some (.more (bs! "x") .eof) }
  let w5 : World := { w4 with mem := m5, iters := setAt w4.iters 0 it5 }
  have s5 : World.Step w4 (.iter 0 .quiet) w5 :=
    .iter 0 it4 it5 .quiet m5 rfl (.fillCaptured ⟨bs! "2]", none⟩ m5 it5 rfl
      (.captured _ _ _ _ _ rfl rfl (.chunk (bs! "2]") (bs! "x") .eof 512 (by decide)) (.inPlace (by decide))))
  let w6 : World := { w5 with mem := m5.write 2 1 (bs! "y") }
  have s6 : World.Step w5 (.program 2) w6 := .write 2 1 (bs! "y") ⟨by decide, by decide⟩ (by decide)
  let m7 : Heap := w6.mem.write 4 0 (bs! "12")
  let it7 : MemIt := { it5 with tmp := ⟨4, 0, 2, 64⟩ }
  let w7 : World := { w6 with mem := m7, iters := setAt w6.iters 0 it7 }
  have s7 : World.Step w6 (.iter 0 .temp) w7 :=
    .iter 0 it5 it7 .temp m7 rfl (.temp 0 (bs! "12") m7 ⟨4, 0, 2, 64⟩ (Nat.zero_le _) (.inPlace (by decide)))
  refine ⟨w4, _, w7, it4, ⟨2, _, _, .cons _ _ _ _ _ s1 (.cons _ _ _ _ _ s2 (.cons _ _ _ _ _ s3 (.cons _ _ _ _ _ s4 (.nil _))))⟩,
    rfl, by simp [it4, it3], by decide, by decide, .cons _ _ _ _ _ s5 (.cons _ _ _ _ _ s6 (.cons _ _ _ _ _ s7 (.nil _))), rfl,
    by decide, by decide, ⟨by decide, by decide⟩, by decide⟩

/-- The two bytes lent before are still there, though the array has been written to. -/
example : ∃ (w w' : World) (it : MemIt), Reachable w ∧ w'.mem.arr 3 ≠ w.mem.arr 3 ∧ (it.buffer.sub 0 2).bytes w'.mem = bs! "[1" := by
  obtain ⟨w, ls, w', it, h1, h2, h3, h4, h5, h6, h7, h8, h9, _⟩ := memTrace
  exact ⟨w, w', it, h1, h9, (C46_lent_reader h1 h6 h2 h3 (Nat.zero_le _) h4 (by subst h7; decide)).trans h5⟩

/-- The input in the first array is still there. -/
example : ∃ (w w' : World), Reachable w ∧ w'.mem.arr 2 = bs! "zy" ∧ w'.mem.arr 1 = bs! "[1]" := by
  obtain ⟨w, ls, w', it, h1, h2, h3, h4, h5, h6, h7, h8, h9, h10, h11⟩ := memTrace
  exact ⟨w, w', h1, h8, (C46_kept h1 h6 h10 (by subst h7; decide)).trans h11⟩

/-- A new iterator reads the array of the program. -/
example : ∃ (w : World) (it : MemIt), Reachable w ∧ w.iters 0 = some it ∧ ∃ r m' it',
    MemIt.Run (Skip ⟨[], 0⟩) w.mem (it.resetBytes ⟨1, 0, 3, 3⟩) r m' it' ∧ r = .ok () := by
  let w1 : World := { memStart with mem := MemIt.newMem memStart.mem, iters := setAt memStart.iters 0 (MemIt.new memStart.mem) }
  have s1 : World.Step memStart .alloc w1 := .newIter 0 rfl
  have hr : Reachable w1 := ⟨2, _, _, .cons _ _ _ _ _ s1 (.nil _)⟩
  have hd : Slice.Ok w1.mem ⟨1, 0, 3, 3⟩ := ⟨by decide, by decide, by decide⟩
  obtain ⟨r, m', it', h⟩ := C46_bytes_runs (Skip ⟨[], 0⟩) hr (i := 0) rfl hd
  refine ⟨w1, _, hr, rfl, r, m', it', h, ?_⟩
  rw [← C46_bytes hr (i := 0) rfl hd ⟨by decide, by decide⟩ h sampleIt]
  rfl

end Jzon.Props
