import Verif.Proof.GcTyped

/-!
# C47: decoding is safe in memory

Decoders work with unsafe pointers.  They read and write only inside of values of the types that they are for, whatever the input and
whatever the target holds (pointers may be shared); and garbage collections at any time do not change what they do -- except that
the slice decoder holds the array that it builds by a `uintptr`, so a garbage collection may take the array away.
-/

set_option linter.unusedSimpArgs false

namespace Jzon.Props
open Jzon Jzon.Gc

/-- A step that is not expected is none: it is an error of the input. -/
theorem expected_of_step {k : HeaderKind} {f : Frame} {e : Event} {h : Store} {r : List Frame × Store} (hs : step k f e h = some r) :
    Expected f e := by
  unfold step at hs
  split at hs
  all_goals first
    | (cases hs; done)
    | (simp [Expected]; done)
    | (split at hs
       · simp_all [Expected, Mem.fault]
       · simp_all [Expected, Mem.fault])

theorem start_inv_gc {S : Layout} {k : HeaderKind} {h : Store} {p : Loc} {t : Typ} {base : List Nat} (ht : Typed S k h) (hp : At S p t) :
    Inv S k ⟨[.dec t p], base, h⟩ := by
  refine ⟨ht, by simpa [FrameOk] using hp, ?_⟩
  intro up f down q e hq
  cases up with
  | nil =>
    simp only [List.nil_append, List.cons.injEq] at e
    rw [← e.1] at hq
    simp [Frame.mapAt] at hq
  | cons u up => simp at e

theorem inv_run {S : Layout} {k : HeaderKind} {s s' : State} {es : List (Option Event)} (hi : Inv S k s) (hr : Run k s es s') :
    ∃ S', S.Sub S' ∧ Inv S' k s' := by
  induction hr generalizing S with
  | nil s => exact ⟨S, .refl, hi⟩
  | cons s s1 s' e es hs _ ih =>
    have : ∃ S1, S.Sub S1 ∧ Inv S1 k s1 := by
      cases hs with
      | go f fs fs' base e h h' hr =>
        obtain ⟨gs, h2, S', hr', hsub, hi'⟩ := inv_step hi (expected_of_step hr)
        rw [hr] at hr'
        cases hr'
        exact ⟨S', hsub, hi'⟩
      | fail =>
        exact ⟨S, .refl, hi.typed, (by intro f hf; cases hf), by intro up f down p e; simp at e⟩
    obtain ⟨S1, h1, hi1⟩ := this
    obtain ⟨S2, h2, hi2⟩ := ih hi1
    exact ⟨S2, fun o s ho => h2 o s (h1 o s ho), hi2⟩

theorem inv_expected {S : Layout} {k : HeaderKind} {s : State} (hi : Inv S k s) {f : Frame} {fs : List Frame} {e : Event}
    (hf : s.frames = f :: fs) (he : Expected f e) : ∃ s', Step k s (some e) s' := by
  obtain ⟨fr, base, h⟩ := s
  cases hf
  obtain ⟨fs', h', S', hs, _, _⟩ := inv_step hi he
  exact ⟨_, .go f fs fs' base e h h' hs⟩

/-- C47, without garbage collections: for a target of the type in well-typed memory, whatever it holds and whatever comes as input,
decoding never reads or writes outside of what is there (it is never stuck while the input is right), and leaves memory well-typed,
with each object being what it was before. -/
theorem C47_in_bounds (S : Layout) (k : HeaderKind) (h : Store) (p : Loc) (t : Typ) (base : List Nat) (es : List (Option Event))
    (s' : State) (ht : Typed S k h) (hp : At S p t) (hr : Run k ⟨[.dec t p], base, h⟩ es s') :
    (∀ f fs e, s'.frames = f :: fs → Expected f e → ∃ s'', Step k s' (some e) s'') ∧
      ∃ S' : Layout, (∀ o s, S o = some s → S' o = some s) ∧ Typed S' k s'.store ∧ At S' p t := by
  obtain ⟨S', hs, hi⟩ := inv_run (start_inv_gc (base := base) ht hp) hr
  exact ⟨fun f fs e hf he => inv_expected hi hf he, S', hs, hi.typed, hp.mono hs⟩

/-- The objects that a well-typed value leads to are there. -/
theorem cells_refs {S : Layout} {t : Typ} {cs : List Cell} (hc : CellsOk S t cs) : ∀ c ∈ cs, ∀ o, c.ref = some o → ∃ s, S o = some s := by
  induction t generalizing cs with
  | leaf =>
    obtain ⟨n, rfl⟩ := hc
    simp [Cell.ref]
  | str =>
    obtain ⟨a, l, rfl, h⟩ := hc
    cases a with
    | none => simp [Cell.ref]
    | some q =>
      simp only [List.mem_cons, List.not_mem_nil, or_false, forall_eq_or_imp, forall_eq, Cell.ref, Option.some.injEq, forall_eq']
      exact ⟨⟨_, h q rfl⟩, by simp⟩
  | ptr t | embed t =>
    obtain ⟨a, rfl, h⟩ := hc
    cases a with
    | none => simp [Cell.ref]
    | some q =>
      simp only [List.mem_cons, List.not_mem_nil, or_false, forall_eq, Cell.ref, Option.some.injEq, forall_eq']
      obtain ⟨T, h, _⟩ := h q rfl
      exact ⟨_, h⟩
  | slice t =>
    obtain ⟨a, l, c, rfl, _, _, h⟩ := hc
    cases a with
    | none => simp [Cell.ref]
    | some q =>
      simp only [List.mem_cons, List.not_mem_nil, or_false, forall_eq_or_imp, forall_eq, Cell.ref, Option.some.injEq, forall_eq']
      obtain ⟨T, h, _⟩ := h q rfl
      exact ⟨⟨_, h⟩, by simp, by simp⟩
  | map t =>
    obtain ⟨a, rfl, h⟩ := hc
    cases a with
    | none => simp [Cell.ref]
    | some q =>
      simp only [List.mem_cons, List.not_mem_nil, or_false, forall_eq, Cell.ref, Option.some.injEq, forall_eq']
      exact ⟨_, h q rfl⟩
  | array n t ih =>
    intro c hm o ho
    obtain ⟨i, hi, rfl⟩ := List.mem_iff_getElem.1 hm
    have hl := hc.1
    by_cases hz : size t = 0
    · rw [hz, Nat.mul_zero] at hl
      omega
    · have hlt : i / size t < n := by
        rw [Nat.div_lt_iff_lt_mul (by omega)]
        omega
      refine ih (hc.2 (i / size t) hlt) _ ?_ o ho
      refine List.mem_iff_getElem?.2 ⟨i % size t, ?_⟩
      rw [List.getElem?_take, if_pos (Nat.mod_lt _ (by omega)), List.getElem?_drop, Nat.mul_comm, Nat.div_add_mod]
      exact List.getElem?_eq_getElem hi
  | pair a b iha ihb =>
    obtain ⟨x, y, rfl, hx, hy⟩ := hc
    intro c hm
    rcases List.mem_append.1 hm with hm | hm
    · exact iha hx c hm
    · exact ihb hy c hm

theorem typed_refs {S : Layout} {k : HeaderKind} {h : Store} (ht : Typed S k h) {o o' : Nat} {s : Shape} (hs : S o = some s)
    (ho : o' ∈ (h.obj o).refs) : ∃ s, S o' = some s := by
  obtain ⟨c, hc, hr⟩ := List.mem_filterMap.1 ho
  obtain ⟨_, hx⟩ := ht o s hs
  cases s with
  | block t =>
    rw [hx.2, List.flatMap_nil, List.append_nil] at hc
    exact cells_refs hx.1 c hc o' hr
  | text =>
    obtain ⟨n, hx⟩ := hx
    rw [hx] at hc
    simp at hc
    subst hc
    cases hr
  | table t =>
    rw [hx.1, List.nil_append] at hc
    obtain ⟨e, he, hc⟩ := List.mem_flatMap.1 hc
    exact cells_refs (hx.2 e he) c hc o' hr
  | header t a n =>
    obtain ⟨l, hx, _, ha⟩ := hx
    rw [hx] at hc
    simp at hc
    rcases hc with rfl | rfl | rfl
    · cases k with
      | uintptr => cases hr
      | pointer => cases hr; exact ⟨_, ha⟩
    · cases hr
    · cases hr

/-- All that the program can get to is there. -/
theorem typed_reach {S : Layout} {k : HeaderKind} {h : Store} (ht : Typed S k h) {roots : List Nat} (hr : ∀ o ∈ roots, ∃ s, S o = some s)
    {o : Nat} (ho : Reach h roots o) : o < h.next := by
  obtain ⟨s, hs⟩ := reach_in (P := fun o => ∃ s, S o = some s) hr (fun o ⟨s, hs⟩ o' ho' => typed_refs ht hs ho') ho
  exact (ht o s hs).1

theorem gc_run {S : Layout} {k : HeaderKind} {h : Store} {p : Loc} {t : Typ} {base : List Nat} {es : List (Option Event)} {s1 : State}
    (hk : k = .pointer ∨ t.noSlice) (ht : Typed S k h) (hp : At S p t) (hb : ∀ o ∈ base, ∃ s, S o = some s)
    (hr : RunGc k ⟨[.dec t p], base, h⟩ es s1) : ∃ s2, Run k ⟨[.dec t p], base, h⟩ es s2 ∧ Same k s1 s2 := by
  refine Same.run (Same.refl (by simpa [Frame.noSlice] using hk) fun o ho => typed_reach ht ?_ ho) hr
  intro o ho
  simp only [State.roots, List.flatMap_cons, List.flatMap_nil, Frame.live, List.append_nil, List.cons_append, List.nil_append, List.mem_cons] at ho
  rcases ho with rfl | ho
  · obtain ⟨T, h, _⟩ := hp
    exact ⟨_, h⟩
  · exact hb o ho

/-- C47 for slice headers with a pointer, as in the definition that the code has in a comment (`/repo/eface.go:37-41`): a run with
garbage collections at any times is like one without: the same calls are left, and all that the program can get to is the same; and it
goes on as long as the input is right. -/
theorem C47_collections (S : Layout) (h : Store) (p : Loc) (t : Typ) (base : List Nat) (es : List (Option Event)) (s1 : State)
    (ht : Typed S .pointer h) (hp : At S p t) (hb : ∀ o ∈ base, ∃ s, S o = some s)
    (hr : RunGc .pointer ⟨[.dec t p], base, h⟩ es s1) :
    (∃ s2, Run .pointer ⟨[.dec t p], base, h⟩ es s2 ∧ s1.frames = s2.frames ∧
        ∀ o, Reach s2.store (s2.roots .pointer) o → s1.store.obj o = s2.store.obj o) ∧
      ∀ f fs e, s1.frames = f :: fs → Expected f e → ∃ s', Step .pointer s1 (some e) s' := by
  obtain ⟨s2, h2, hs⟩ := gc_run (.inl rfl) ht hp hb hr
  refine ⟨⟨s2, h2, hs.frames, fun o ho => hs.visible ho⟩, ?_⟩
  intro f fs e hf he
  obtain ⟨S', _, hi⟩ := inv_run (start_inv_gc (base := base) ht hp) h2
  obtain ⟨s', hs'⟩ := inv_expected hi (hs.frames ▸ hf) he
  obtain ⟨s1', h1, _⟩ := hs.symm.step hs'
  exact ⟨s1', h1⟩

/-- C47 for the headers of the code, as far as it is true: for types without slices.  Missing: types with slices, for which it is
false (`C47_slice_violated`). -/
theorem C47_collections_partial (S : Layout) (h : Store) (p : Loc) (t : Typ) (base : List Nat) (es : List (Option Event)) (s1 : State)
    (ht : Typed S .uintptr h) (hp : At S p t) (hb : ∀ o ∈ base, ∃ s, S o = some s) (hn : t.noSlice)
    (hr : RunGc .uintptr ⟨[.dec t p], base, h⟩ es s1) :
    (∃ s2, Run .uintptr ⟨[.dec t p], base, h⟩ es s2 ∧ s1.frames = s2.frames ∧
        ∀ o, Reach s2.store (s2.roots .uintptr) o → s1.store.obj o = s2.store.obj o) ∧
      ∀ f fs e, s1.frames = f :: fs → Expected f e → ∃ s', Step .uintptr s1 (some e) s' := by
  obtain ⟨s2, h2, hs⟩ := gc_run (.inr hn) ht hp hb hr
  refine ⟨⟨s2, h2, hs.frames, fun o ho => hs.visible ho⟩, ?_⟩
  intro f fs e hf he
  obtain ⟨S', _, hi⟩ := inv_run (start_inv_gc (base := base) ht hp) h2
  obtain ⟨s', hs'⟩ := inv_expected hi (hs.frames ▸ hf) he
  obtain ⟨s1', h1, _⟩ := hs.symm.step hs'
  exact ⟨s1', h1⟩

/-- Runs by computation. -/
def exec (k : HeaderKind) : State → List Event → Option State
  | s, [] => some s
  | s, e :: es =>
    match s.frames with
    | [] => none
    | f :: fs => (step k f e s.store).bind fun r => exec k ⟨r.1 ++ fs, s.base, r.2⟩ es

theorem exec_run {k : HeaderKind} {s s' : State} {es : List Event} (h : exec k s es = some s') : Run k s (es.map some) s' := by
  induction es generalizing s with
  | nil => cases h; exact .nil _
  | cons e es ih =>
    obtain ⟨fr, base, st⟩ := s
    unfold exec at h
    cases fr with
    | nil => cases h
    | cons f fs =>
      simp only at h
      cases hs : step k f e st with
      | none => rw [hs] at h; cases h
      | some r =>
        rw [hs] at h
        exact .cons _ _ _ _ _ (.go f fs r.1 base e st r.2 hs) (ih h)

theorem run_gc {k : HeaderKind} {s s' s'' : State} {es es' : List (Option Event)} (h : Run k s es s') (h' : RunGc k s' es' s'') :
    RunGc k s (es ++ es') s'' := by
  induction h with
  | nil s => exact h'
  | cons s s1 s' e es hs _ ih => exact .cons _ _ _ _ _ hs (ih h')

/-- A variable `var v []int` at object 0. -/
def sliceVar : Store := ⟨fun o => if o = 0 then ⟨zeroCells (.slice .leaf), []⟩ else ⟨[], []⟩, 1⟩

def sliceLayout : Layout := fun o => if o = 0 then some (.block (.slice .leaf)) else none

/-- `[7` -/
def events1 : List Event := [.opening, .silent, .silent, .silent, .silent, .silent, .silent, .silent, .scalar 7]

/-- `]` -/
def events2 : List Event := [.closing, .silent]

theorem sliceVar_typed (k : HeaderKind) : Typed sliceLayout k sliceVar := by
  intro o s ho
  unfold sliceLayout at ho
  split at ho
  · next e =>
    subst e
    cases ho
    exact ⟨Nat.one_pos, zero_ok _ _, rfl⟩
  · cases ho

theorem sliceVar_at : At sliceLayout ⟨0, 0⟩ (.slice .leaf) := ⟨.slice .leaf, rfl, .self _⟩

/-- After `[7` the decoder is about to look at what follows. -/
def afterElem (k : HeaderKind) : State := (exec k ⟨[.dec (.slice .leaf) ⟨0, 0⟩], [0], sliceVar⟩ events1).getD ⟨[], [], sliceVar⟩

theorem afterElem_run (k : HeaderKind) : exec k ⟨[.dec (.slice .leaf) ⟨0, 0⟩], [0], sliceVar⟩ events1 = some (afterElem k) := by
  cases k <;> rfl

/-- A garbage collection, after which the object 3 belongs to somebody else, who has written 9 there. -/
def collected : Store := { (afterElem .uintptr).store with obj := fun o => if o = 3 then ⟨[.num 9], []⟩ else (afterElem .uintptr).store.obj o }

theorem collected_ok : Collect ((afterElem .uintptr).roots .uintptr) (afterElem .uintptr).store collected := by
  refine ⟨rfl, ?_⟩
  intro o ho
  have : o = 0 ∨ o = 4 := by
    refine reach_in (P := fun o => o = 0 ∨ o = 4) ?_ ?_ ho
    · decide
    · rintro o (rfl | rfl)
      · decide
      · decide
  simp only [collected]
  rw [if_neg (by omega)]

/-- C47 is false for slices, with the headers of the code.  `[7]` is decoded into a nil slice of integers.  A garbage collection between
the element and the bracket does not see that the array is in use, and somebody else gets the memory.  `Decode` returns no error; the slice
has one element, which is whatever was written there (9 in this run), and not 7. -/
theorem C47_slice_violated : ∃ (S : Layout) (h : Store) (p : Loc) (es : List (Option Event)) (s1 s2 : State) (a : Loc),
    Typed S .uintptr h ∧ At S p (.slice .leaf) ∧
    Run .uintptr ⟨[.dec (.slice .leaf) p], [p.obj], h⟩ es s2 ∧ RunGc .uintptr ⟨[.dec (.slice .leaf) p], [p.obj], h⟩ es s1 ∧
    s1.frames = [] ∧ s2.frames = [] ∧
    (s1.store.obj p.obj).cells = [.ptr (some a), .num 1, .num 1] ∧ (s2.store.obj p.obj).cells = [.ptr (some a), .num 1, .num 1] ∧
    (s1.store.obj a.obj).cells = [.num 9] ∧ (s2.store.obj a.obj).cells = [.num 7] := by
  have h1 := exec_run (afterElem_run .uintptr)
  refine ⟨sliceLayout, sliceVar, ⟨0, 0⟩, (events1 ++ events2).map some,
    (exec .uintptr { afterElem .uintptr with store := collected } events2).getD ⟨[], [], sliceVar⟩,
    (exec .uintptr ⟨[.dec (.slice .leaf) ⟨0, 0⟩], [0], sliceVar⟩ (events1 ++ events2)).getD ⟨[], [], sliceVar⟩, ⟨3, 0⟩,
    sliceVar_typed _, sliceVar_at, exec_run rfl, ?_, rfl, rfl, rfl, rfl, rfl, rfl⟩
  rw [List.map_append]
  refine run_gc h1 (.gc _ _ _ _ collected_ok ?_)
  have h2 : exec .uintptr { afterElem .uintptr with store := collected } events2 =
    some ((exec .uintptr { afterElem .uintptr with store := collected } events2).getD ⟨[], [], sliceVar⟩) := rfl
  have h3 := run_gc (exec_run h2) (.nil _)
  simpa using h3

/-- `var v map[int]*struct{ a int; b [2]string }` -/
def bigType : Typ := .map (.ptr (.pair .leaf (.array 2 .str)))

example : bigType.noSlice := by simp [bigType, Typ.noSlice]

/-- `{"5": {"a": 1, "b": ["x", "y"], "a": 2}, "6": null}` into a nil map: decoding ends, and the map has two entries. -/
def bigEvents : List Event :=
  [.opening, .silent, .silent, .key 5, .silent, .opening, .key 0, .scalar 1, .key 1, .opening, .silent, .scalar 10, .silent, .silent,
    .scalar 11, .silent, .closing, .key 0, .scalar 2, .closing, .silent, .silent, .comma, .key 6, .null, .silent, .closing]

def bigStart : State := ⟨[.dec bigType ⟨0, 0⟩], [0], ⟨fun _ => ⟨[.ptr none], []⟩, 1⟩⟩

example : ∃ s, exec .uintptr bigStart bigEvents = some s ∧ s.frames = [] ∧
    (s.store.obj 0).cells = [.ptr (some ⟨1, 0⟩)] ∧ (s.store.obj 1).entries = [(5, [.ptr (some ⟨3, 0⟩)]), (6, [.ptr none])] ∧
    (s.store.obj 3).cells = [.num 2, .ptr (some ⟨4, 0⟩), .num 1, .ptr (some ⟨5, 0⟩), .num 1] :=
  ⟨(exec .uintptr bigStart bigEvents).getD bigStart, rfl, rfl, rfl, rfl, rfl⟩

/-- `C47_in_bounds` with slices: `[[1],[2,3,4]]` -/
example : ∃ s, exec .uintptr ⟨[.dec (.slice (.slice .leaf)) ⟨0, 0⟩], [0], sliceVar⟩
      ([.opening, .silent, .silent, .silent, .silent, .silent, .silent, .silent] ++
        [.opening, .silent, .silent, .silent, .silent, .silent, .silent, .silent, .scalar 1, .closing, .silent] ++
        [.comma, .silent, .silent, .silent, .silent] ++
        [.opening, .silent, .silent, .silent, .silent, .silent, .silent, .silent, .scalar 2, .comma, .silent, .silent, .silent, .silent,
          .scalar 3, .comma, .silent, .silent, .silent, .silent, .scalar 4, .closing, .silent] ++ [.closing, .silent]) = some s ∧ s.frames = [] ∧
    (s.store.obj 0).cells = [.ptr (some ⟨9, 0⟩), .num 2, .num 2] ∧
    (s.store.obj 9).cells = [.ptr (some ⟨7, 0⟩), .num 1, .num 1, .ptr (some ⟨17, 0⟩), .num 3, .num 4] ∧
    (s.store.obj 17).cells = [.num 2, .num 3, .num 4, .num 0] := by
  refine ⟨_, rfl, rfl, ?_, ?_, ?_⟩ <;> rfl

end Jzon.Props
