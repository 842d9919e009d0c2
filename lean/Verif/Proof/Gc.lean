import Verif.Model.Gc

/-!
# Garbage collections do not change what a program computes

Two memories that agree on a set of objects which is closed under pointers: a computation that uses only pointers to such objects
does the same in both.
-/

set_option linter.unusedSimpArgs false

namespace Jzon.Gc

/-- What the word leads to; if `r` is true, an address in a `uintptr` counts too. -/
def refR (r : Bool) : Cell → Option Nat
  | .ptr (some a) => some a.obj
  | .uintptr (some a) => if r then some a.obj else none
  | _ => none

/-- The objects that the words lead to. -/
def refsOf (r : Bool) (cs : List Cell) : List Nat := cs.filterMap (refR r)

/-- The objects that an object leads to. -/
def refsR (r : Bool) (x : Obj) : List Nat := refsOf r (x.cells ++ x.entries.flatMap Prod.snd)

theorem refR_false (c : Cell) : refR false c = c.ref := by
  unfold refR Cell.ref
  grind

theorem refs_eq (x : Obj) : x.refs = refsR false x := by
  unfold Obj.refs refsR refsOf
  congr 1
  funext c
  exact (refR_false c).symm

theorem mem_refsOf {r : Bool} {o : Nat} {cs : List Cell} : o ∈ refsOf r cs ↔ ∃ c ∈ cs, refR r c = some o := by
  simp only [refsOf, List.mem_filterMap]

theorem refsR_cells {r : Bool} {x : Obj} {c : Cell} {o : Nat} (hc : c ∈ x.cells) (h : refR r c = some o) : o ∈ refsR r x :=
  mem_refsOf.2 ⟨c, List.mem_append_left _ hc, h⟩

theorem refsR_entries {r : Bool} {x : Obj} {e : Nat × List Cell} {c : Cell} {o : Nat} (he : e ∈ x.entries) (hc : c ∈ e.2)
    (h : refR r c = some o) : o ∈ refsR r x :=
  mem_refsOf.2 ⟨c, List.mem_append_right _ (List.mem_flatMap.2 ⟨e, he, hc⟩), h⟩

theorem of_refsR {r : Bool} {x : Obj} {o : Nat} (h : o ∈ refsR r x) :
    (∃ c ∈ x.cells, refR r c = some o) ∨ ∃ e ∈ x.entries, ∃ c ∈ e.2, refR r c = some o := by
  obtain ⟨c, hc, h⟩ := mem_refsOf.1 h
  rcases List.mem_append.1 hc with hc | hc
  · exact .inl ⟨c, hc, h⟩
  · obtain ⟨e, he, hc⟩ := List.mem_flatMap.1 hc
    exact .inr ⟨e, he, c, hc, h⟩

/-- The memories agree on the objects of `P`, and pointers do not lead out of `P`. -/
structure Agree (r : Bool) (P : Nat → Prop) (h1 h2 : Store) : Prop where
  next : h1.next = h2.next
  same : ∀ o, P o → h1.obj o = h2.obj o
  closed : ∀ o, P o → ∀ o' ∈ refsR r (h2.obj o), P o'
  used : ∀ o, P o → o < h2.next

/-- From `h` to `h'` only objects of `P'` change, which are those of `P` and new ones. -/
structure Stay (P : Nat → Prop) (h h' : Store) (P' : Nat → Prop) : Prop where
  sub : ∀ o, P o → P' o
  new : ∀ o, P' o → P o ∨ h.next ≤ o
  outside : ∀ o, ¬ P' o → h'.obj o = h.obj o
  next : h.next ≤ h'.next

theorem Stay.refl {P : Nat → Prop} {h : Store} : Stay P h h P := ⟨fun _ h => h, fun _ h => .inl h, fun _ _ => rfl, Nat.le_refl _⟩

theorem Stay.trans {P P' P'' : Nat → Prop} {h h' h'' : Store} (a : Stay P h h' P') (b : Stay P' h' h'' P'') : Stay P h h'' P'' := by
  refine ⟨fun o ho => b.sub o (a.sub o ho), ?_, ?_, Nat.le_trans a.next b.next⟩
  · intro o ho
    rcases b.new o ho with ho | ho
    · exact a.new o ho
    · exact .inr (Nat.le_trans a.next ho)
  · intro o ho
    rw [b.outside o ho, a.outside o fun h => ho (b.sub o h)]

/-- `m` does the same in memories that agree on `P`; afterwards they agree on a set that fits the result, by `Q`. -/
def Coh {α : Type} (r : Bool) (P : Nat → Prop) (m : Mem α) (Q : α → (Nat → Prop) → Prop) : Prop :=
  ∀ h1 h2, Agree r P h1 h2 → (m h1 = none ∧ m h2 = none) ∨
    ∃ a h1' h2' P', m h1 = some (a, h1') ∧ m h2 = some (a, h2') ∧ Stay P h2 h2' P' ∧ Agree r P' h1' h2' ∧ Q a P'

variable {r : Bool} {P : Nat → Prop}

theorem Coh.fault {α : Type} {Q : α → (Nat → Prop) → Prop} : Coh r P (Mem.fault : Mem α) Q :=
  fun _ _ _ => .inl ⟨rfl, rfl⟩

theorem Coh.pure {α : Type} {Q : α → (Nat → Prop) → Prop} {a : α} (h : Q a P) : Coh r P (Pure.pure a : Mem α) Q :=
  fun h1 h2 ha => .inr ⟨a, h1, h2, P, rfl, rfl, Stay.refl, ha, h⟩

theorem Coh.bind {α β : Type} {m : Mem α} {f : α → Mem β} {R : α → (Nat → Prop) → Prop} {Q : β → (Nat → Prop) → Prop}
    (hm : Coh r P m R) (hf : ∀ a P', (∀ o, P o → P' o) → R a P' → Coh r P' (f a) Q) : Coh r P (m >>= f) Q := by
  intro h1 h2 ha
  show ((Mem.bind m f) h1 = none ∧ (Mem.bind m f) h2 = none) ∨ ∃ a h1' h2' P', (Mem.bind m f) h1 = some (a, h1') ∧
    (Mem.bind m f) h2 = some (a, h2') ∧ Stay P h2 h2' P' ∧ Agree r P' h1' h2' ∧ Q a P'
  rcases hm h1 h2 ha with ⟨e1, e2⟩ | ⟨a, h1', h2', P', e1, e2, hs, ha', hr⟩
  · left; simp [Mem.bind, e1, e2]
  · rcases hf a P' hs.sub hr h1' h2' ha' with ⟨e1', e2'⟩ | ⟨b, h1'', h2'', P'', e1', e2', hs', ha'', hq⟩
    · left; simp [Mem.bind, e1, e2, e1', e2']
    · right
      exact ⟨b, h1'', h2'', P'', by simp [Mem.bind, e1, e1'], by simp [Mem.bind, e2, e2'], hs.trans hs', ha'', hq⟩

/-- The word does not lead out of `P`. -/
def CellIn (r : Bool) (P : Nat → Prop) (c : Cell) : Prop := ∀ o, refR r c = some o → P o

theorem Coh.read {p : Loc} (hp : P p.obj) : Coh r P (Mem.read p) fun c P' => P' = P ∧ CellIn r P c := by
  intro h1 h2 ha
  unfold Mem.read
  rw [ha.same p.obj hp]
  cases hc : (h2.obj p.obj).cells[p.off]? with
  | none => left; simp
  | some c =>
    right
    exact ⟨c, h1, h2, P, by simp, by simp, Stay.refl, ha, rfl,
      fun o h => ha.closed p.obj hp o (refsR_cells (List.mem_of_getElem? hc) h)⟩

theorem Coh.readAll {p : Loc} {n : Nat} (hp : P p.obj) : Coh r P (Mem.readAll p n) fun cs P' => P' = P ∧ ∀ c ∈ cs, CellIn r P c := by
  intro h1 h2 ha
  unfold Mem.readAll
  rw [ha.same p.obj hp]
  by_cases hl : p.off + n ≤ (h2.obj p.obj).cells.length
  · right
    rw [if_pos hl, if_pos hl]
    exact ⟨_, h1, h2, P, rfl, rfl, Stay.refl, ha, rfl,
      fun c hc o h => ha.closed p.obj hp o (refsR_cells (List.mem_of_mem_drop (List.mem_of_mem_take hc)) h)⟩
  · left
    rw [if_neg hl, if_neg hl]
    exact ⟨rfl, rfl⟩

theorem Agree.put {h1 h2 : Store} (ha : Agree r P h1 h2) {o : Nat} {x : Obj} (hx : ∀ o' ∈ refsR r x, P o') :
    Agree r P (Mem.put h1 o x) (Mem.put h2 o x) := by
  refine ⟨ha.next, ?_, ?_, ha.used⟩
  · intro i hi
    simp only [Mem.put]
    split
    · rfl
    · exact ha.same i hi
  · intro i hi
    simp only [Mem.put]
    split
    · exact hx
    · exact ha.closed i hi

theorem Stay.put {h : Store} {o : Nat} {x : Obj} (ho : P o) : Stay P h (Mem.put h o x) P := by
  refine ⟨fun _ h => h, fun _ h => .inl h, ?_, Nat.le_refl _⟩
  intro i hi
  simp only [Mem.put]
  rw [if_neg]
  rintro rfl
  exact hi ho

theorem Coh.write {p : Loc} {cs : List Cell} (hp : P p.obj) (hc : ∀ c ∈ cs, CellIn r P c) :
    Coh r P (Mem.write p cs) fun _ P' => P' = P := by
  intro h1 h2 ha
  unfold Mem.write
  rw [ha.same p.obj hp]
  by_cases hl : p.off + cs.length ≤ (h2.obj p.obj).cells.length
  · right
    simp only [if_pos hl]
    refine ⟨(), _, _, P, rfl, rfl, Stay.put hp, ha.put ?_, rfl⟩
    intro o' ho'
    rcases of_refsR ho' with ⟨c, hm, h⟩ | ⟨e, he, c, hm, h⟩
    · simp only [List.mem_append, or_assoc] at hm
      rcases hm with hm | hm | hm
      · exact ha.closed _ hp _ (refsR_cells (List.mem_of_mem_take hm) h)
      · exact hc _ hm _ h
      · exact ha.closed _ hp _ (refsR_cells (List.mem_of_mem_drop hm) h)
    · exact ha.closed _ hp _ (refsR_entries he hm h)
  · left
    simp [if_neg hl]

theorem mem_setKey {k : Nat} {cs : List Cell} {es : List (Nat × List Cell)} {e : Nat × List Cell} (h : e ∈ Mem.setKey k cs es) :
    e = (k, cs) ∨ e ∈ es := by
  induction es with
  | nil => simpa [Mem.setKey] using h
  | cons a es ih =>
    unfold Mem.setKey at h
    split at h
    · rcases List.mem_cons.1 h with h | h
      · exact .inl h
      · exact .inr (List.mem_cons_of_mem _ h)
    · rcases List.mem_cons.1 h with h | h
      · exact .inr (h ▸ List.mem_cons_self)
      · exact (ih h).imp_right (List.mem_cons_of_mem _)

theorem Coh.assign {m k : Nat} {cs : List Cell} (hm : P m) (hc : ∀ c ∈ cs, CellIn r P c) :
    Coh r P (Mem.assign m k cs) fun _ P' => P' = P := by
  intro h1 h2 ha
  right
  refine ⟨(), _, _, P, rfl, rfl, Stay.put hm, ?_, rfl⟩
  rw [ha.same m hm]
  refine ha.put ?_
  intro o' ho'
  rcases of_refsR ho' with ⟨c, hx, h⟩ | ⟨e, he, c, hx, h⟩
  · exact ha.closed _ hm _ (refsR_cells hx h)
  · rcases mem_setKey he with rfl | he
    · exact hc _ hx _ h
    · exact ha.closed _ hm _ (refsR_entries he hx h)

theorem Coh.alloc {x : Obj} (hx : ∀ o ∈ refsR r x, P o) : Coh r P (Mem.alloc x) fun o P' => P' o := by
  intro h1 h2 ha
  right
  refine ⟨h2.next, _, _, fun o => P o ∨ o = h2.next, by rw [← ha.next]; rfl, rfl, ⟨fun _ h => .inl h, ?_, ?_, Nat.le_succ _⟩,
    ⟨by simp [ha.next], ?_, ?_, ?_⟩, .inr rfl⟩
  · rintro o (ho | rfl)
    · exact .inl ho
    · exact .inr (Nat.le_refl _)
  · intro o ho
    simp only
    rw [if_neg]
    rintro rfl
    exact ho (.inr rfl)
  · intro o ho
    simp only [ha.next]
    split
    · rfl
    · rcases ho with ho | ho
      · exact ha.same o ho
      · contradiction
  · intro o ho
    simp only
    split
    · exact fun o' h => .inl (hx o' h)
    · rcases ho with ho | ho
      · exact fun o' h => .inl (ha.closed o ho o' h)
      · contradiction
  · rintro o (ho | rfl)
    · exact Nat.lt_succ_of_lt (ha.used o ho)
    · exact Nat.lt_succ_self _

theorem Coh.deref {p : Loc} (hp : P p.obj) : Coh r P (Mem.deref p) fun a P' => P' = P ∧ ∀ q : Loc, a = some q → P q.obj := by
  unfold Mem.deref
  refine Coh.bind (Coh.read hp) ?_
  rintro c P' _ ⟨rfl, hc⟩
  cases c with
  | ptr a => exact Coh.pure ⟨rfl, fun q e => hc q.obj (by rw [e]; rfl)⟩
  | uintptr a => exact Coh.fault
  | num n => exact Coh.fault

theorem Coh.readHeader {k : HeaderKind} {p : Loc} (hp : P p.obj) :
    Coh r P (readHeader k p) fun x P' => P' = P ∧ (r = true ∨ k = .pointer → ∀ q : Loc, x.data = some q → P q.obj) := by
  unfold Gc.readHeader
  refine Coh.bind (Coh.readAll hp) ?_
  rintro cs P' _ ⟨rfl, hc⟩
  split
  · next a l c => exact Coh.pure ⟨rfl, fun _ q (e : a = some q) => hc (.ptr a) (by simp) q.obj (by rw [e]; rfl)⟩
  · next a l c =>
    refine Coh.pure ⟨rfl, ?_⟩
    rintro (rfl | h) q e
    · exact hc (.uintptr a) (by simp) q.obj (by rw [show a = some q from e]; rfl)
    · cases h
  · exact Coh.fault

/-- Has the type no slices in it? -/
def Typ.noSlice : Typ → Prop
  | .leaf | .str => True
  | .slice _ => False
  | .ptr t | .map t | .array _ t | .embed t => t.noSlice
  | .pair a b => a.noSlice ∧ b.noSlice

/-- Does nothing that is still to do build a slice? -/
def Frame.noSlice : Frame → Prop
  | .dec t _ | .embed t _ _ | .mapStore t _ _ | .mapFirst t _ | .mapKey t _ | .mapAssign t _ _ _ | .mapNext t _
  | .array _ t _ _ => t.noSlice
  | .fields a b _ => a.noSlice ∧ b.noSlice
  | .store _ _ _ => True
  | _ => False

theorem num_in (n : Nat) : CellIn r P (.num n) := by intro a e; cases e

theorem nil_in : CellIn r P (.ptr none) := by intro a e; cases e

theorem ptr_in {a : Loc} (h : P a.obj) : CellIn r P (.ptr (some a)) := by intro b e; cases e; exact h

theorem uintptr_in {a : Loc} (h : P a.obj) : CellIn r P (.uintptr (some a)) := by
  intro b e
  simp only [refR] at e
  split at e
  · cases e; exact h
  · cases e

theorem cell_in {k : HeaderKind} {a : Loc} (h : P a.obj) : CellIn r P (k.cell (some a)) := by
  cases k
  · exact uintptr_in h
  · exact ptr_in h

theorem zeroCells_in (t : Typ) : ∀ c ∈ zeroCells t, CellIn r P c := by
  induction t with
  | array n t ih =>
    intro c hc
    obtain ⟨l, hl, hc⟩ := List.mem_flatten.1 hc
    rw [List.eq_of_mem_replicate hl] at hc
    exact ih c hc
  | pair a b iha ihb =>
    intro c hc
    rcases List.mem_append.1 hc with h | h
    · exact iha c h
    · exact ihb c h
  | _ => simp [zeroCells, num_in, nil_in]

theorem zeros_in (n : Nat) (t : Typ) : ∀ c ∈ (List.replicate n (zeroCells t)).flatten, CellIn r P c :=
  zeroCells_in (.array n t)

theorem refs_cells {cs : List Cell} (h : ∀ c ∈ cs, CellIn r P c) : ∀ o ∈ refsR r (Obj.mk cs []), P o := by
  intro o ho
  rcases of_refsR ho with ⟨c, hc, e⟩ | ⟨e, he, _⟩
  · exact h c hc o e
  · cases he

/-- The pointers of a call; with `r` all addresses. -/
def Frame.liveR (r : Bool) (k : HeaderKind) (f : Frame) : List Nat := f.live (if r then .pointer else k)

/-- The pointers of what is to do lead to `P`, and slices are built only if the headers have pointers (or `r`). -/
def Fits (r : Bool) (k : HeaderKind) (fs : List Frame) (P : Nat → Prop) : Prop :=
  ∀ f ∈ fs, (r = true ∨ k = .pointer ∨ f.noSlice) ∧ ∀ o ∈ f.liveR r k, P o

theorem Coh.writing {p : Loc} {cs : List Cell} {α : Type} {a : α} {Q : α → (Nat → Prop) → Prop} (hp : P p.obj)
    (hc : ∀ c ∈ cs, CellIn r P c) (hQ : Q a P) : Coh r P (Mem.write p cs >>= fun _ => Pure.pure a) Q := by
  refine Coh.bind (Coh.write hp hc) ?_
  rintro _ P' _ rfl
  exact Coh.pure hQ

theorem Coh.allocating {cs : List Cell} {α : Type} {f : Nat → α} {Q : α → (Nat → Prop) → Prop}
    (hc : ∀ c ∈ cs, CellIn r P c) (hQ : ∀ o P', (∀ o, P o → P' o) → P' o → Q (f o) P') :
    Coh r P (Mem.alloc ⟨cs, []⟩ >>= fun o => Pure.pure (f o)) Q :=
  Coh.bind (Coh.alloc (refs_cells hc)) fun o P' hs ho => Coh.pure (hQ o P' hs ho)

theorem headerKind {r : Bool} {k : HeaderKind} (h : r = true ∨ k = .pointer) : (if r = true then HeaderKind.pointer else k) = .pointer := by
  rcases h with h | h
  · rw [if_pos h]
  · rw [h]; split <;> rfl

theorem step_coh {k : HeaderKind} {f : Frame} {e : Event} (hk : r = true ∨ k = .pointer ∨ f.noSlice)
    (hl : ∀ o ∈ f.liveR r k, P o) : Coh r P (step k f e) (Fits r k) := by
  unfold step
  split <;> (try exact Coh.fault) <;>
    (try simp only [Frame.liveR, Frame.live, List.mem_cons, List.not_mem_nil, or_false, forall_eq, forall_eq_or_imp] at hl)
  all_goals (try exact Coh.pure (by simp_all [Fits, Frame.liveR, Frame.live, Frame.noSlice, Typ.noSlice] <;> grind))
  -- a number
  · exact Coh.writing hl (by simp [num_in]) (by simp [Fits])
  -- a string
  · exact Coh.allocating (by simp [num_in]) (by intro o P' hs ho; simp [Fits, Frame.liveR, Frame.live, Frame.noSlice, hs _ hl, ho])
  · refine Coh.writing hl.1 ?_ (by simp [Fits])
    intro c hc
    rcases List.mem_cons.1 hc with rfl | hc
    · exact ptr_in hl.2
    · obtain ⟨n, _, rfl⟩ := List.mem_map.1 hc
      exact num_in _
  -- pointers
  · exact Coh.writing hl (by simp [nil_in]) (by simp [Fits])
  · refine Coh.bind (Coh.deref hl) ?_
    rintro a P' _ ⟨rfl, ha⟩
    cases a with
    | some q => exact Coh.pure (by simp_all [Fits, Frame.liveR, Frame.live, Frame.noSlice, Typ.noSlice])
    | none =>
      refine Coh.allocating (zeroCells_in _) ?_
      intro o P' hs ho
      simp_all [Fits, Frame.liveR, Frame.live, Frame.noSlice, Typ.noSlice]
  · refine Coh.bind (Coh.deref hl) ?_
    rintro a P' _ ⟨rfl, ha⟩
    cases a with
    | some q => exact Coh.pure (by simp_all [Fits, Frame.liveR, Frame.live, Frame.noSlice, Typ.noSlice])
    | none =>
      refine Coh.allocating (zeroCells_in _) ?_
      intro o P' hs ho
      simp_all [Fits, Frame.liveR, Frame.live, Frame.noSlice, Typ.noSlice]
  · exact Coh.writing hl.1 (by simpa using ptr_in (a := ⟨_, 0⟩) hl.2) (by simp_all [Fits, Frame.liveR, Frame.live, Frame.noSlice, Typ.noSlice])
  -- slices
  · exact Coh.writing hl (by simp [nil_in, num_in]) (by simp [Fits])
  · refine Coh.allocating (by simp) ?_
    intro o P' hs ho
    have hp : r = true ∨ k = .pointer := by simpa [Frame.noSlice] using hk
    simp_all [Fits, Frame.liveR, Frame.live, Frame.noSlice, headerKind hp]
  · next t p old arr len cap =>
    have hp : r = true ∨ k = .pointer := by simpa [Frame.noSlice] using hk
    rw [headerKind hp] at hl
    have hP : P p.obj := hl _ (by simp)
    have hA : P arr := hl _ (by simp)
    refine Coh.bind (Coh.alloc (refs_cells ?_)) ?_
    · simp [cell_in (a := ⟨arr, 0⟩) hA, num_in]
    · intro o P' hs ho
      cases old with
      | none => exact Coh.pure (by simp_all [Fits, Frame.liveR, Frame.live, Frame.noSlice])
      | some old =>
        have hO : P old.obj := hl _ (by simp)
        exact Coh.pure (by simp_all [Fits, Frame.liveR, Frame.live, Frame.noSlice])
  · refine Coh.bind (Coh.readHeader hl.2) ?_
    rintro x P' _ ⟨rfl, hx⟩
    have hp : r = true ∨ k = .pointer := by simpa [Frame.noSlice] using hk
    split
    · exact Coh.writing hl.2 (by simp [num_in]) (by simp_all [Fits, Frame.liveR, Frame.live, Frame.noSlice])
    · refine Coh.allocating (zeros_in _ _) ?_
      intro o P' hs ho
      simp_all [Fits, Frame.liveR, Frame.live, Frame.noSlice, headerKind hp]
  · refine Coh.bind (Coh.readHeader hl.2.1) ?_
    rintro x P' _ ⟨rfl, hx⟩
    refine Coh.bind (Coh.readHeader hl.2.2) ?_
    rintro y P' _ ⟨rfl, hy⟩
    have hp : r = true ∨ k = .pointer := by simpa [Frame.noSlice] using hk
    dsimp only
    split
    · exact Coh.pure (by simp_all [Fits, Frame.liveR, Frame.live, Frame.noSlice])
    · split
      · next s d hs hd =>
        refine Coh.bind (Coh.readAll (hx hp s hs)) ?_
        rintro cs P' _ ⟨rfl, hc⟩
        exact Coh.writing (hy hp d hd) hc (by simp_all [Fits, Frame.liveR, Frame.live, Frame.noSlice])
      · exact Coh.fault
  · refine Coh.bind (Coh.readHeader hl.2) ?_
    rintro x P' _ ⟨rfl, hx⟩
    have hp : r = true ∨ k = .pointer := by simpa [Frame.noSlice] using hk
    split
    · next a ha =>
      have := hx hp a ha
      refine Coh.pure ?_
      simp only [Fits, List.mem_cons, List.not_mem_nil, or_false, forall_eq_or_imp, forall_eq, Frame.liveR, Frame.live, Frame.noSlice]
      exact ⟨⟨hp.imp_right .inl, this⟩, hp, hl⟩
    · exact Coh.fault
  · refine Coh.bind (Coh.readHeader hl.2) ?_
    rintro x P' _ ⟨rfl, hx⟩
    have hp : r = true ∨ k = .pointer := by simpa [Frame.noSlice] using hk
    refine Coh.writing hl.1 ?_ (by simp [Fits])
    have : CellIn r P' (.ptr x.data) := by
      cases hd : x.data with
      | none => exact nil_in
      | some q => exact ptr_in (hx hp q hd)
    simp [this, num_in]
  -- maps
  · exact Coh.writing hl (by simp [nil_in]) (by simp [Fits])
  · refine Coh.bind (Coh.deref hl) ?_
    rintro a P' _ ⟨rfl, ha⟩
    cases a with
    | some q => exact Coh.pure (by simp_all [Fits, Frame.liveR, Frame.live, Frame.noSlice, Typ.noSlice])
    | none =>
      refine Coh.allocating (by simp) ?_
      intro o P' hs ho
      simp_all [Fits, Frame.liveR, Frame.live, Frame.noSlice, Typ.noSlice]
  · exact Coh.writing hl.1 (by simpa using ptr_in (a := ⟨_, 0⟩) hl.2) (by simp_all [Fits, Frame.liveR, Frame.live, Frame.noSlice, Typ.noSlice])
  · refine Coh.allocating (zeroCells_in _) ?_
    intro o P' hs ho
    simp_all [Fits, Frame.liveR, Frame.live, Frame.noSlice, Typ.noSlice]
  · refine Coh.bind (Coh.deref hl.1) ?_
    rintro a P' _ ⟨rfl, ha⟩
    cases a with
    | none => exact Coh.fault
    | some m =>
      refine Coh.bind (Coh.readAll hl.2) ?_
      rintro cs P' _ ⟨rfl, hc⟩
      refine Coh.bind (Coh.assign (ha m rfl) hc) ?_
      rintro _ P' _ rfl
      exact Coh.pure (by simp_all [Fits, Frame.liveR, Frame.live, Frame.noSlice, Typ.noSlice])
  -- arrays
  · split
    · exact Coh.pure (by simp_all [Fits, Frame.liveR, Frame.live, Frame.noSlice, Typ.noSlice])
    · exact Coh.fault
  · split
    · exact Coh.fault
    · exact Coh.pure (by simp_all [Fits, Frame.liveR, Frame.live, Frame.noSlice, Typ.noSlice])
  · exact Coh.writing hl (zeros_in _ _) (by simp [Fits])

/-- The same calls, and memory that agrees on all that they can get to. -/
structure Same (k : HeaderKind) (s1 s2 : State) : Prop where
  frames : s1.frames = s2.frames
  base : s1.base = s2.base
  agree : ∃ P, Fits false k s2.frames P ∧ (∀ o ∈ s2.base, P o) ∧ Agree false P s1.store s2.store

theorem reach_in {h : Store} {roots : List Nat} (hr : ∀ o ∈ roots, P o) (hc : ∀ o, P o → ∀ o' ∈ (h.obj o).refs, P o')
    {o : Nat} (ho : Reach h roots o) : P o := by
  induction ho with
  | root o h => exact hr o h
  | ref o o' _ h ih => exact hc o ih o' h

theorem fits_roots {k : HeaderKind} {s : State} (hf : Fits false k s.frames P) (hb : ∀ o ∈ s.base, P o) :
    ∀ o ∈ s.roots k, P o := by
  intro o ho
  rcases List.mem_append.1 ho with ho | ho
  · obtain ⟨f, hm, ho⟩ := List.mem_flatMap.1 ho
    exact (hf f hm).2 o ho
  · exact hb o ho

theorem Same.visible {k : HeaderKind} {s1 s2 : State} (h : Same k s1 s2) {o : Nat} (ho : Reach s2.store (s2.roots k) o) :
    s1.store.obj o = s2.store.obj o := by
  obtain ⟨P, hf, hb, ha⟩ := h.agree
  exact ha.same o (reach_in (fits_roots hf hb) (fun o ho o' h => ha.closed o ho o' (refs_eq _ ▸ h)) ho)

theorem Same.gc {k : HeaderKind} {s1 s2 : State} (h : Same k s1 s2) {m : Store} (hc : Collect (s1.roots k) s1.store m) :
    Same k { s1 with store := m } s2 := by
  obtain ⟨P, hf, hb, ha⟩ := h.agree
  have hroots : s1.roots k = s2.roots k := by simp [State.roots, h.frames, h.base]
  have hP : ∀ o, Reach s1.store (s1.roots k) o → P o := by
    intro o ho
    refine reach_in (h := s1.store) (fun o ho => fits_roots hf hb o (hroots ▸ ho)) ?_ ho
    intro o ho
    rw [ha.same o ho, refs_eq]
    exact ha.closed o ho
  refine ⟨h.frames, h.base, Reach s1.store (s1.roots k), ?_, ?_, ?_⟩
  · intro f hm
    refine ⟨(hf f hm).1, fun o ho => .root o ?_⟩
    rw [hroots]
    exact List.mem_append_left _ (List.mem_flatMap.2 ⟨f, hm, ho⟩)
  · intro o ho
    refine .root o ?_
    rw [hroots]
    exact List.mem_append_right _ ho
  · refine ⟨hc.next.trans ha.next, ?_, ?_, ?_⟩
    · intro o ho
      exact (hc.kept o ho).trans (ha.same o (hP o ho))
    · intro o ho o' ho'
      refine .ref o o' ho ?_
      rw [ha.same o (hP o ho), refs_eq]
      exact ho'
    · exact fun o ho => ha.used o (hP o ho)

theorem Same.symm {k : HeaderKind} {s1 s2 : State} (h : Same k s1 s2) : Same k s2 s1 := by
  obtain ⟨P, hf, hb, ha⟩ := h.agree
  refine ⟨h.frames.symm, h.base.symm, P, h.frames ▸ hf, h.base ▸ hb, ha.next.symm, fun o ho => (ha.same o ho).symm, ?_, ?_⟩
  · intro o ho
    rw [ha.same o ho]
    exact ha.closed o ho
  · intro o ho
    rw [ha.next]
    exact ha.used o ho

theorem Same.step {k : HeaderKind} {s1 s2 s1' : State} {e : Option Event} (h : Same k s1 s2) (hs : Step k s1 e s1') :
    ∃ s2', Step k s2 e s2' ∧ Same k s1' s2' := by
  obtain ⟨P, hf, hb, ha⟩ := h.agree
  obtain ⟨fr, b2, m2⟩ := s2
  have h1 := h.frames
  have h2 := h.base
  cases hs with
  | go f fs fs' base e m m' hr =>
    subst h1 h2
    have hF := hf f List.mem_cons_self
    rcases step_coh (e := e) (r := false) hF.1 hF.2 m m2 ha with ⟨e1, _⟩ | ⟨gs, n1, n2, P', e1, e2, hs, ha', hq⟩
    · rw [e1] at hr; cases hr
    · rw [e1] at hr
      cases hr
      refine ⟨_, .go f fs _ _ e m2 n2 e2, rfl, rfl, P', ?_, fun o ho => hs.sub o (hb o ho), ha'⟩
      intro f' hm
      rcases List.mem_append.1 hm with hm | hm
      · exact hq f' hm
      · exact ⟨(hf f' (List.mem_cons_of_mem _ hm)).1, fun o ho => hs.sub o ((hf f' (List.mem_cons_of_mem _ hm)).2 o ho)⟩
  | fail =>
    exact ⟨_, .fail _, rfl, h2, P, (by intro f hm; cases hm), hb, ha⟩

theorem Same.run {k : HeaderKind} {s1 s2 s1' : State} {es : List (Option Event)} (h : Same k s1 s2) (hr : RunGc k s1 es s1') :
    ∃ s2', Run k s2 es s2' ∧ Same k s1' s2' := by
  induction hr generalizing s2 with
  | nil s => exact ⟨s2, .nil s2, h⟩
  | cons s s1 s' e es hs _ ih =>
    obtain ⟨t, ht, h'⟩ := h.step hs
    obtain ⟨t', hr, h''⟩ := ih h'
    exact ⟨t', .cons _ _ _ _ _ ht hr, h''⟩
  | gc s s' m es hc _ ih => exact ih (h.gc hc)

theorem Same.refl {k : HeaderKind} {s : State} (hk : ∀ f ∈ s.frames, k = .pointer ∨ f.noSlice)
    (hw : ∀ o, Reach s.store (s.roots k) o → o < s.store.next) : Same k s s := by
  refine ⟨rfl, rfl, Reach s.store (s.roots k), ?_, ?_, rfl, fun _ _ => rfl, fun o ho o' h => .ref o o' ho (refs_eq _ ▸ h), hw⟩
  · intro f hm
    exact ⟨.inr (hk f hm), fun o ho => .root o (List.mem_append_left _ (List.mem_flatMap.2 ⟨f, hm, ho⟩))⟩
  · intro o ho
    exact .root o (List.mem_append_right _ ho)

end Jzon.Gc
