import Verif.Spec.EncCache
import Verif.Proof.Cache

/-!
# Invariants of the encoder cache
-/

set_option linter.unusedSimpArgs false

namespace Jzon

open Spec

section
variable {tt : EncTypes}

def elemDep (tt : EncTypes) (e : TypeId) : TypeId := if specialPtr tt e = true then tt.ptrTo e else e

def elemLink (tt : EncTypes) (m : CoderMap ECoder) (e : TypeId) : Option ECoder :=
  if specialPtr tt e = true then (m (tt.ptrTo e)).map .direct else m e

/-- The types that the encoder has links to. -/
def wantDeps (tt : EncTypes) : EncWant → List TypeId
  | .prim _ _ => []
  | .ptr e => [e]
  | .map e => [e]
  | .slice e => [elemDep tt e]
  | .node es _ => es.map (elemDep tt)

def wantLinks (tt : EncTypes) (m : CoderMap ECoder) : EncWant → List (Option ECoder)
  | .prim _ _ => []
  | .ptr e => [m e]
  | .map e => [m e]
  | .slice e => [elemLink tt m e]
  | .node es _ => es.map (elemLink tt m)

def wantRoot (m : CoderMap ECoder) (t : TypeId) : EncWant → Option ECoder
  | .prim p d => some (if d then .direct (.prim p) else .prim p)
  | .ptr e => m e
  | .map _ => (m t).map .direct
  | .slice _ => m t
  | .node _ d => if d then (m t).map .direct else m t

def wantPtr : EncWant → Bool
  | .ptr _ => true
  | _ => false

def wantPrim : EncWant → Bool
  | .prim _ _ => true
  | _ => false

theorem elemLink_congr {m m' : CoderMap ECoder} {e : TypeId} (h : m' (elemDep tt e) = m (elemDep tt e)) :
    elemLink tt m' e = elemLink tt m e := by
  unfold elemLink
  unfold elemDep at h
  by_cases hs : specialPtr tt e = true
  · rw [if_pos hs] at h ⊢; rw [if_pos hs, h]
  · rw [if_neg hs] at h ⊢; rw [if_neg hs, h]

theorem wantLinks_congr {m m' : CoderMap ECoder} {w : EncWant} (h : ∀ u ∈ wantDeps tt w, m' u = m u) :
    wantLinks tt m' w = wantLinks tt m w := by
  cases w with
  | prim => rfl
  | ptr e => simp [wantLinks, h e (by simp [wantDeps])]
  | map e => simp [wantLinks, h e (by simp [wantDeps])]
  | slice e => simp [wantLinks, elemLink_congr (h (elemDep tt e) (by simp [wantDeps]))]
  | node es d =>
    simp only [wantLinks]
    exact List.map_congr_left fun e he => elemLink_congr (h _ (List.mem_map.mpr ⟨e, he, rfl⟩))

theorem wantRoot_congr {m m' : CoderMap ECoder} {t : TypeId} {w : EncWant} (h : ∀ u ∈ wantDeps tt w, m' u = m u) (ht : m' t = m t) :
    wantRoot m' t w = wantRoot m t w := by
  cases w with
  | ptr e => simp [wantRoot, h e (by simp [wantDeps])]
  | _ => simp [wantRoot, ht]

/-- The entry for `t` is as it will be in the end. -/
structure EncFin (tt : EncTypes) (m : CoderMap ECoder) (h : List EncObj) (cache : CoderMap ECoder) (t : TypeId) (c : ECoder) : Prop where
  inner : (∃ p d, ewanted tt t = .prim p d ∧ c = .prim p) ∨
    (∃ a, wantPrim (ewanted tt t) = false ∧ c = .obj a ∧ h[a]? = some ⟨t, wantPtr (ewanted tt t), wantLinks tt m (ewanted tt t)⟩)
  root : cache t = wantRoot m t (ewanted tt t)
  deps : ∀ d ∈ wantDeps tt (ewanted tt t), ∃ x, m d = some x

theorem encFin_frame {m m' : CoderMap ECoder} {h h' : List EncObj} {cache cache' : CoderMap ECoder} {t : TypeId} {c : ECoder}
    (hf : EncFin tt m h cache t c) (hm : ∀ u ∈ wantDeps tt (ewanted tt t), m' u = m u) (ht : m' t = m t)
    (hh : ∀ (b : Nat) (o : EncObj), h[b]? = some o → o.ty = t → h'[b]? = some o) (hc : cache' t = cache t) : EncFin tt m' h' cache' t c := by
  refine ⟨?_, ?_, ?_⟩
  · rcases hf.inner with hi | ⟨a, h1, h2, h3⟩
    · exact .inl hi
    · exact .inr ⟨a, h1, h2, by rw [wantLinks_congr hm]; exact hh a _ h3 rfl⟩
  · rw [hc, wantRoot_congr hm ht]; exact hf.root
  · intro d hd
    rw [hm d hd]
    exact hf.deps d hd

def EncLoc.FreeOf (l : EncLoc) (t : TypeId) : Prop := ∀ a, (t, a) ∉ l.rebuild

structure EncIdle (tt : EncTypes) (g : EncGlob) (pub : CoderMap ECoder) : Prop where
  fin : ∀ t c, g.internal t = some c → EncFin tt g.internal g.heap pub t c
  cust : ∀ t p, tt.custom t = some p → ∃ c, g.internal t = some c
  dom : ∀ t c, pub t = some c → ∃ d, g.internal t = some d

structure EncBusy (tt : EncTypes) (g : EncGlob) (pub : CoderMap ECoder) (t0 : TypeId) (l : EncLoc) : Prop where
  fin : ∀ t c, g.internal t = some c → l.FreeOf t → EncFin tt g.internal g.heap l.cache t c
  cust : ∀ t p, tt.custom t = some p → ∃ c, g.internal t = some c
  dom : ∀ t c, l.cache t = some c → ∃ d, g.internal t = some d
  pubs : ∀ t c, pub t = some c → l.cache t = some c ∧ (∃ d, g.internal t = some d) ∧ l.FreeOf t ∧
    ∀ d ∈ wantDeps tt (ewanted tt t), ∃ y, pub d = some y
  early : l.stage = .create ∨ l.stage = .base64 → ∀ t c, g.internal t = some c → l.FreeOf t →
    ∀ d ∈ wantDeps tt (ewanted tt t), ∃ y, pub d = some y
  open_ : ∀ t a, (t, a) ∈ l.rebuild → pub t = none ∧ g.internal t = some (.obj a) ∧ tt.custom t = none ∧ (tt.shape t).linked = true ∧
    (∃ ls, g.heap[a]? = some ⟨t, (tt.shape t).isPtr, ls⟩) ∧ ∀ k ∈ tt.pushes t, (∃ d, g.internal k = some d) ∨ k ∈ l.queue
  goal : (∃ d, g.internal t0 = some d) ∨ t0 ∈ l.queue
  queue : l.stage ≠ .create → l.queue = []
  todoSub : ∀ x ∈ l.todo, x ∈ l.rebuild
  cov64 : l.stage = .base64 → ∀ t a, (t, a) ∈ l.rebuild → wantPrim (ewanted tt t) = true → (t, a) ∈ l.todo
  no64 : l.stage = .ptrs ∨ l.stage = .others → ∀ t a, (t, a) ∈ l.rebuild → wantPrim (ewanted tt t) = false
  covPtr : l.stage = .ptrs → ∀ t a, (t, a) ∈ l.rebuild → (tt.shape t).isPtr = true → (t, a) ∈ l.todo
  noPtr : l.stage = .others → ∀ t a, (t, a) ∈ l.rebuild → (tt.shape t).isPtr = false
  covOther : l.stage = .others → ∀ x ∈ l.rebuild, x ∈ l.todo

theorem freeOf_of_none {g : EncGlob} {pub : CoderMap ECoder} {t0 t : TypeId} {l : EncLoc} (h : EncBusy tt g pub t0 l)
    (ht : g.internal t = none) : l.FreeOf t := by
  intro a ha
  have := (h.open_ t a ha).2.1
  rw [ht] at this
  cases this

theorem custom_of_none {g : EncGlob} {pub : CoderMap ECoder} {t0 t : TypeId} {l : EncLoc} (h : EncBusy tt g pub t0 l)
    (ht : g.internal t = none) : tt.custom t = none := by
  cases hc : tt.custom t with
  | none => rfl
  | some p =>
    obtain ⟨c, h1⟩ := h.cust t p hc
    rw [ht] at h1
    cases h1

theorem cache_of_none {g : EncGlob} {pub : CoderMap ECoder} {t0 t : TypeId} {l : EncLoc} (h : EncBusy tt g pub t0 l)
    (ht : g.internal t = none) : l.cache t = none := by
  cases hc : l.cache t with
  | none => rfl
  | some c =>
    obtain ⟨d, h1⟩ := h.dom t c hc
    rw [ht] at h1
    cases h1

theorem pub_of_none {g : EncGlob} {pub : CoderMap ECoder} {t0 t : TypeId} {l : EncLoc} (h : EncBusy tt g pub t0 l)
    (ht : g.internal t = none) : pub t = none := by
  cases hc : pub t with
  | none => rfl
  | some c =>
    obtain ⟨d, h1⟩ := (h.pubs t c hc).2.1
    rw [ht] at h1
    cases h1

/-- A type is taken from the queue. -/
theorem mem_queue_tail {l : EncLoc} {m : CoderMap ECoder} {t u : TypeId} {q : List TypeId} (hq : l.queue = t :: q)
    (ht : ∃ d, m t = some d) (push : List TypeId) (h : (∃ d, m u = some d) ∨ u ∈ l.queue) :
    (∃ d, m u = some d) ∨ u ∈ pushAll push q := by
  rcases h with h | h
  · exact .inl h
  · rw [hq] at h
    rcases List.mem_cons.mp h with rfl | h
    · exact .inl ht
    · exact .inr (mem_pushAll.mpr (.inr h))

theorem encBusy_prim {g : EncGlob} {pub : CoderMap ECoder} {t0 t : TypeId} {l : EncLoc} {q push : List TypeId} {p : Nat} {d : Bool}
    (h : EncBusy tt g pub t0 l) (hs : l.stage = .create) (hq : l.queue = t :: q) (hc : g.internal t = none)
    (hw : ewanted tt t = .prim p d) :
    EncBusy tt { g with internal := g.internal.put t (.prim p) } pub t0
      { l with queue := pushAll push q, cache := l.cache.put t (if d then .direct (.prim p) else .prim p) } := by
  have hcc := cache_of_none h hc
  have hpt : ∃ x, (g.internal.put t (.prim p)) t = some x := ⟨_, put_same _ _ _⟩
  have mono : ∀ {u : TypeId}, (∃ x, g.internal u = some x) → ∃ x, (g.internal.put t (.prim p)) u = some x := by
    rintro u ⟨x, hx⟩
    exact ⟨x, put_mono hc hx⟩
  refine
    { fin := ?_, cust := fun u p' hp => mono (h.cust u p' hp), dom := ?_, pubs := ?_, early := ?_, open_ := ?_, goal := ?_,
      queue := fun hn => absurd hs hn, todoSub := h.todoSub, cov64 := h.cov64, no64 := h.no64, covPtr := h.covPtr,
      noPtr := h.noPtr, covOther := h.covOther }
  · intro u c hu hfree
    by_cases hut : u = t
    · subst hut
      simp only [put_same, Option.some.injEq] at hu
      refine ⟨.inl ⟨p, d, hw, hu.symm⟩, ?_, ?_⟩
      · rw [hw]; exact put_same _ _ _
      · intro d hd; rw [hw] at hd; cases hd
    · simp only [put_other _ _ hut] at hu
      have hf := h.fin u c hu hfree
      refine encFin_frame hf (fun v hv => ?_) (put_other _ _ hut) (fun b o hb _ => hb) (put_other _ _ hut)
      obtain ⟨x, hx⟩ := hf.deps v hv
      exact (put_mono hc hx).trans hx.symm
  · intro u c hu
    by_cases hut : u = t
    · subst hut; exact hpt
    · simp only [put_other _ _ hut] at hu
      exact mono (h.dom u c hu)
  · intro u c hu
    obtain ⟨h1, h2, h3, h4⟩ := h.pubs u c hu
    exact ⟨put_mono hcc h1, mono h2, h3, h4⟩
  · intro hst u c hu hfree
    by_cases hut : u = t
    · subst hut
      intro d hd; rw [hw] at hd; cases hd
    · simp only [put_other _ _ hut] at hu
      exact h.early hst u c hu hfree
  · intro u a hu
    obtain ⟨h1, h2, h3, h4, h5, h6⟩ := h.open_ u a hu
    refine ⟨h1, put_mono hc h2, h3, h4, h5, fun k hk => mem_queue_tail hq hpt push ?_⟩
    rcases h6 k hk with h7 | h7
    · exact .inl (mono h7)
    · exact .inr h7
  · refine mem_queue_tail hq hpt push ?_
    rcases h.goal with h7 | h7
    · exact .inl (mono h7)
    · exact .inr h7

theorem encBusy_linked {g : EncGlob} {pub : CoderMap ECoder} {t0 t : TypeId} {l : EncLoc} {q : List TypeId}
    (h : EncBusy tt g pub t0 l) (hs : l.stage = .create) (hq : l.queue = t :: q) (hc : g.internal t = none)
    (hsh : (tt.shape t).linked = true) :
    EncBusy tt { heap := g.heap ++ [⟨t, (tt.shape t).isPtr, []⟩], internal := g.internal.put t (.obj g.heap.length) } pub t0
      { l with queue := pushAll (tt.pushes t) q, rebuild := (t, g.heap.length) :: l.rebuild } := by
  have hpt : ∃ x, (g.internal.put t (.obj g.heap.length)) t = some x := ⟨_, put_same _ _ _⟩
  have mono : ∀ {u : TypeId}, (∃ x, g.internal u = some x) → ∃ x, (g.internal.put t (.obj g.heap.length)) u = some x := by
    rintro u ⟨x, hx⟩
    exact ⟨x, put_mono hc hx⟩
  have happ : ∀ {b : Nat} {o : EncObj}, g.heap[b]? = some o → (g.heap ++ [⟨t, (tt.shape t).isPtr, []⟩])[b]? = some o := by
    intro b o hb
    rw [List.getElem?_append_left (List.getElem?_eq_some_iff.mp hb).1]
    exact hb
  have hne : ∀ {u : TypeId}, EncLoc.FreeOf { l with queue := pushAll (tt.pushes t) q, rebuild := (t, g.heap.length) :: l.rebuild } u →
      u ≠ t ∧ l.FreeOf u := by
    intro u hu
    refine ⟨?_, fun a ha => hu a (List.mem_cons_of_mem _ ha)⟩
    rintro rfl
    exact hu g.heap.length (List.mem_cons_self ..)
  refine
    { fin := ?_, cust := fun u p' hp => mono (h.cust u p' hp), dom := fun u c hu => mono (h.dom u c hu), pubs := ?_, early := ?_,
      open_ := ?_, goal := ?_,
      queue := fun hn => absurd hs hn, todoSub := fun x hx => List.mem_cons_of_mem _ (h.todoSub x hx),
      cov64 := fun hn => absurd (hs.symm.trans hn) (by simp), no64 := ?_,
      covPtr := fun hn => absurd (hs.symm.trans hn) (by simp), noPtr := fun hn => absurd (hs.symm.trans hn) (by simp),
      covOther := fun hn => absurd (hs.symm.trans hn) (by simp) }
  · intro u c hu hfree
    obtain ⟨hut, hfree⟩ := hne hfree
    simp only [put_other _ _ hut] at hu
    have hf := h.fin u c hu hfree
    refine encFin_frame hf (fun v hv => ?_) (put_other _ _ hut) (fun b o hb _ => happ hb) rfl
    obtain ⟨x, hx⟩ := hf.deps v hv
    exact (put_mono hc hx).trans hx.symm
  · intro u c hu
    obtain ⟨h1, h2, h3, h4⟩ := h.pubs u c hu
    refine ⟨h1, mono h2, ?_, h4⟩
    intro a ha
    rcases List.mem_cons.mp ha with ha | ha
    · cases ha
      obtain ⟨x, hx⟩ := h2
      rw [hc] at hx
      cases hx
    · exact h3 a ha
  · intro hst u c hu hfree
    obtain ⟨hut, hfree⟩ := hne hfree
    simp only [put_other _ _ hut] at hu
    exact h.early hst u c hu hfree
  · intro u a hu
    rcases List.mem_cons.mp hu with hu | hu
    · cases hu
      exact ⟨pub_of_none h hc, put_same _ _ _, custom_of_none h hc, hsh, ⟨[], by simp⟩, fun k hk => .inr (mem_pushAll.mpr (.inl hk))⟩
    · obtain ⟨h1, h2, h3, h4, ⟨ls, h5⟩, h6⟩ := h.open_ u a hu
      refine ⟨h1, put_mono hc h2, h3, h4, ⟨ls, happ h5⟩, fun k hk => mem_queue_tail hq hpt _ ?_⟩
      rcases h6 k hk with h7 | h7
      · exact .inl (mono h7)
      · exact .inr h7
  · refine mem_queue_tail hq hpt _ ?_
    rcases h.goal with h7 | h7
    · exact .inl (mono h7)
    · exact .inr h7
  · rintro (hn | hn) <;> exact absurd (hs.symm.trans hn) (by simp)

/-! ## What the shapes and the wanted encoders have to do with each other -/

theorem wantPtr_iff (t : TypeId) : wantPtr (ewanted tt t) = true ↔ tt.custom t = none ∧ (tt.shape t).isPtr = true := by
  unfold ewanted
  cases tt.custom t with
  | some p => simp [wantPtr]
  | none =>
    cases tt.shape t with
    | slice e b => simp only []; split <;> simp [wantPtr, EncShape.isPtr]
    | _ => simp [wantPtr, EncShape.isPtr]

theorem ewanted_ptr {t e : TypeId} (hc : tt.custom t = none) (hs : tt.shape t = .ptr e) : ewanted tt t = .ptr e := by
  simp [ewanted, hc, hs]

theorem special_false {e : TypeId} (hok : EncTypesOk tt) (h : specialPtr tt e = false) :
    tt.custom (tt.ptrTo e) = none ∧ tt.shape (tt.ptrTo e) = .ptr e := by
  simp only [specialPtr, Bool.or_eq_false_iff, Option.isSome_eq_false_iff, Option.isNone_iff_eq_none, Bool.not_eq_false'] at h
  refine ⟨h.1, ?_⟩
  cases hs : tt.shape (tt.ptrTo e) with
  | ptr e' => rw [hok.ptr e e' hs]
  | _ => rw [hs] at h; simp [EncShape.isPtr] at h

theorem special_true {e : TypeId} (h : specialPtr tt e = true) : wantPtr (ewanted tt (tt.ptrTo e)) = false := by
  cases hw : wantPtr (ewanted tt (tt.ptrTo e)) with
  | false => rfl
  | true =>
    obtain ⟨h1, h2⟩ := (wantPtr_iff _).mp hw
    simp [specialPtr, h1, h2] at h

theorem plain_linked {t : TypeId} (hc : tt.custom t = none) (hs : (tt.shape t).linked = true) : plainCoder tt t = none := by
  unfold plainCoder
  rw [hc]
  cases hsh : tt.shape t <;> simp_all [EncShape.linked]

theorem plain_of_want {t : TypeId} (p : Nat) (hp : p ≠ base64Coder) :
    plainCoder tt t = some p ↔ ∃ d, ewanted tt t = .prim p d := by
  unfold plainCoder ewanted
  cases tt.custom t with
  | some p' => simp
  | none =>
    cases tt.shape t with
    | slice e b =>
      simp only []
      split
      · simp [Ne.symm hp]
      · simp
    | _ => simp

theorem wantPrim_linked {t : TypeId} (hc : tt.custom t = none) (hs : (tt.shape t).linked = true) :
    wantPrim (ewanted tt t) = true ↔
      ∃ e, tt.shape t = .slice e true ∧ specialPtr tt e = false ∧ plainCoder tt e = some uint8Coder := by
  unfold ewanted
  rw [hc]
  cases hsh : tt.shape t with
  | slice e b =>
    simp only []
    by_cases hcond : b = true ∧ specialPtr tt e = false ∧ plainCoder tt e = some uint8Coder
    · rw [if_pos hcond]
      obtain ⟨rfl, h1, h2⟩ := hcond
      simp [wantPrim, h1, h2]
    · rw [if_neg hcond]
      simp only [wantPrim, Bool.false_eq_true, EncShape.slice.injEq, false_iff]
      rintro ⟨e', ⟨rfl, rfl⟩, h⟩
      exact hcond ⟨rfl, h⟩
  | prim => rw [hsh] at hs; cases hs
  | native => rw [hsh] at hs; cases hs
  | _ => simp [wantPrim]

theorem ewanted_base64 {t : TypeId} (hc : tt.custom t = none) (hs : (tt.shape t).linked = true)
    (hw : wantPrim (ewanted tt t) = true) : ewanted tt t = .prim base64Coder false := by
  obtain ⟨e, h1, h2, h3⟩ := (wantPrim_linked hc hs).mp hw
  simp [ewanted, hc, h1, h2, h3]

section
variable {g : EncGlob} {pub : CoderMap ECoder} {t0 : TypeId} {l : EncLoc}

/-- What the test for `*pointerEncoder` tells. -/
theorem ptr_test (h : EncBusy tt g pub t0 l) {t : TypeId} {c : ECoder} (hc : g.internal t = some c) :
    (∃ b o, g.internal t = some (.obj b) ∧ g.heap[b]? = some o ∧ o.ptr = true) ↔ wantPtr (ewanted tt t) = true := by
  by_cases hfree : l.FreeOf t
  · have hf := h.fin t c hc hfree
    rcases hf.inner with ⟨p, d, h1, h2⟩ | ⟨a, h1, h2, h3⟩
    · subst h2
      rw [hc, h1]
      simp [wantPtr]
    · subst h2
      rw [hc]
      constructor
      · rintro ⟨b, o, h4, h5, h6⟩
        cases h4
        rw [h3] at h5
        cases h5
        exact h6
      · intro h4
        exact ⟨a, _, rfl, h3, h4⟩
  · obtain ⟨a, ha⟩ : ∃ a, (t, a) ∈ l.rebuild := Classical.byContradiction fun hn => hfree fun a ha => hn ⟨a, ha⟩
    obtain ⟨_, h2, h3, _, ⟨ls, h5⟩, _⟩ := h.open_ t a ha
    rw [wantPtr_iff, h2]
    constructor
    · rintro ⟨b, o, h6, h7, h8⟩
      cases h6
      rw [h5] at h7
      cases h7
      exact ⟨h3, h8⟩
    · rintro ⟨_, h6⟩
      exact ⟨a, _, rfl, h5, h6⟩

/-- Once the queue is empty, an element that is not special is there if the pointer to it is. -/
theorem elem_present (hok : EncTypesOk tt) (h : EncBusy tt g pub t0 l) (hq : l.queue = []) {e : TypeId}
    (hp : ∃ x, g.internal (tt.ptrTo e) = some x) (hs : specialPtr tt e = false) : ∃ x, g.internal e = some x := by
  obtain ⟨h1, h2⟩ := special_false hok hs
  obtain ⟨c, hc⟩ := hp
  by_cases hfree : l.FreeOf (tt.ptrTo e)
  · have hf := h.fin _ c hc hfree
    refine hf.deps e ?_
    rw [ewanted_ptr h1 h2]
    simp [wantDeps]
  · obtain ⟨a, ha⟩ : ∃ a, (tt.ptrTo e, a) ∈ l.rebuild := Classical.byContradiction fun hn => hfree fun a ha => hn ⟨a, ha⟩
    obtain ⟨_, _, _, _, _, h6⟩ := h.open_ _ a ha
    rcases h6 e (by simp [EncTypes.pushes, h2]) with h7 | h7
    · exact h7
    · rw [hq] at h7; cases h7

theorem elemDep_present (hok : EncTypesOk tt) (h : EncBusy tt g pub t0 l) (hq : l.queue = []) {e : TypeId}
    (hp : ∃ x, g.internal (tt.ptrTo e) = some x) : ∃ x, g.internal (elemDep tt e) = some x := by
  unfold elemDep
  by_cases hs : specialPtr tt e = true
  · rw [if_pos hs]; exact hp
  · rw [if_neg hs]; exact elem_present hok h hq hp (by simpa using hs)

/-- Once the queue is empty, all that a type has links to is there. -/
theorem deps_present (hok : EncTypesOk tt) (h : EncBusy tt g pub t0 l) (hq : l.queue = []) {t : TypeId} {a : Nat}
    (ha : (t, a) ∈ l.rebuild) : ∀ d ∈ wantDeps tt (ewanted tt t), ∃ x, g.internal d = some x := by
  obtain ⟨_, _, h3, h4, _, h6⟩ := h.open_ t a ha
  have h6 : ∀ k ∈ tt.pushes t, ∃ d, g.internal k = some d := by
    intro k hk
    rcases h6 k hk with h7 | h7
    · exact h7
    · rw [hq] at h7; cases h7
  intro d hd
  unfold ewanted at hd
  rw [h3] at hd
  cases hsh : tt.shape t with
  | prim => rw [hsh] at h4; cases h4
  | native => rw [hsh] at h4; cases h4
  | ptr e => simp only [hsh, wantDeps, List.mem_singleton] at hd; subst hd; exact h6 _ (by simp [EncTypes.pushes, hsh])
  | map e => simp only [hsh, wantDeps, List.mem_singleton] at hd; subst hd; exact h6 _ (by simp [EncTypes.pushes, hsh])
  | slice e b =>
    rw [hsh] at hd
    simp only [] at hd
    split at hd
    · cases hd
    · simp only [wantDeps, List.mem_singleton] at hd
      subst hd
      exact elemDep_present hok h hq (h6 _ (by simp [EncTypes.pushes, hsh]))
  | node es b =>
    simp only [hsh, wantDeps, List.mem_map] at hd
    obtain ⟨e, he, rfl⟩ := hd
    exact elemDep_present hok h hq (h6 _ (by simp only [EncTypes.pushes, hsh]; exact List.mem_map.mpr ⟨e, he, rfl⟩))

/-- The conditions for base64 that the code tests are the right ones. -/
theorem isBase64_iff (hok : EncTypesOk tt) (h : EncBusy tt g pub t0 l) (hq : l.queue = []) {t : TypeId} {a : Nat}
    (ha : (t, a) ∈ l.rebuild) : IsBase64 tt g t ↔ wantPrim (ewanted tt t) = true := by
  obtain ⟨_, _, h3, h4, _, h6⟩ := h.open_ t a ha
  rw [wantPrim_linked h3 h4]
  unfold IsBase64
  refine exists_congr fun e => and_congr_right fun hsh => ?_
  have hp : ∃ x, g.internal (tt.ptrTo e) = some x := by
    rcases h6 (tt.ptrTo e) (by simp [EncTypes.pushes, hsh]) with h7 | h7
    · exact h7
    · rw [hq] at h7; cases h7
  obtain ⟨c, hc⟩ := hp
  rw [ptr_test h hc]
  have hsp : wantPtr (ewanted tt (tt.ptrTo e)) = true ↔ specialPtr tt e = false := by
    rw [wantPtr_iff]
    simp only [specialPtr, Bool.or_eq_false_iff, Option.isSome_eq_false_iff, Option.isNone_iff_eq_none, Bool.not_eq_false']
  rw [hsp]
  refine and_congr_right fun hs => ?_
  obtain ⟨x, hx⟩ := elem_present hok h hq ⟨c, hc⟩ hs
  rw [hx]
  by_cases hfree : l.FreeOf e
  · have hf := h.fin e x hx hfree
    rw [plain_of_want uint8Coder (by decide)]
    rcases hf.inner with ⟨p, d, h1, h2⟩ | ⟨b, h1, h2, _⟩
    · subst h2
      rw [h1]
      simp
    · subst h2
      simp only [Option.some.injEq, reduceCtorEq, false_iff]
      rintro ⟨d, hd⟩
      rw [hd] at h1
      cases h1
  · obtain ⟨b, hb⟩ : ∃ b, (e, b) ∈ l.rebuild := Classical.byContradiction fun hn => hfree fun a ha => hn ⟨a, ha⟩
    obtain ⟨_, h2, h3, h4, _⟩ := h.open_ e b hb
    rw [plain_linked h3 h4]
    rw [hx] at h2
    cases h2
    simp

/-- Once the pointers are built, `preferPtrEncoder` finds the right encoder. -/
theorem preferPtr_eq (hok : EncTypesOk tt) (h : EncBusy tt g pub t0 l) (hst : l.stage = .others) {e : TypeId}
    (hp : ∃ x, g.internal (tt.ptrTo e) = some x) : preferPtr tt g e = elemLink tt g.internal e := by
  obtain ⟨c, hc⟩ := hp
  have hq := h.queue (by rw [hst]; simp)
  unfold preferPtr elemLink
  by_cases hs : specialPtr tt e = true
  · rw [if_pos hs, hc]
    have hnot : ¬∃ b o, g.internal (tt.ptrTo e) = some (.obj b) ∧ g.heap[b]? = some o ∧ o.ptr = true := by
      rw [ptr_test h hc, special_true hs]; simp
    rw [hc] at hnot
    cases c with
    | obj b =>
      simp only [Option.map_some]
      cases hb : g.heap[b]? with
      | none => rfl
      | some o =>
        simp only []
        rw [if_neg]
        intro ho
        exact hnot ⟨b, o, rfl, hb, ho⟩
    | _ => rfl
  · have hs : specialPtr tt e = false := by simpa using hs
    obtain ⟨h1, h2⟩ := special_false hok hs
    have hfree : l.FreeOf (tt.ptrTo e) := by
      intro a ha
      have := h.noPtr hst _ a ha
      rw [h2] at this
      cases this
    have hf := h.fin _ c hc hfree
    rw [if_neg (by rw [hs]; simp), hc]
    rcases hf.inner with ⟨p, d, h3, _⟩ | ⟨a, h3, h4, h5⟩
    · rw [ewanted_ptr h1 h2] at h3; cases h3
    · subst h4
      rw [ewanted_ptr h1 h2] at h5
      simp [h5, wantPtr, wantLinks]

theorem mem_filter_ne {x y : TypeId × Nat} {xs : List (TypeId × Nat)} : x ∈ xs.filter (· ≠ y) ↔ x ∈ xs ∧ x ≠ y := by
  simp [List.mem_filter]

/-- An entry of `rebuildMap` is finished. -/
theorem encBusy_finish {g' : EncGlob} {l' : EncLoc} {t : TypeId} {a : Nat} (h : EncBusy tt g pub t0 l) (ha : (t, a) ∈ l.rebuild)
    (hst : l.stage ≠ .create) (hst' : l'.stage = l.stage) (hr : l'.rebuild = l.rebuild.filter (· ≠ (t, a)))
    (htd : l'.todo = l.todo.filter (· ≠ (t, a))) (hqq : l'.queue = l.queue)
    (hm : ∀ u, u ≠ t → g'.internal u = g.internal u) (hm' : ∃ x, g'.internal t = some x)
    (hm64 : l.stage ≠ .base64 → g'.internal t = g.internal t)
    (hh : ∀ (b : Nat) (o : EncObj), g.heap[b]? = some o → o.ty ≠ t → g'.heap[b]? = some o)
    (hc : ∀ u, u ≠ t → l'.cache u = l.cache u)
    (hfin : ∀ c, g'.internal t = some c → EncFin tt g'.internal g'.heap l'.cache t c)
    (hdeps : l.stage = .base64 → wantDeps tt (ewanted tt t) = []) : EncBusy tt g' pub t0 l' := by
  obtain ⟨hpt, hit, hct, hlt, hot, hkt⟩ := h.open_ t a ha
  have hq : l.queue = [] := h.queue hst
  have uniq : ∀ b, (t, b) ∈ l.rebuild → b = a := by
    intro b hb
    have := (h.open_ t b hb).2.1
    rw [hit] at this
    cases this
    rfl
  have hsub : ∀ {u b}, (u, b) ∈ l'.rebuild → (u, b) ∈ l.rebuild ∧ u ≠ t := by
    intro u b hb
    rw [hr, mem_filter_ne] at hb
    refine ⟨hb.1, ?_⟩
    rintro rfl
    exact hb.2 (by rw [uniq b hb.1])
  have hfree : ∀ {u}, u ≠ t → l'.FreeOf u → l.FreeOf u := by
    intro u hu hf b hb
    refine hf b ?_
    rw [hr, mem_filter_ne]
    exact ⟨hb, by intro e; cases e; exact hu rfl⟩
  have hpres : ∀ {u}, (∃ x, g.internal u = some x) → ∃ x, g'.internal u = some x := by
    intro u hu
    by_cases hut : u = t
    · subst hut; exact hm'
    · rw [hm u hut]; exact hu
  have htodo : ∀ {u b}, u ≠ t → (u, b) ∈ l.todo → (u, b) ∈ l'.todo := by
    intro u b hu hb
    rw [htd, mem_filter_ne]
    exact ⟨hb, by intro e; cases e; exact hu rfl⟩
  refine
    { fin := ?_, cust := fun u p hp => hpres (h.cust u p hp), dom := ?_, pubs := ?_, early := ?_, open_ := ?_, goal := ?_,
      queue := fun _ => by rw [hqq]; exact hq, todoSub := ?_, cov64 := ?_, no64 := ?_, covPtr := ?_, noPtr := ?_, covOther := ?_ }
  · intro u c hu hf
    by_cases hut : u = t
    · subst hut; exact hfin c hu
    · have hu' : g.internal u = some c := by rw [← hm u hut]; exact hu
      have hff := h.fin u c hu' (hfree hut hf)
      refine encFin_frame hff (fun v hv => ?_) (hm u hut) (fun b o hb ho => hh b o hb (by rw [ho]; exact hut)) (hc u hut)
      by_cases hvt : v = t
      · subst hvt
        by_cases h64 : l.stage = .base64
        · obtain ⟨y, hy⟩ := h.early (.inr h64) u c hu' (hfree hut hf) v hv
          rw [hpt] at hy
          cases hy
        · exact hm64 h64
      · exact hm v hvt
  · intro u c hu
    by_cases hut : u = t
    · subst hut; exact hm'
    · rw [hc u hut] at hu
      exact hpres (h.dom u c hu)
  · intro u c hu
    have hut : u ≠ t := by rintro rfl; rw [hpt] at hu; cases hu
    obtain ⟨h1, h2, h3, h4⟩ := h.pubs u c hu
    refine ⟨by rw [hc u hut]; exact h1, hpres h2, fun b hb => h3 b (hsub hb).1, h4⟩
  · intro hs u c hu hf
    rw [hst'] at hs
    by_cases hut : u = t
    · subst hut
      intro d hd
      rw [hdeps (by rcases hs with hs | hs; exact absurd hs hst; exact hs)] at hd
      cases hd
    · have hu' : g.internal u = some c := by rw [← hm u hut]; exact hu
      exact h.early hs u c hu' (hfree hut hf)
  · intro u b hb
    obtain ⟨hb, hut⟩ := hsub hb
    obtain ⟨h1, h2, h3, h4, ⟨ls, h5⟩, h6⟩ := h.open_ u b hb
    refine ⟨h1, by rw [hm u hut]; exact h2, h3, h4, ⟨ls, hh b _ h5 hut⟩, fun k hk => ?_⟩
    rcases h6 k hk with h7 | h7
    · exact .inl (hpres h7)
    · rw [hq] at h7; cases h7
  · rcases h.goal with h7 | h7
    · exact .inl (hpres h7)
    · rw [hq] at h7; cases h7
  · intro x hx
    rw [htd, mem_filter_ne] at hx
    rw [hr, mem_filter_ne]
    exact ⟨h.todoSub x hx.1, hx.2⟩
  · intro hs u b hb hw
    obtain ⟨hb, hut⟩ := hsub hb
    exact htodo hut (h.cov64 (hst' ▸ hs) u b hb hw)
  · intro hs u b hb
    rw [hst'] at hs
    exact h.no64 hs u b (hsub hb).1
  · intro hs u b hb hw
    obtain ⟨hb, hut⟩ := hsub hb
    exact htodo hut (h.covPtr (hst' ▸ hs) u b hb hw)
  · intro hs u b hb
    exact h.noPtr (hst' ▸ hs) u b (hsub hb).1
  · intro hs x hx
    obtain ⟨u, b⟩ := x
    obtain ⟨hb, hut⟩ := hsub hx
    exact htodo hut (h.covOther (hst' ▸ hs) (u, b) hb)

/-- An entry of `rebuildMap` is left as it is. -/
theorem encBusy_skip {t : TypeId} {a : Nat} (h : EncBusy tt g pub t0 l) (h64 : l.stage = .base64 → wantPrim (ewanted tt t) = false)
    (hptr : l.stage = .ptrs → (tt.shape t).isPtr = false) (hoth : l.stage ≠ .others) :
    EncBusy tt g pub t0 { l with todo := l.todo.filter (· ≠ (t, a)) } :=
  { h with
    todoSub := fun x hx => h.todoSub x (mem_filter_ne.mp hx).1
    cov64 := by
      intro hs u b hb hw
      refine mem_filter_ne.mpr ⟨h.cov64 hs u b hb hw, ?_⟩
      intro e
      cases e
      rw [h64 hs] at hw
      cases hw
    covPtr := by
      intro hs u b hb hw
      refine mem_filter_ne.mpr ⟨h.covPtr hs u b hb hw, ?_⟩
      intro e
      cases e
      rw [hptr hs] at hw
      cases hw
    covOther := fun hs => absurd hs hoth }

theorem heap_set_other {h : List EncObj} {a b : Nat} {t : TypeId} {pt : Bool} {ls : List (Option ECoder)} {o o' : EncObj}
    (ha : h[a]? = some ⟨t, pt, ls⟩) (hb : h[b]? = some o) (hne : o.ty ≠ t) : (h.set a o')[b]? = some o := by
  have : a ≠ b := by
    rintro rfl
    rw [ha] at hb
    cases hb
    exact hne rfl
  rw [List.getElem?_set_ne this]
  exact hb

theorem encBusy_step (hok : EncTypesOk tt) {g' : EncGlob} {l' : EncLoc} (h : EncBusy tt g pub t0 l) (hs : EncStep tt g l g' l') :
    EncBusy tt g' pub t0 l' := by
  cases hs with
  | visited t q c hs hq hc =>
    have tail : ∀ {u}, ((∃ d, g.internal u = some d) ∨ u ∈ l.queue) → (∃ d, g.internal u = some d) ∨ u ∈ q := by
      intro u hu
      rcases hu with hu | hu
      · exact .inl hu
      · rw [hq] at hu
        rcases List.mem_cons.mp hu with rfl | hu
        · exact .inl ⟨c, hc⟩
        · exact .inr hu
    refine { h with open_ := ?_, goal := tail h.goal, queue := fun hn => absurd hs hn }
    intro u a hu
    obtain ⟨h1, h2, h3, h4, h5, h6⟩ := h.open_ u a hu
    exact ⟨h1, h2, h3, h4, h5, fun k hk => tail (h6 k hk)⟩
  | prim t q p d push hs hq hc hsh =>
    exact encBusy_prim h hs hq hc (by simp [ewanted, custom_of_none h hc, hsh])
  | nativeCached t q k p c hs hq hc hsh hk =>
    have hfree : l.FreeOf k := by
      intro a ha
      have := (h.open_ k a ha).2.2.2.1
      rw [hok.native t k p hsh] at this
      cases this
    have hwk : ewanted tt k = .prim ((tt.custom k).getD p) false := by
      unfold ewanted
      cases hck : tt.custom k with
      | some p' => rfl
      | none => simp [hok.native t k p hsh, hck]
    have hcp : c = .prim ((tt.custom k).getD p) := by
      rcases (h.fin k c hk hfree).inner with ⟨p', d, h1, h2⟩ | ⟨a, h1, _⟩
      · rw [hwk] at h1
        cases h1
        exact h2
      · rw [hwk] at h1; cases h1
    subst hcp
    exact encBusy_prim (push := []) (d := false) h hs hq hc (by simp [ewanted, custom_of_none h hc, hsh])
  | native t q k p hs hq hc hsh hk =>
    exact encBusy_prim (push := []) (d := false) h hs hq hc (by simp [ewanted, custom_of_none h hc, hsh, custom_of_none h hk])
  | linked t q hs hq hc hsh => exact encBusy_linked h hs hq hc hsh
  | toBase64 hs hq =>
    refine { h with early := fun _ => h.early (.inl hs), queue := fun _ => hq, todoSub := fun x hx => hx,
                    cov64 := fun _ t a ha _ => ha, no64 := ?_, covPtr := ?_, noPtr := ?_, covOther := ?_ }
    · rintro (hn | hn) <;> cases hn
    · intro hn; cases hn
    · intro hn; cases hn
    · intro hn; cases hn
  | base64 t a hs hm hb =>
    have ha := h.todoSub _ hm
    have hst : l.stage ≠ .create := by rw [hs]; simp
    obtain ⟨_, _, h3, h4, _, _⟩ := h.open_ t a ha
    have hw := ewanted_base64 h3 h4 ((isBase64_iff hok h (h.queue hst) ha).mp hb)
    refine encBusy_finish h ha hst rfl rfl rfl rfl (fun u hu => put_other _ _ hu) ⟨_, put_same _ _ _⟩ (fun hn => absurd hs hn)
      (fun b o hb _ => hb) (fun u hu => put_other _ _ hu) ?_ (fun _ => by rw [hw]; rfl)
    intro c hc
    simp only [put_same, Option.some.injEq] at hc
    refine ⟨.inl ⟨_, _, hw, hc.symm⟩, by rw [hw]; exact put_same _ _ _, ?_⟩
    intro d hd
    rw [hw] at hd
    cases hd
  | skipBase64 t a hs hm hb =>
    have ha := h.todoSub _ hm
    refine encBusy_skip h (fun _ => ?_) (fun hn => absurd (hs.symm.trans hn) (by simp)) (by rw [hs]; simp)
    cases hw : wantPrim (ewanted tt t) with
    | false => rfl
    | true => exact absurd ((isBase64_iff hok h (h.queue (by rw [hs]; simp)) ha).mpr hw) hb
  | toPtrs hs ht =>
    refine { h with early := ?_, queue := fun _ => h.queue (by rw [hs]; simp), todoSub := fun x hx => hx,
                    cov64 := ?_, no64 := ?_, covPtr := fun _ t a ha _ => ha, noPtr := ?_, covOther := ?_ }
    · rintro (hn | hn) <;> cases hn
    · intro hn; cases hn
    · intro _ t a ha
      cases hw : wantPrim (ewanted tt t) with
      | false => rfl
      | true =>
        have := h.cov64 hs t a ha hw
        rw [ht] at this
        cases this
    · intro hn; cases hn
    · intro hn; cases hn
  | ptr t a e hs hm hsh =>
    have ha := h.todoSub _ hm
    have hst : l.stage ≠ .create := by rw [hs]; simp
    obtain ⟨_, h2, h3, h4, ⟨ls, h5⟩, h6⟩ := h.open_ t a ha
    have hw := ewanted_ptr h3 hsh
    refine encBusy_finish h ha hst rfl rfl rfl rfl (fun u hu => rfl) ⟨_, h2⟩ (fun _ => rfl)
      (fun b o hb ho => heap_set_other h5 hb ho) (fun u hu => by simp [CoderMap.set, hu]) ?_
      (fun hn => absurd (hs.symm.trans hn) (by simp))
    intro c hc
    have hc : g.internal t = some c := hc
    rw [h2] at hc
    cases hc
    refine ⟨.inr ⟨a, by rw [hw]; rfl, rfl, ?_⟩, ?_, deps_present hok h (h.queue hst) ha⟩
    · rw [hw, List.getElem?_set_self (List.getElem?_eq_some_iff.mp h5).1]
      rfl
    · rw [hw]; simp [CoderMap.set, wantRoot]
  | skipPtr t a hs hm hsh =>
    exact encBusy_skip h (fun hn => absurd (hs.symm.trans hn) (by simp)) (fun _ => hsh) (by rw [hs]; simp)
  | toOthers hs ht =>
    refine { h with early := ?_, queue := fun _ => h.queue (by rw [hs]; simp), todoSub := fun x hx => hx,
                    cov64 := ?_, no64 := fun _ => h.no64 (.inl hs), covPtr := ?_, noPtr := ?_, covOther := fun _ x hx => hx }
    · rintro (hn | hn) <;> cases hn
    · intro hn; cases hn
    · intro hn; cases hn
    · intro _ t a ha
      cases hw : (tt.shape t).isPtr with
      | false => rfl
      | true =>
        have := h.covPtr hs t a ha hw
        rw [ht] at this
        cases this
  | other t a hs hm =>
    have ha := h.todoSub _ hm
    have hst : l.stage ≠ .create := by rw [hs]; simp
    have hq := h.queue hst
    obtain ⟨_, h2, h3, h4, ⟨ls, h5⟩, h6⟩ := h.open_ t a ha
    have h6 : ∀ k ∈ tt.pushes t, ∃ d, g.internal k = some d := by
      intro k hk
      rcases h6 k hk with h7 | h7
      · exact h7
      · rw [hq] at h7; cases h7
    have hnp := h.noPtr hs t a ha
    have hnw := h.no64 (.inr hs) t a ha
    have hboth : wantLinks tt g.internal (ewanted tt t) = otherLinks tt g (tt.shape t) ∧
        wantRoot g.internal t (ewanted tt t) = some (otherRoot a (tt.shape t)) ∧ wantPtr (ewanted tt t) = false := by
      unfold ewanted at hnw ⊢
      rw [h3] at hnw ⊢
      cases hsh : tt.shape t with
      | prim => rw [hsh] at h4; cases h4
      | native => rw [hsh] at h4; cases h4
      | ptr e => rw [hsh] at hnp; cases hnp
      | map e => simp [wantLinks, otherLinks, wantRoot, otherRoot, wantPtr, h2]
      | slice e b =>
        rw [hsh] at hnw
        simp only [] at hnw ⊢
        split at hnw
        · cases hnw
        · rename_i hcond
          rw [if_neg hcond]
          simp [wantLinks, otherLinks, wantRoot, otherRoot, wantPtr, h2, preferPtr_eq hok h hs (h6 (tt.ptrTo e) (by simp [EncTypes.pushes, hsh]))]
      | node es b =>
        refine ⟨?_, ?_, rfl⟩
        · simp only [wantLinks, otherLinks]
          refine List.map_congr_left fun e he => (preferPtr_eq hok h hs (h6 _ ?_)).symm
          simp only [EncTypes.pushes, hsh]
          exact List.mem_map.mpr ⟨e, he, rfl⟩
        · cases b <;> simp [wantRoot, otherRoot, h2]
    refine encBusy_finish h ha hst rfl rfl rfl rfl (fun u hu => rfl) ⟨_, h2⟩ (fun _ => rfl)
      (fun b o hb ho => heap_set_other h5 hb ho) (fun u hu => put_other _ _ hu) ?_
      (fun hn => absurd (hs.symm.trans hn) (by simp))
    intro c hc
    have hc : g.internal t = some c := hc
    rw [h2] at hc
    cases hc
    refine ⟨.inr ⟨a, hnw, rfl, ?_⟩, ?_, deps_present hok h hq ha⟩
    · rw [List.getElem?_set_self (List.getElem?_eq_some_iff.mp h5).1, hboth.1, hboth.2.2]
    · rw [hboth.2.1]; exact put_same _ _ _

end

theorem root_present {m cache : CoderMap ECoder} {h : List EncObj} {t : TypeId} {c : ECoder} (hf : EncFin tt m h cache t c)
    (hc : m t = some c) : ∃ d, cache t = some d := by
  have hr := hf.root
  have hd := hf.deps
  cases hw : ewanted tt t with
  | prim p d => rw [hw] at hr; exact ⟨_, hr⟩
  | ptr e =>
    rw [hw] at hr hd
    obtain ⟨x, hx⟩ := hd e (by simp [wantDeps])
    exact ⟨x, hr.trans hx⟩
  | map e => rw [hw] at hr; exact ⟨_, hr.trans (by simp only [wantRoot, hc]; rfl)⟩
  | slice e => rw [hw] at hr; exact ⟨_, hr.trans hc⟩
  | node es d =>
    rw [hw] at hr
    cases d with
    | true => exact ⟨_, hr.trans (by simp only [wantRoot, hc]; rfl)⟩
    | false => exact ⟨_, hr.trans (by simp only [wantRoot]; exact hc)⟩

/-- What is needed of the construction of encoders. -/
def encLaws (hok : EncTypesOk tt) : CacheLaws (encBuilder tt) where
  Idle := EncIdle tt
  Busy := EncBusy tt
  start := by
    intro g pub t h hn
    refine { fin := fun u c hu _ => h.fin u c hu, cust := h.cust, dom := h.dom, pubs := ?_, early := ?_, open_ := ?_, goal := ?_,
             queue := ?_, todoSub := ?_, cov64 := ?_, no64 := ?_, covPtr := ?_, noPtr := ?_, covOther := ?_ }
    · intro u c hu
      obtain ⟨d, hd⟩ := h.dom u c hu
      refine ⟨hu, ⟨d, hd⟩, ?_, ?_⟩
      · intro a ha; cases ha
      · intro v hv
        obtain ⟨x, hx⟩ := (h.fin u d hd).deps v hv
        exact root_present (h.fin v x hx) hx
    · intro _ u c hu _ v hv
      obtain ⟨x, hx⟩ := (h.fin u c hu).deps v hv
      exact root_present (h.fin v x hx) hx
    · intro u a ha; cases ha
    · exact .inr (List.mem_singleton.mpr rfl)
    · intro hn; exact absurd rfl hn
    · intro x hx; cases hx
    · intro hn; cases hn
    · rintro (hn | hn) <;> cases hn
    · intro hn; cases hn
    · intro hn; cases hn
    · intro hn; cases hn
  step := encBusy_step hok
  done := by
    intro g pub t l m h hd
    simp only [encBuilder] at hd
    split at hd
    · rename_i hq
      cases hd
      have hfree : ∀ u, l.FreeOf u := by
        intro u a ha
        have := h.covOther hq.1 _ ha
        rw [hq.2] at this
        cases this
      refine ⟨⟨fun u c hu => h.fin u c hu (hfree u), h.cust, h.dom⟩, fun u c hu => (h.pubs u c hu).1, ?_⟩
      rcases h.goal with ⟨d, hd⟩ | hd
      · exact root_present (h.fin t d hd (hfree t)) hd
      · rw [h.queue (by rw [hq.1]; simp)] at hd; cases hd
    · cases hd

theorem encInit_inv (hok : EncTypesOk tt) : CacheInv (encLaws hok) (encInit tt) := by
  refine ⟨fun _ _ => trivial, fun _ => ?_, ?_, ?_⟩
  · refine EncIdle.mk ?_ ?_ ?_
    · intro t c hc
      simp only [encInit, Option.map_eq_some_iff] at hc
      obtain ⟨p, h1, h2⟩ := hc
      have hw : ewanted tt t = .prim p false := by simp [ewanted, h1]
      refine ⟨.inl ⟨p, false, hw, h2.symm⟩, ?_, ?_⟩
      · rw [hw]; simp [encInit, h1, wantRoot]
      · intro d hd; rw [hw] at hd; cases hd
    · intro t p hp
      exact ⟨.prim p, by simp [encInit, hp]⟩
    · intro t c hc
      exact ⟨c, hc⟩
  · intro j hj
    cases hj
  · intro x hx
    cases hx

/-! ## What is published -/

/-- The published part, whoever holds the lock. -/
def EncPub (tt : EncTypes) (g : EncGlob) (pub : CoderMap ECoder) : Prop :=
  ∀ t r, pub t = some r → (∃ c, g.internal t = some c ∧ EncFin tt g.internal g.heap pub t c) ∧
    ∀ d ∈ wantDeps tt (ewanted tt t), ∃ y, pub d = some y

theorem encPub_idle {g : EncGlob} {pub : CoderMap ECoder} (h : EncIdle tt g pub) : EncPub tt g pub := by
  intro t r hr
  obtain ⟨c, hc⟩ := h.dom t r hr
  refine ⟨⟨c, hc, h.fin t c hc⟩, fun d hd => ?_⟩
  obtain ⟨x, hx⟩ := (h.fin t c hc).deps d hd
  exact root_present (h.fin d x hx) hx

theorem encPub_busy {g : EncGlob} {pub : CoderMap ECoder} {t0 : TypeId} {l : EncLoc} (h : EncBusy tt g pub t0 l) : EncPub tt g pub := by
  intro t r hr
  obtain ⟨h1, ⟨c, hc⟩, h3, h4⟩ := h.pubs t r hr
  exact ⟨⟨c, hc, encFin_frame (h.fin t c hc h3) (fun _ _ => rfl) rfl (fun _ _ hb _ => hb) (hr.trans h1.symm)⟩, h4⟩

theorem encPub_of_inv {hok : EncTypesOk tt} {s : CacheState ECoder EncGlob EncLoc} (h : CacheInv (encLaws hok) s) :
    EncPub tt s.glob s.pub := by
  cases hl : s.lock with
  | none => exact encPub_idle (h.free hl)
  | some j =>
    have := h.held j hl
    cases hp : s.phase j with
    | idle => rw [hp] at this; exact this.elim
    | wait t => rw [hp] at this; exact this.elim
    | locked t => rw [hp] at this; exact encPub_idle this
    | building t l => rw [hp] at this; exact encPub_busy this
    | leaving t c => rw [hp] at this; exact encPub_idle this.1

theorem map_some_of {α β : Type} {f : α → Option β} {xs : List α} (h : ∀ x ∈ xs, ∃ y, f x = some y) :
    ∃ ys : List β, xs.map f = ys.map some := by
  induction xs with
  | nil => exact ⟨[], rfl⟩
  | cons x xs ih =>
    obtain ⟨y, hy⟩ := h x (by simp)
    obtain ⟨ys, hys⟩ := ih fun x hx => h x (by simp [hx])
    exact ⟨y :: ys, by simp [hy, hys]⟩

theorem encodes_of_pub {g : EncGlob} {pub : CoderMap ECoder} (h : EncPub tt g pub) :
    ∀ n t r c, pub t = some r → g.internal t = some c → EncodesAt tt g.heap n t c
  | 0, _, _, _, _, _ => trivial
  | n + 1, t, r, c, hr, hc => by
    obtain ⟨⟨c', hc', hf⟩, hd⟩ := h t r hr
    rw [hc] at hc'
    cases hc'
    have dep : ∀ e, e ∈ wantDeps tt (ewanted tt t) → ∃ x, g.internal e = some x ∧ EncodesAt tt g.heap n e x := by
      intro e he
      obtain ⟨y, hy⟩ := hd e he
      obtain ⟨⟨x, hx, _⟩, _⟩ := h e y hy
      exact ⟨x, hx, encodes_of_pub h n e y x hy hx⟩
    have elem : ∀ e, elemDep tt e ∈ wantDeps tt (ewanted tt t) → ∃ x, elemLink tt g.internal e = some x ∧
        if specialPtr tt e = true then ∃ y, x = .direct y ∧ EncodesAt tt g.heap n (tt.ptrTo e) y else EncodesAt tt g.heap n e x := by
      intro e he
      obtain ⟨x, h1, h2⟩ := dep _ he
      unfold elemDep at h1 h2
      unfold elemLink
      by_cases hs : specialPtr tt e = true
      · rw [if_pos hs] at h1 h2
        refine ⟨.direct x, by rw [if_pos hs, h1]; rfl, ?_⟩
        rw [if_pos hs]
        exact ⟨x, rfl, h2⟩
      · rw [if_neg hs] at h1 h2
        refine ⟨x, by rw [if_neg hs, h1], ?_⟩
        rw [if_neg hs]
        exact h2
    unfold EncodesAt
    rcases hf.inner with ⟨p, d, h1, h2⟩ | ⟨a, h1, h2, h3⟩
    · simp only [h1]; exact h2
    · cases hw : ewanted tt t with
      | prim p d => rw [hw] at h1; cases h1
      | ptr e =>
        rw [hw] at h3 dep
        obtain ⟨x, h4, h5⟩ := dep e (by simp [wantDeps])
        exact ⟨a, x, h2, by rw [h3]; simp [wantPtr, wantLinks, h4], h5⟩
      | map e =>
        rw [hw] at h3 dep
        obtain ⟨x, h4, h5⟩ := dep e (by simp [wantDeps])
        exact ⟨a, x, h2, by rw [h3]; simp [wantPtr, wantLinks, h4], h5⟩
      | slice e =>
        rw [hw] at h3 elem
        obtain ⟨x, h4, h5⟩ := elem e (by simp [wantDeps])
        exact ⟨a, x, h2, by rw [h3]; simp [wantPtr, wantLinks, h4], h5⟩
      | node es b =>
        rw [hw] at h3 elem
        have elem : ∀ e ∈ es, ∃ x, elemLink tt g.internal e = some x ∧
            if specialPtr tt e = true then ∃ y, x = .direct y ∧ EncodesAt tt g.heap n (tt.ptrTo e) y else EncodesAt tt g.heap n e x :=
          fun e he => elem e (List.mem_map.mpr ⟨e, he, rfl⟩)
        obtain ⟨ds, hds⟩ := map_some_of (f := elemLink tt g.internal) (xs := es) fun e he => by
          obtain ⟨x, hx, _⟩ := elem e he
          exact ⟨x, hx⟩
        refine ⟨a, ds, h2, by rw [h3, ← hds]; rfl, by have := congrArg List.length hds; simpa using this.symm, ?_⟩
        intro i e d he hd'
        obtain ⟨x, hx, h5⟩ := elem e (List.mem_of_getElem? he)
        have h6 := congrArg (·[i]?) hds
        simp only [List.getElem?_map, he, hd', Option.map_some, Option.some.injEq] at h6
        rw [hx] at h6
        cases h6
        exact h5

theorem encodesRoot_of_pub {g : EncGlob} {pub : CoderMap ECoder} (h : EncPub tt g pub) (n : Nat) {t : TypeId} {r : ECoder}
    (hr : pub t = some r) : EncodesRoot tt g.heap n t r := by
  obtain ⟨⟨c, hc, hf⟩, hd⟩ := h t r hr
  have hroot := hf.root
  rw [hr] at hroot
  have hself := encodes_of_pub h n t r c hr hc
  unfold EncodesRoot
  cases hw : ewanted tt t with
  | prim p d => rw [hw] at hroot; simp only [wantRoot, Option.some.injEq] at hroot; exact hroot
  | ptr e =>
    rw [hw] at hroot hd
    obtain ⟨y, hy⟩ := hd e (by simp [wantDeps])
    exact encodes_of_pub h n e y r hy hroot.symm
  | map e =>
    rw [hw] at hroot
    simp only [wantRoot, hc, Option.map_some, Option.some.injEq] at hroot
    exact ⟨c, hroot, hself⟩
  | slice e =>
    rw [hw] at hroot
    simp only [wantRoot, hc, Option.some.injEq] at hroot
    subst hroot
    exact hself
  | node es d =>
    rw [hw] at hroot
    cases d with
    | true =>
      simp only [wantRoot, hc, if_true, Option.map_some, Option.some.injEq] at hroot
      exact ⟨c, hroot, hself⟩
    | false =>
      simp only [wantRoot, hc, Bool.false_eq_true, if_false, Option.some.injEq] at hroot
      subst hroot
      exact hself

/-- The coder is the one of a published type, perhaps inside a `directEncoder`. -/
def PubCoder (g : EncGlob) (pub : CoderMap ECoder) (c : ECoder) : Prop :=
  ∃ u r, pub u = some r ∧ (g.internal u = some c ∨ ∃ x, c = .direct x ∧ g.internal u = some x)

theorem pubCoder_elem {g : EncGlob} {pub : CoderMap ECoder} {e : TypeId} {c : ECoder} (hd : ∃ y, pub (elemDep tt e) = some y)
    (hc : elemLink tt g.internal e = some c) : PubCoder g pub c := by
  obtain ⟨y, hy⟩ := hd
  refine ⟨_, y, hy, ?_⟩
  unfold elemLink at hc
  unfold elemDep
  by_cases hs : specialPtr tt e = true
  · rw [if_pos hs] at hc ⊢
    simp only [Option.map_eq_some_iff] at hc
    obtain ⟨x, h1, h2⟩ := hc
    exact .inr ⟨x, h2.symm, h1⟩
  · rw [if_neg hs] at hc ⊢
    exact .inl hc

theorem pubCoder_root {g : EncGlob} {pub : CoderMap ECoder} (h : EncPub tt g pub) {t : TypeId} {r : ECoder} (hr : pub t = some r) :
    PubCoder g pub r := by
  obtain ⟨⟨c, hc, hf⟩, hd⟩ := h t r hr
  have hroot := hf.root
  rw [hr] at hroot
  cases hw : ewanted tt t with
  | prim p d =>
    rw [hw] at hroot
    have hcp : c = .prim p := by
      rcases hf.inner with ⟨p', d', h1, h2⟩ | ⟨a, h1, _⟩
      · rw [hw] at h1; cases h1; exact h2
      · rw [hw] at h1; cases h1
    subst hcp
    simp only [wantRoot, Option.some.injEq] at hroot
    cases d with
    | true => exact ⟨t, r, hr, .inr ⟨_, hroot, hc⟩⟩
    | false => exact ⟨t, r, hr, .inl (by rw [hc, hroot]; rfl)⟩
  | ptr e =>
    rw [hw] at hroot hd
    obtain ⟨y, hy⟩ := hd e (by simp [wantDeps])
    exact ⟨e, y, hy, .inl hroot.symm⟩
  | map e =>
    rw [hw] at hroot
    simp only [wantRoot, hc, Option.map_some, Option.some.injEq] at hroot
    exact ⟨t, r, hr, .inr ⟨c, hroot, hc⟩⟩
  | slice e => rw [hw] at hroot; exact ⟨t, r, hr, .inl hroot.symm⟩
  | node es d =>
    rw [hw] at hroot
    cases d with
    | true =>
      simp only [wantRoot, hc, if_true, Option.map_some, Option.some.injEq] at hroot
      exact ⟨t, r, hr, .inr ⟨c, hroot, hc⟩⟩
    | false => exact ⟨t, r, hr, .inl (by simpa [wantRoot] using hroot.symm)⟩

theorem encLinksTo_pub {g : EncGlob} {pub : CoderMap ECoder} (h : EncPub tt g pub) {c : ECoder} {b : Nat}
    (hl : EncLinksTo g.heap c b) (hc : PubCoder g pub c) : ∃ u r, pub u = some r ∧ g.internal u = some (.obj b) := by
  induction hl with
  | here a =>
    obtain ⟨u, r, h1, h2 | ⟨x, h2, _⟩⟩ := hc
    · exact ⟨u, r, h1, h2⟩
    · cases h2
  | direct c b _ ih =>
    obtain ⟨u, r, h1, h2 | ⟨x, h2, h3⟩⟩ := hc
    · obtain ⟨⟨c', hc', hf⟩, _⟩ := h u r h1
      rw [h2] at hc'
      cases hc'
      rcases hf.inner with ⟨_, _, _, h4⟩ | ⟨_, _, h4, _⟩ <;> cases h4
    · cases h2
      exact ih ⟨u, r, h1, .inl h3⟩
  | link a o c b ho hm _ ih =>
    obtain ⟨u, r, h1, h2 | ⟨x, h2, _⟩⟩ := hc
    · obtain ⟨⟨c', hc', hf⟩, hd⟩ := h u r h1
      rw [h2] at hc'
      cases hc'
      rcases hf.inner with ⟨_, _, _, h4⟩ | ⟨a', h3, h4, h5⟩
      · cases h4
      · cases h4
        rw [ho] at h5
        cases h5
        refine ih ?_
        simp only at hm
        cases hw : ewanted tt u with
        | prim p d => rw [hw] at h3; cases h3
        | ptr e =>
          rw [hw] at hm hd
          simp only [wantLinks, List.mem_singleton] at hm
          obtain ⟨y, hy⟩ := hd e (by simp [wantDeps])
          exact ⟨e, y, hy, .inl hm.symm⟩
        | map e =>
          rw [hw] at hm hd
          simp only [wantLinks, List.mem_singleton] at hm
          obtain ⟨y, hy⟩ := hd e (by simp [wantDeps])
          exact ⟨e, y, hy, .inl hm.symm⟩
        | slice e =>
          rw [hw] at hm hd
          simp only [wantLinks, List.mem_singleton] at hm
          exact pubCoder_elem (hd (elemDep tt e) (by simp [wantDeps])) hm.symm
        | node es d =>
          rw [hw] at hm hd
          simp only [wantLinks, List.mem_map] at hm
          obtain ⟨e, he, h6⟩ := hm
          exact pubCoder_elem (hd (elemDep tt e) (List.mem_map.mpr ⟨e, he, rfl⟩)) h6
    · cases h2

/-- A step of the construction does not change the objects of the published encoders. -/
theorem encStep_frozen {g g' : EncGlob} {pub : CoderMap ECoder} {t0 : TypeId} {l l' : EncLoc} (h : EncBusy tt g pub t0 l)
    (hs : EncStep tt g l g' l') {u : TypeId} {r : ECoder} {b : Nat} (hr : pub u = some r) (hu : g.internal u = some (.obj b)) :
    g'.heap[b]? = g.heap[b]? := by
  have hb : ∃ o, g.heap[b]? = some o ∧ o.ty = u := by
    obtain ⟨⟨c, hc, hf⟩, _⟩ := encPub_busy h u r hr
    rw [hu] at hc
    cases hc
    rcases hf.inner with ⟨_, _, _, h4⟩ | ⟨a, _, h4, h5⟩
    · cases h4
    · cases h4
      exact ⟨_, h5, rfl⟩
  obtain ⟨o, hb, ho⟩ := hb
  have hset : ∀ {t : TypeId} {a : Nat} {o' : EncObj}, (t, a) ∈ l.todo → (g.heap.set a o')[b]? = g.heap[b]? := by
    intro t a o' hm
    obtain ⟨h1, _, _, _, ⟨ls, h5⟩, _⟩ := h.open_ t a (h.todoSub _ hm)
    have hut : u ≠ t := by rintro rfl; rw [h1] at hr; cases hr
    rw [hb]
    exact heap_set_other h5 hb (by rw [ho]; exact hut)
  cases hs with
  | linked => exact List.getElem?_append_left (List.getElem?_eq_some_iff.mp hb).1
  | ptr t a e hs hm hsh => exact hset hm
  | other t a hs hm => exact hset hm
  | _ => rfl

/-! ## The construction ends -/

/-- What is left to do for types among `S`. -/
def encMeasure (tt : EncTypes) (S : List TypeId) (g : EncGlob) (l : EncLoc) : Nat :=
  match l.stage with
  | .create => (S.map fun t => if g.internal t = none then (tt.pushes t).length + 6 else 0).sum + l.queue.length + 3 * (l.rebuild.length + 1)
  | .base64 => l.todo.length + 2 * (l.rebuild.length + 1)
  | .ptrs => l.todo.length + (l.rebuild.length + 1)
  | .others => l.todo.length

theorem sum_putE {m : CoderMap ECoder} {t : TypeId} {c : ECoder} (hn : m t = none) (w : TypeId → Nat) {S : List TypeId} (ht : t ∈ S) :
    (S.map fun u => if m.put t c u = none then w u else 0).sum + w t ≤ (S.map fun u => if m u = none then w u else 0).sum := by
  have hle : ∀ S : List TypeId, (S.map fun u => if m.put t c u = none then w u else 0).sum ≤ (S.map fun u => if m u = none then w u else 0).sum := by
    intro S
    induction S with
    | nil => simp
    | cons u S ih =>
      simp only [List.map_cons, List.sum_cons]
      by_cases hu : u = t
      · subst hu; simp only [put_same, hn, if_true]; simp; omega
      · rw [put_other _ _ hu]; omega
  induction S with
  | nil => cases ht
  | cons u S ih =>
    simp only [List.map_cons, List.sum_cons]
    by_cases hu : u = t
    · subst hu
      have := hle S
      simp only [put_same, hn, if_true]
      simp
      omega
    · have := ih (by rcases List.mem_cons.mp ht with h | h; exact absurd h.symm hu; exact h)
      rw [put_other _ _ hu]
      omega

theorem encStep_measure {S : List TypeId} (hS : EncClosed tt S) {g g' : EncGlob} {l l' : EncLoc}
    (hq : ∀ t ∈ l.queue, t ∈ S) (hs : EncStep tt g l g' l') :
    encMeasure tt S g' l' < encMeasure tt S g l ∧ ∀ t ∈ l'.queue, t ∈ S := by
  have key : ∀ {t : TypeId} {q : List TypeId} (c : ECoder), l.queue = t :: q → g.internal t = none →
      (S.map fun u => if g.internal.put t c u = none then (tt.pushes u).length + 6 else 0).sum + ((tt.pushes t).length + 6) ≤
      (S.map fun u => if g.internal u = none then (tt.pushes u).length + 6 else 0).sum := by
    intro t q c hq' hc
    exact sum_putE hc (fun u => (tt.pushes u).length + 6) (hq t (by simp [hq']))
  have pushed : ∀ {t : TypeId} {q push : List TypeId}, l.queue = t :: q → (∀ k ∈ push, k ∈ tt.pushes t) → ∀ u ∈ pushAll push q, u ∈ S := by
    intro t q push hq' hp u hu
    rcases mem_pushAll.mp hu with hu | hu
    · exact hS t (hq t (by simp [hq'])) u (hp u hu)
    · exact hq u (by simp [hq', hu])
  have filt : ∀ {x : TypeId × Nat} {xs : List (TypeId × Nat)}, x ∈ xs → (xs.filter (· ≠ x)).length < xs.length := by
    intro x xs hx
    exact List.length_filter_lt_length_iff_exists.mpr ⟨x, hx, by simp⟩
  have filt' : ∀ (x : TypeId × Nat) (xs : List (TypeId × Nat)), (xs.filter (· ≠ x)).length ≤ xs.length :=
    fun x xs => List.length_filter_le _ _
  cases hs with
  | visited t q c hs hq' hc =>
    refine ⟨?_, fun u hu => hq u (by simp [hq', hu])⟩
    simp only [encMeasure, hs, hq', List.length_cons]
    omega
  | prim t q p d push hs hq' hc hsh =>
    have hp : tt.pushes t = push := by simp [EncTypes.pushes, hsh]
    have := key (.prim p) hq' hc
    refine ⟨?_, pushed hq' (by rw [hp]; exact fun k hk => hk)⟩
    rw [hp] at this
    simp only [encMeasure, hs, hq', List.length_cons, pushAll, List.length_append, List.length_reverse]
    omega
  | nativeCached t q k p c hs hq' hc hsh hk =>
    have := key c hq' hc
    refine ⟨?_, pushed (push := []) hq' (by simp)⟩
    simp only [encMeasure, hs, hq', List.length_cons]
    omega
  | native t q k p hs hq' hc hsh hk =>
    have := key (.prim p) hq' hc
    refine ⟨?_, pushed (push := []) hq' (by simp)⟩
    simp only [encMeasure, hs, hq', List.length_cons]
    omega
  | linked t q hs hq' hc hsh =>
    have := key (.obj g.heap.length) hq' hc
    refine ⟨?_, pushed hq' fun k hk => hk⟩
    simp only [encMeasure, hs, hq', List.length_cons, pushAll, List.length_append, List.length_reverse]
    omega
  | toBase64 hs hq' =>
    refine ⟨?_, hq⟩
    simp only [encMeasure, hs]
    omega
  | base64 t a hs hm hb =>
    refine ⟨?_, hq⟩
    have h1 := filt hm
    have h2 := filt' (t, a) l.rebuild
    simp only [encMeasure, hs]
    omega
  | skipBase64 t a hs hm hb =>
    refine ⟨?_, hq⟩
    have h1 := filt hm
    simp only [encMeasure, hs]
    omega
  | toPtrs hs ht =>
    refine ⟨?_, hq⟩
    simp only [encMeasure, hs]
    omega
  | ptr t a e hs hm hsh =>
    refine ⟨?_, hq⟩
    have h1 := filt hm
    have h2 := filt' (t, a) l.rebuild
    simp only [encMeasure, hs]
    omega
  | skipPtr t a hs hm hsh =>
    refine ⟨?_, hq⟩
    have h1 := filt hm
    simp only [encMeasure, hs]
    omega
  | toOthers hs ht =>
    refine ⟨?_, hq⟩
    simp only [encMeasure, hs]
    omega
  | other t a hs hm =>
    refine ⟨?_, hq⟩
    have h1 := filt hm
    simp only [encMeasure, hs]
    omega

theorem encStep_exists (l : EncLoc) (g : EncGlob) : (∃ m, (encBuilder tt).done l = some m) ∨ ∃ g' l', EncStep tt g l g' l' := by
  cases hs : l.stage with
  | create =>
    right
    cases hq : l.queue with
    | nil => exact ⟨_, _, .toBase64 hs hq⟩
    | cons t q =>
      cases hc : g.internal t with
      | some c => exact ⟨_, _, .visited t q c hs hq hc⟩
      | none =>
        cases hsh : tt.shape t with
        | prim p d push => exact ⟨_, _, .prim t q p d push hs hq hc hsh⟩
        | native k p =>
          cases hk : g.internal k with
          | some c => exact ⟨_, _, .nativeCached t q k p c hs hq hc hsh hk⟩
          | none => exact ⟨_, _, .native t q k p hs hq hc hsh hk⟩
        | _ => exact ⟨_, _, .linked t q hs hq hc (by rw [hsh]; rfl)⟩
  | base64 =>
    right
    cases ht : l.todo with
    | nil => exact ⟨_, _, .toPtrs hs ht⟩
    | cons x xs =>
      by_cases hb : IsBase64 tt g x.1
      · exact ⟨_, _, .base64 x.1 x.2 hs (by simp [ht]) hb⟩
      · exact ⟨_, _, .skipBase64 x.1 x.2 hs (by simp [ht]) hb⟩
  | ptrs =>
    right
    cases ht : l.todo with
    | nil => exact ⟨_, _, .toOthers hs ht⟩
    | cons x xs =>
      cases hsh : tt.shape x.1 with
      | ptr e => exact ⟨_, _, .ptr x.1 x.2 e hs (by simp [ht]) hsh⟩
      | _ => exact ⟨_, _, .skipPtr x.1 x.2 hs (by simp [ht]) (by rw [hsh]; rfl)⟩
  | others =>
    cases ht : l.todo with
    | nil => left; exact ⟨l.cache, by simp [encBuilder, hs, ht]⟩
    | cons x xs => right; exact ⟨_, _, .other x.1 x.2 hs (by simp [ht])⟩

theorem encClosed_cover (hfin : ∀ t, ∃ S, t ∈ S ∧ EncClosed tt S) (q : List TypeId) :
    ∃ S, (∀ t ∈ q, t ∈ S) ∧ EncClosed tt S := by
  induction q with
  | nil => exact ⟨[], by simp, by intro t ht; cases ht⟩
  | cons t q ih =>
    obtain ⟨S, h1, h2⟩ := ih
    obtain ⟨S', h3, h4⟩ := hfin t
    refine ⟨S' ++ S, ?_, ?_⟩
    · intro u hu
      rcases List.mem_cons.mp hu with rfl | hu
      · exact List.mem_append.mpr (.inl h3)
      · exact List.mem_append.mpr (.inr (h1 u hu))
    · intro u hu k hk
      rcases List.mem_append.mp hu with hu | hu
      · exact List.mem_append.mpr (.inl (h4 u hu k hk))
      · exact List.mem_append.mpr (.inr (h2 u hu k hk))

/-- With finitely many types within reach of each, the construction of encoders comes to its end. -/
theorem enc_ends (hok : EncTypesOk tt) (hfin : ∀ t, ∃ S, t ∈ S ∧ EncClosed tt S) : (encLaws hok).Ends := by
  intro g pub t l hb
  obtain ⟨S, hq, hS⟩ := encClosed_cover hfin l.queue
  exact ends_of_measure (W := encLaws hok) pub t (fun _ l => ∀ u ∈ l.queue, u ∈ S) (encMeasure tt S)
    (fun g l g' l' ho hs => encStep_measure hS ho hs) (fun g l _ => encStep_exists l g) _ g l hb hq (Nat.le_refl _)

end

end Jzon
