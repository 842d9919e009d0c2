import Verif.Spec.Cache

/-!
# Invariants of the coder caches
-/

set_option linter.unusedSimpArgs false

namespace Jzon

open Spec

section
variable {C G L : Type}

/-- What is needed of a construction: `Idle` holds while nobody holds the lock, `Busy` while the construction for a type is going on. -/
structure CacheLaws (B : Builder C G L) where
  Idle : G → CoderMap C → Prop
  Busy : G → CoderMap C → TypeId → L → Prop
  start : ∀ {g pub t}, Idle g pub → pub t = none → Busy g pub t (B.start pub t)
  step : ∀ {g pub t l g' l'}, Busy g pub t l → B.step g l g' l' → Busy g' pub t l'
  done : ∀ {g pub t l m}, Busy g pub t l → B.done l = some m →
    Idle g m ∧ (∀ u c, pub u = some c → m u = some c) ∧ ∃ c, m t = some c

/-- The goroutine is outside of the section that the lock protects. -/
def Phase.outside : Phase C L → Prop
  | .idle | .wait _ => True
  | _ => False

structure CacheInv {B : Builder C G L} (W : CacheLaws B) (s : CacheState C G L) : Prop where
  others : ∀ j, s.lock ≠ some j → (s.phase j).outside
  free : s.lock = none → W.Idle s.glob s.pub
  held : ∀ j, s.lock = some j →
    match s.phase j with
    | .idle | .wait _ => False
    | .locked _ => W.Idle s.glob s.pub
    | .building t l => W.Busy s.glob s.pub t l
    | .leaving t c => W.Idle s.glob s.pub ∧ (∃ d, c = some d) ∧ s.pub t = c
  log : ∀ x ∈ s.log, ∃ d, x.2.2 = some d ∧ s.pub x.2.1 = some d

theorem lock_of_inside {B : Builder C G L} {W : CacheLaws B} {s : CacheState C G L} (h : CacheInv W s) {i : Nat}
    (hi : ¬(s.phase i).outside) : s.lock = some i :=
  Classical.byContradiction fun hl => hi (h.others i hl)

theorem goto_same (s : CacheState C G L) (i : Nat) (p : Phase C L) : (s.goto i p).phase i = p := by simp [CacheState.goto]

theorem goto_other (s : CacheState C G L) {i j : Nat} (p : Phase C L) (h : j ≠ i) : (s.goto i p).phase j = s.phase j := by
  simp [CacheState.goto, h]

theorem cacheInv_step {B : Builder C G L} {W : CacheLaws B} {s s' : CacheState C G L} {i : Nat} (h : CacheInv W s)
    (hs : CacheStep B i s s') : CacheInv W s' ∧ (∀ u c, s.pub u = some c → s'.pub u = some c) ∧ ∃ new, s'.log = new ++ s.log := by
  cases hs with
  | hit t c hp hc =>
    refine ⟨⟨h.others, h.free, h.held, ?_⟩, fun _ _ h => h, [_], rfl⟩
    intro x hx
    rcases List.mem_cons.mp hx with rfl | hx
    · exact ⟨c, rfl, hc⟩
    · exact h.log x hx
  | miss t hp hc =>
    refine ⟨⟨?_, h.free, ?_, h.log⟩, fun _ _ h => h, [], rfl⟩
    · intro j hj
      by_cases hji : j = i
      · subst hji; rw [goto_same]; trivial
      · rw [goto_other _ _ hji]; exact h.others j hj
    · intro j hj
      have hji : j ≠ i := by
        rintro rfl
        have := h.held j hj
        rw [hp] at this
        exact this
      rw [goto_other _ _ hji]
      exact h.held j hj
  | acquire t hp hl =>
    refine ⟨⟨?_, ?_, ?_, h.log⟩, fun _ _ h => h, [], rfl⟩
    · intro j hj
      have hji : j ≠ i := by rintro rfl; exact hj rfl
      rw [goto_other _ _ hji]
      exact h.others j (by rw [hl]; simp)
    · intro hn; cases hn
    · intro j hj
      have hji : j = i := by cases hj; rfl
      subst hji
      rw [goto_same]
      exact h.free hl
  | found t c hp hc =>
    have hl : s.lock = some i := lock_of_inside h (by rw [hp]; exact id)
    refine ⟨⟨?_, ?_, ?_, h.log⟩, fun _ _ h => h, [], rfl⟩
    · intro j hj
      have hji : j ≠ i := by rintro rfl; exact hj hl
      rw [goto_other _ _ hji]
      exact h.others j hj
    · intro hn; rw [show (s.goto i _).lock = s.lock from rfl, hl] at hn; cases hn
    · intro j hj
      have hji : j = i := by rw [show (s.goto i _).lock = s.lock from rfl, hl] at hj; cases hj; rfl
      subst hji
      rw [goto_same]
      have := h.held j hl
      rw [hp] at this
      exact ⟨this, ⟨c, rfl⟩, hc⟩
  | begin t hp hc =>
    have hl : s.lock = some i := lock_of_inside h (by rw [hp]; exact id)
    refine ⟨⟨?_, ?_, ?_, h.log⟩, fun _ _ h => h, [], rfl⟩
    · intro j hj
      have hji : j ≠ i := by rintro rfl; exact hj hl
      rw [goto_other _ _ hji]
      exact h.others j hj
    · intro hn; rw [show (s.goto i _).lock = s.lock from rfl, hl] at hn; cases hn
    · intro j hj
      have hji : j = i := by rw [show (s.goto i _).lock = s.lock from rfl, hl] at hj; cases hj; rfl
      subst hji
      rw [goto_same]
      have := h.held j hl
      rw [hp] at this
      exact W.start this hc
  | build t l l' g' hp hb =>
    have hl : s.lock = some i := lock_of_inside h (by rw [hp]; exact id)
    refine ⟨⟨?_, ?_, ?_, h.log⟩, fun _ _ h => h, [], rfl⟩
    · intro j hj
      have hji : j ≠ i := by rintro rfl; exact hj hl
      rw [goto_other _ _ hji]
      exact h.others j hj
    · intro hn; exact absurd hn (by show s.lock ≠ none; rw [hl]; simp)
    · intro j hj
      have hji : j = i := by have : s.lock = some j := hj; rw [hl] at this; cases this; rfl
      subst hji
      rw [goto_same]
      have := h.held j hl
      rw [hp] at this
      exact W.step this hb
  | publish t l m hp hd =>
    have hl : s.lock = some i := lock_of_inside h (by rw [hp]; exact id)
    have hb := h.held i hl
    rw [hp] at hb
    obtain ⟨h1, h2, h3⟩ := W.done hb hd
    refine ⟨⟨?_, ?_, ?_, ?_⟩, h2, [], rfl⟩
    · intro j hj
      have hji : j ≠ i := by rintro rfl; exact hj hl
      rw [goto_other _ _ hji]
      exact h.others j hj
    · intro hn; exact absurd hn (by show s.lock ≠ none; rw [hl]; simp)
    · intro j hj
      have hji : j = i := by have : s.lock = some j := hj; rw [hl] at this; cases this; rfl
      subst hji
      rw [goto_same]
      exact ⟨h1, h3, rfl⟩
    · intro x hx
      obtain ⟨d, h4, h5⟩ := h.log x hx
      exact ⟨d, h4, h2 _ _ h5⟩
  | release t c hp =>
    have hl : s.lock = some i := lock_of_inside h (by rw [hp]; exact id)
    have hb := h.held i hl
    rw [hp] at hb
    obtain ⟨h1, ⟨d, h2⟩, h3⟩ := hb
    refine ⟨⟨?_, fun _ => h1, ?_, ?_⟩, fun _ _ h => h, [_], rfl⟩
    · intro j _
      by_cases hji : j = i
      · subst hji; rw [goto_same]; trivial
      · rw [goto_other _ _ hji]
        exact h.others j (by rw [hl]; intro h; cases h; exact hji rfl)
    · intro j hj; cases hj
    · intro x hx
      rcases List.mem_cons.mp hx with rfl | hx
      · exact ⟨d, h2, h3.trans h2⟩
      · exact h.log x hx

theorem cacheInv_run {B : Builder C G L} {W : CacheLaws B} {s s' : CacheState C G L} (h : CacheInv W s)
    (hr : CacheRun B s s') : CacheInv W s' ∧ (∀ u c, s.pub u = some c → s'.pub u = some c) ∧ ∃ new, s'.log = new ++ s.log := by
  induction hr with
  | refl => exact ⟨h, fun _ _ h => h, [], rfl⟩
  | tail i _ hs ih =>
    obtain ⟨h1, h2, n1, h3⟩ := ih
    obtain ⟨h4, h5, n2, h6⟩ := cacheInv_step h1 hs
    exact ⟨h4, fun u c hc => h5 u c (h2 u c hc), n2 ++ n1, by rw [h6, h3, List.append_assoc]⟩

theorem CacheRun.trans {B : Builder C G L} {s1 s2 s3 : CacheState C G L} (h1 : CacheRun B s1 s2) (h2 : CacheRun B s2 s3) :
    CacheRun B s1 s3 := by
  induction h2 with
  | refl => exact h1
  | tail i _ hs ih => exact .tail i ih hs

/-! ## Every goroutine gets its coder -/

/-- Any number of steps of the construction. -/
inductive BuildRun (B : Builder C G L) : G → L → G → L → Prop
  | refl (g : G) (l : L) : BuildRun B g l g l
  | head {g1 g2 g3 : G} {l1 l2 l3 : L} (h : B.step g1 l1 g2 l2) (h' : BuildRun B g2 l2 g3 l3) : BuildRun B g1 l1 g3 l3

/-- Every construction can come to its end. -/
def CacheLaws.Ends {B : Builder C G L} (W : CacheLaws B) : Prop :=
  ∀ g pub t l, W.Busy g pub t l → ∃ g' l' m, BuildRun B g l g' l' ∧ B.done l' = some m

theorem cache_builds {B : Builder C G L} {g g' : G} {l l' : L} (h : BuildRun B g l g' l') :
    ∀ (s : CacheState C G L) (j : Nat) (t : TypeId), s.glob = g → s.phase j = .building t l →
      ∃ s', CacheRun B s s' ∧ s'.phase j = .building t l' ∧ s'.log = s.log ∧ ∀ k, k ≠ j → s'.phase k = s.phase k := by
  induction h with
  | refl g l => exact fun s j t _ hp => ⟨s, .refl s, hp, rfl, fun _ _ => rfl⟩
  | @head g1 g2 g3 l1 l2 l3 h h' ih =>
    intro s j t hg hp
    subst hg
    have hst : CacheStep B j s _ := .build t _ _ _ hp h
    obtain ⟨s', h1, h2, h3, h4⟩ := ih ({ s with glob := g2 }.goto j (.building t l2)) j t rfl (goto_same _ _ _)
    exact ⟨s', (CacheRun.tail j (.refl s) hst).trans h1, h2, h3, fun k hk => (h4 k hk).trans (goto_other _ _ hk)⟩

/-- Whoever holds the lock can release it, having been handed the coder. -/
theorem cache_releases {B : Builder C G L} {W : CacheLaws B} (hW : W.Ends) {s : CacheState C G L} (h : CacheInv W s) {j : Nat}
    (hl : s.lock = some j) :
    ∃ s' t c, CacheRun B s s' ∧ s'.lock = none ∧ s'.log = (j, t, c) :: s.log ∧ s'.phase j = .idle ∧
      (∀ k, k ≠ j → s'.phase k = s.phase k) ∧ (∀ u, s.phase j = .locked u → t = u) := by
  have fromLeaving : ∀ (s : CacheState C G L) (t : TypeId) (c : Option C), s.phase j = .leaving t c →
      ∃ s', CacheRun B s s' ∧ s'.lock = none ∧ s'.log = (j, t, c) :: s.log ∧ s'.phase j = .idle ∧
        ∀ k, k ≠ j → s'.phase k = s.phase k := by
    intro s t c hp
    exact ⟨_, .tail j (.refl s) (.release t c hp), rfl, rfl, goto_same _ _ _, fun k hk => goto_other _ _ hk⟩
  have fromBuilding : ∀ (s : CacheState C G L) (t : TypeId) (l : L), W.Busy s.glob s.pub t l →
      s.phase j = .building t l → ∃ s' c, CacheRun B s s' ∧ s'.lock = none ∧ s'.log = (j, t, c) :: s.log ∧
        s'.phase j = .idle ∧ ∀ k, k ≠ j → s'.phase k = s.phase k := by
    intro s t l hb hp
    obtain ⟨g', l', m, hrun, hd⟩ := hW _ _ _ _ hb
    obtain ⟨s1, h1, h2, h3, h4⟩ := cache_builds hrun s j t rfl hp
    have hst : CacheStep B j s1 _ := .publish t l' m h2 hd
    obtain ⟨s2, h5, h6, h7, h8, h9⟩ := fromLeaving _ t _ (goto_same _ j _)
    exact ⟨s2, _, (h1.trans (CacheRun.tail j (.refl s1) hst)).trans h5, h6, h7.trans (by rw [← h3]; rfl), h8,
      fun k hk => (h9 k hk).trans ((goto_other _ _ hk).trans (h4 k hk))⟩
  have hb := h.held j hl
  cases hp : s.phase j with
  | idle => rw [hp] at hb; exact hb.elim
  | wait t => rw [hp] at hb; exact hb.elim
  | locked t =>
    cases hc : s.pub t with
    | some c =>
      have hst : CacheStep B j s _ := .found t c hp hc
      obtain ⟨s', h1, h2, h3, h4, h5⟩ := fromLeaving _ t (some c) (goto_same s j _)
      refine ⟨s', t, some c, (CacheRun.tail j (.refl s) hst).trans h1, h2, h3, h4, fun k hk => (h5 k hk).trans (goto_other _ _ hk), ?_⟩
      intro u hu
      cases hu
      rfl
    | none =>
      rw [hp] at hb
      have hst : CacheStep B j s _ := .begin t hp hc
      obtain ⟨s', c, h1, h2, h3, h4, h5⟩ := fromBuilding (s.goto j (.building t (B.start s.pub t))) t _ (W.start hb hc) (goto_same s j _)
      refine ⟨s', t, c, (CacheRun.tail j (.refl s) hst).trans h1, h2, h3, h4, fun k hk => (h5 k hk).trans (goto_other _ _ hk), ?_⟩
      intro u hu
      cases hu
      rfl
  | building t l =>
    rw [hp] at hb
    obtain ⟨s', c, h1, h2, h3, h4, h5⟩ := fromBuilding s t l hb hp
    exact ⟨s', t, c, h1, h2, h3, h4, h5, fun u hu => by cases hu⟩
  | leaving t c =>
    obtain ⟨s', h1, h2, h3, h4, h5⟩ := fromLeaving s t c hp
    exact ⟨s', t, c, h1, h2, h3, h4, h5, fun u hu => by cases hu⟩

/-- A goroutine that waits can be served. -/
theorem cache_served {B : Builder C G L} {W : CacheLaws B} (hW : W.Ends) {s : CacheState C G L} (h : CacheInv W s) {i : Nat}
    {t : TypeId} (hi : s.phase i = .wait t) : ∃ s' d, CacheRun B s s' ∧ (i, t, some d) ∈ s'.log ∧ s'.lock = none := by
  have hfree : ∃ s1, CacheRun B s s1 ∧ s1.lock = none ∧ s1.phase i = .wait t := by
    cases hl : s.lock with
    | none => exact ⟨s, .refl s, hl, hi⟩
    | some j =>
      have hji : i ≠ j := by
        rintro rfl
        have := h.held i hl
        rw [hi] at this
        exact this
      obtain ⟨s1, _, _, h1, h2, _, _, h3, _⟩ := cache_releases hW h hl
      exact ⟨s1, h1, h2, (h3 i hji).trans hi⟩
  obtain ⟨s1, h1, h2, h3⟩ := hfree
  have hst : CacheStep B i s1 _ := .acquire t h3 h2
  have hrun := h1.trans (CacheRun.tail i (.refl s1) hst)
  obtain ⟨s2, u, c, h4, h5, h6, _, _, h7⟩ := cache_releases hW (cacheInv_run h hrun).1 (j := i) rfl
  have hu : u = t := h7 t (goto_same _ _ _)
  subst hu
  have hrun := hrun.trans h4
  have hm : (i, u, c) ∈ s2.log := by rw [h6]; simp
  obtain ⟨d, h8, _⟩ := (cacheInv_run h hrun).1.log _ hm
  cases h8
  exact ⟨s2, d, hrun, hm, h5⟩

/-- A construction ends if each of its steps does, by a measure and a condition `ok` that the steps preserve. -/
theorem ends_of_measure {B : Builder C G L} {W : CacheLaws B} (pub : CoderMap C) (t : TypeId) (ok : G → L → Prop) (μ : G → L → Nat)
    (hstep : ∀ g l g' l', ok g l → B.step g l g' l' → μ g' l' < μ g l ∧ ok g' l')
    (hprog : ∀ g l, W.Busy g pub t l → (∃ m, B.done l = some m) ∨ ∃ g' l', B.step g l g' l') (n : Nat) :
    ∀ g l, W.Busy g pub t l → ok g l → μ g l ≤ n → ∃ g' l' m, BuildRun B g l g' l' ∧ B.done l' = some m := by
  induction n with
  | zero =>
    intro g l hb ho hm
    rcases hprog g l hb with ⟨m, hd⟩ | ⟨g', l', hs⟩
    · exact ⟨g, l, m, .refl g l, hd⟩
    · have := (hstep _ _ _ _ ho hs).1
      omega
  | succ n ih =>
    intro g l hb ho hm
    rcases hprog g l hb with ⟨m, hd⟩ | ⟨g', l', hs⟩
    · exact ⟨g, l, m, .refl g l, hd⟩
    · obtain ⟨h1, h2⟩ := hstep _ _ _ _ ho hs
      obtain ⟨g2, l2, m, h3, h4⟩ := ih g' l' (W.step hb hs) h2 (by omega)
      exact ⟨g2, l2, m, .head hs h3, h4⟩

end

/-! ## The decoder cache -/

section
variable {tt : DecTypes}

/-- The entries of `m` are what they should be, and all links are there and agree with `m`. -/
def DecPub (tt : DecTypes) (g : List DecObj) (m : CoderMap Coder) : Prop :=
  (∀ t c, m t = some c →
    match wanted tt t with
    | .inl p => c = .prim p
    | .inr kids => ∃ a, c = .obj a ∧ g[a]? = some ⟨t, some (kids.map m)⟩ ∧ ∀ k ∈ kids, ∃ d, m k = some d) ∧
  ∀ t p, tt.custom t = some p → m t = some (.prim p)

structure DecBusy (tt : DecTypes) (g : List DecObj) (pub : CoderMap Coder) (t0 : TypeId) (l : DecLoc) : Prop where
  good : DecPub tt g pub
  sub : ∀ t c, pub t = some c → l.cache t = some c
  cache : ∀ t c, l.cache t = some c →
    match wanted tt t with
    | .inl p => c = .prim p
    | .inr kids => ∃ a, c = .obj a ∧
        (((t, a) ∈ l.rebuild ∧ g[a]? = some ⟨t, none⟩) ∨
          ((∀ a', (t, a') ∉ l.rebuild) ∧ g[a]? = some ⟨t, some (kids.map l.cache)⟩ ∧ ∀ k ∈ kids, ∃ d, l.cache k = some d))
  todo : ∀ t a, (t, a) ∈ l.rebuild → pub t = none ∧ l.cache t = some (.obj a) ∧ tt.custom t = none ∧
    ∃ kids, tt.shape t = .node kids ∧ ∀ k ∈ kids, (∃ d, l.cache k = some d) ∨ k ∈ l.queue
  goal : (∃ d, l.cache t0 = some d) ∨ t0 ∈ l.queue

theorem put_same {C : Type} (m : CoderMap C) (t : TypeId) (c : C) : m.put t c t = some c := by simp [CoderMap.put]

theorem put_other {C : Type} (m : CoderMap C) {t u : TypeId} (c : C) (h : u ≠ t) : m.put t c u = m u := by simp [CoderMap.put, h]

theorem put_mono {C : Type} {m : CoderMap C} {t : TypeId} {c : C} (hn : m t = none) {u : TypeId} {d : C} (h : m u = some d) :
    m.put t c u = some d := by
  have : u ≠ t := by rintro rfl; rw [hn] at h; cases h
  rw [put_other _ _ this, h]

theorem put_map {C : Type} {m : CoderMap C} {t : TypeId} {c : C} (hn : m t = none) {kids : List TypeId}
    (h : ∀ k ∈ kids, ∃ d, m k = some d) : kids.map (m.put t c) = kids.map m := by
  refine List.map_congr_left fun k hk => ?_
  obtain ⟨d, hd⟩ := h k hk
  rw [put_mono hn hd, hd]

theorem wanted_node {t : TypeId} {kids : List TypeId} (h : tt.custom t = none) (hs : tt.shape t = .node kids) :
    wanted tt t = .inr kids := by simp [wanted, h, hs]

/-- An entry without links is added to the new cache. -/
theorem decBusy_prim {g : List DecObj} {pub : CoderMap Coder} {t0 t : TypeId} {l : DecLoc} {q : List TypeId} {c : Coder}
    (h : DecBusy tt g pub t0 l) (hq : l.queue = t :: q) (hc : l.cache t = none) {p : Nat} (hw : wanted tt t = .inl p)
    (hcp : c = .prim p) : DecBusy tt g pub t0 { l with queue := q, cache := l.cache.put t c } := by
  have hnt : ∀ a, (t, a) ∉ l.rebuild := by
    intro a ha
    have := (h.todo t a ha).2.1
    rw [hc] at this
    cases this
  refine ⟨h.good, fun u d hd => put_mono hc (h.sub u d hd), ?_, ?_, ?_⟩
  · intro u d hd
    by_cases hu : u = t
    · subst hu
      simp only [put_same, Option.some.injEq] at hd
      rw [hw]
      exact hd.symm.trans hcp
    · simp only [put_other _ _ hu] at hd
      have := h.cache u d hd
      cases hwu : wanted tt u with
      | inl p' => rw [hwu] at this; exact this
      | inr kids =>
        rw [hwu] at this
        obtain ⟨a, h1, h2⟩ := this
        refine ⟨a, h1, ?_⟩
        rcases h2 with h2 | ⟨h2, h3, h4⟩
        · exact .inl h2
        · refine .inr ⟨h2, ?_, fun k hk => ?_⟩
          · rw [put_map hc h4]; exact h3
          · obtain ⟨d', hd'⟩ := h4 k hk
            exact ⟨d', put_mono hc hd'⟩
  · intro u a ha
    obtain ⟨h1, h2, h3, kids, h4, h5⟩ := h.todo u a ha
    refine ⟨h1, put_mono hc h2, h3, kids, h4, fun k hk => ?_⟩
    rcases h5 k hk with ⟨d, hd⟩ | hd
    · exact .inl ⟨d, put_mono hc hd⟩
    · rw [hq] at hd
      rcases List.mem_cons.mp hd with rfl | hd
      · exact .inl ⟨c, put_same _ _ _⟩
      · exact .inr hd
  · rcases h.goal with ⟨d, hd⟩ | hd
    · exact .inl ⟨d, put_mono hc hd⟩
    · rw [hq] at hd
      rcases List.mem_cons.mp hd with rfl | hd
      · exact .inl ⟨c, put_same _ _ _⟩
      · exact .inr hd

theorem mem_pushAll {k : TypeId} {kids q : List TypeId} : k ∈ pushAll kids q ↔ k ∈ kids ∨ k ∈ q := by simp [pushAll]

theorem decPub_append {g : List DecObj} {m : CoderMap Coder} (h : DecPub tt g m) (o : DecObj) : DecPub tt (g ++ [o]) m := by
  refine ⟨fun t c hc => ?_, h.2⟩
  have := h.1 t c hc
  cases hw : wanted tt t with
  | inl p => rw [hw] at this; exact this
  | inr kids =>
    rw [hw] at this
    obtain ⟨a, h1, h2, h3⟩ := this
    refine ⟨a, h1, ?_, h3⟩
    rw [List.getElem?_append_left (List.getElem?_eq_some_iff.mp h2).1]
    exact h2

theorem decBusy_step (hself : NativeSelf tt) {g g' : List DecObj} {pub : CoderMap Coder} {t0 : TypeId} {l l' : DecLoc}
    (h : DecBusy tt g pub t0 l) (hs : DecStep tt g l g' l') : DecBusy tt g' pub t0 l' := by
  have hcn : ∀ {t}, l.cache t = none → tt.custom t = none := by
    intro t ht
    cases hc : tt.custom t with
    | none => rfl
    | some p =>
      have := h.sub t _ (h.good.2 t p hc)
      rw [ht] at this
      cases this
  cases hs with
  | visited t q c hq hc =>
    refine ⟨h.good, h.sub, h.cache, ?_, ?_⟩
    · intro u a ha
      obtain ⟨h1, h2, h3, kids, h4, h5⟩ := h.todo u a ha
      refine ⟨h1, h2, h3, kids, h4, fun k hk => ?_⟩
      rcases h5 k hk with hd | hd
      · exact .inl hd
      · rw [hq] at hd
        rcases List.mem_cons.mp hd with rfl | hd
        · exact .inl ⟨c, hc⟩
        · exact .inr hd
    · rcases h.goal with hd | hd
      · exact .inl hd
      · rw [hq] at hd
        rcases List.mem_cons.mp hd with rfl | hd
        · exact .inl ⟨c, hc⟩
        · exact .inr hd
  | prim t q p hq hc hs =>
    exact decBusy_prim h hq hc (p := p) (by simp [wanted, hcn hc, hs]) rfl
  | nativeCached t q k p c hq hc hs hk =>
    refine decBusy_prim h hq hc (p := (tt.custom k).getD p) (by simp [wanted, hcn hc, hs]) ?_
    have := h.cache k c hk
    have hw : wanted tt k = .inl ((tt.custom k).getD p) := by
      unfold wanted
      cases hck : tt.custom k with
      | some p' => rfl
      | none => simp [hself t k p hs, hck]
    rw [hw] at this
    exact this
  | native t q k p hq hc hs hk =>
    refine decBusy_prim h hq hc (p := (tt.custom k).getD p) (by simp [wanted, hcn hc, hs]) ?_
    rw [hcn hk]; rfl
  | node t q kids hq hc hs =>
    have hnt : ∀ a, (t, a) ∉ l.rebuild := by
      intro a ha
      have := (h.todo t a ha).2.1
      rw [hc] at this
      cases this
    have hpn : pub t = none := by
      cases hp : pub t with
      | none => rfl
      | some c => have := h.sub t c hp; rw [hc] at this; cases this
    refine ⟨decPub_append h.good _, fun u d hd => put_mono hc (h.sub u d hd), ?_, ?_, ?_⟩
    · intro u d hd
      by_cases hu : u = t
      · subst hu
        simp only [put_same, Option.some.injEq] at hd
        rw [wanted_node (hcn hc) hs]
        exact ⟨_, hd.symm, .inl ⟨by simp, by simp⟩⟩
      · simp only [put_other _ _ hu] at hd
        have := h.cache u d hd
        cases hwu : wanted tt u with
        | inl p' => rw [hwu] at this; exact this
        | inr kids' =>
          rw [hwu] at this
          obtain ⟨a, h1, h2⟩ := this
          refine ⟨a, h1, ?_⟩
          rcases h2 with ⟨h2, h3⟩ | ⟨h2, h3, h4⟩
          · refine .inl ⟨List.mem_cons_of_mem _ h2, ?_⟩
            rw [List.getElem?_append_left (List.getElem?_eq_some_iff.mp h3).1]
            exact h3
          · refine .inr ⟨?_, ?_, fun k hk => ?_⟩
            · intro a' ha'
              rcases List.mem_cons.mp ha' with ha' | ha'
              · cases ha'; exact hu rfl
              · exact h2 a' ha'
            · rw [put_map hc h4, List.getElem?_append_left (List.getElem?_eq_some_iff.mp h3).1]; exact h3
            · obtain ⟨d', hd'⟩ := h4 k hk
              exact ⟨d', put_mono hc hd'⟩
    · intro u a ha
      rcases List.mem_cons.mp ha with ha | ha
      · cases ha
        exact ⟨hpn, put_same _ _ _, hcn hc, kids, hs, fun k hk => .inr (mem_pushAll.mpr (.inl hk))⟩
      · obtain ⟨h1, h2, h3, kids', h4, h5⟩ := h.todo u a ha
        refine ⟨h1, put_mono hc h2, h3, kids', h4, fun k hk => ?_⟩
        rcases h5 k hk with ⟨d, hd⟩ | hd
        · exact .inl ⟨d, put_mono hc hd⟩
        · rw [hq] at hd
          rcases List.mem_cons.mp hd with rfl | hd
          · exact .inl ⟨_, put_same _ _ _⟩
          · exact .inr (mem_pushAll.mpr (.inr hd))
    · rcases h.goal with ⟨d, hd⟩ | hd
      · exact .inl ⟨d, put_mono hc hd⟩
      · rw [hq] at hd
        rcases List.mem_cons.mp hd with rfl | hd
        · exact .inl ⟨_, put_same _ _ _⟩
        · exact .inr (mem_pushAll.mpr (.inr hd))
  | rebuild t a kids hq hr hs =>
    obtain ⟨h1, h2, h3, kids', h4, h5⟩ := h.todo t a hr
    rw [hs] at h4
    cases h4
    have hkids : ∀ k ∈ kids, ∃ d, l.cache k = some d := by
      intro k hk
      rcases h5 k hk with hd | hd
      · exact hd
      · rw [hq] at hd; cases hd
    have hga : g[a]? = some ⟨t, none⟩ := by
      have := h.cache t _ h2
      rw [wanted_node h3 hs] at this
      obtain ⟨a', e, h6⟩ := this
      cases e
      rcases h6 with ⟨_, h6⟩ | ⟨h6, _⟩
      · exact h6
      · exact absurd hr (h6 a)
    have hset : ∀ {b : Nat} {o : DecObj}, g[b]? = some o → o.ty ≠ t → (g.set a ⟨t, some (kids.map l.cache)⟩)[b]? = some o := by
      intro b o hb hne
      have : a ≠ b := by
        rintro rfl
        rw [hga] at hb
        cases hb
        exact hne rfl
      rw [List.getElem?_set_ne this]
      exact hb
    refine ⟨⟨fun u c hc => ?_, h.good.2⟩, h.sub, ?_, ?_, h.goal⟩
    · have hut : u ≠ t := by rintro rfl; rw [h1] at hc; cases hc
      have := h.good.1 u c hc
      cases hw : wanted tt u with
      | inl p => rw [hw] at this; exact this
      | inr kids' =>
        rw [hw] at this
        obtain ⟨b, h6, h7, h8⟩ := this
        exact ⟨b, h6, hset h7 hut, h8⟩
    · intro u c hc
      have := h.cache u c hc
      by_cases hut : u = t
      · subst hut
        rw [wanted_node h3 hs]
        have hc' : l.cache u = some c := hc
        rw [h2] at hc'
        cases hc'
        refine ⟨a, rfl, .inr ⟨?_, ?_, hkids⟩⟩
        · intro a' ha'
          have ha' := List.mem_filter.mp ha'
          have := (h.todo u a' ha'.1).2.1
          rw [h2] at this
          cases this
          simp at ha'
        · rw [List.getElem?_set_self (List.getElem?_eq_some_iff.mp hga).1]
      · cases hw : wanted tt u with
        | inl p => rw [hw] at this; exact this
        | inr kids' =>
          rw [hw] at this
          obtain ⟨b, h6, h7⟩ := this
          refine ⟨b, h6, ?_⟩
          rcases h7 with ⟨h7, h8⟩ | ⟨h7, h8, h9⟩
          · refine .inl ⟨List.mem_filter.mpr ⟨h7, ?_⟩, hset h8 hut⟩
            simp [hut]
          · exact .inr ⟨fun a' ha' => h7 a' (List.mem_filter.mp ha').1, hset h8 hut, h9⟩
    · intro u b hb
      exact h.todo u b (List.mem_filter.mp hb).1

/-- What is needed of the construction of decoders. -/
def decLaws (hself : NativeSelf tt) : CacheLaws (decBuilder tt) where
  Idle := DecPub tt
  Busy := DecBusy tt
  start := by
    intro g pub t h hn
    refine ⟨h, fun _ _ h => h, ?_, ?_, .inr (by simp [decBuilder])⟩
    · intro u c hc
      have := h.1 u c hc
      cases hw : wanted tt u with
      | inl p => rw [hw] at this; exact this
      | inr kids =>
        rw [hw] at this
        obtain ⟨a, h1, h2, h3⟩ := this
        exact ⟨a, h1, .inr ⟨by simp [decBuilder], h2, h3⟩⟩
    · intro u a ha
      simp [decBuilder] at ha
  step := decBusy_step hself
  done := by
    intro g pub t l m h hd
    simp only [decBuilder] at hd
    split at hd
    · rename_i hq
      cases hd
      refine ⟨⟨?_, ?_⟩, h.sub, ?_⟩
      · intro u c hc
        have := h.cache u c hc
        cases hw : wanted tt u with
        | inl p => rw [hw] at this; exact this
        | inr kids =>
          rw [hw] at this
          obtain ⟨a, h1, h2⟩ := this
          refine ⟨a, h1, ?_⟩
          rcases h2 with ⟨h2, _⟩ | ⟨_, h2⟩
          · rw [hq.2] at h2; cases h2
          · exact h2
      · intro u p hp
        exact h.sub _ _ (h.good.2 u p hp)
      · rcases h.goal with hd | hd
        · exact hd
        · rw [hq.1] at hd; cases hd
    · cases hd

theorem decInit_inv (hself : NativeSelf tt) : CacheInv (decLaws hself) (decInit tt) := by
  refine ⟨fun _ _ => trivial, fun _ => ⟨?_, ?_⟩, ?_, ?_⟩
  · intro t c hc
    simp only [decInit, Option.map_eq_some_iff] at hc
    obtain ⟨p, h1, h2⟩ := hc
    have : wanted tt t = .inl p := by simp [wanted, h1]
    rw [this]
    exact h2.symm
  · intro t p hp
    simp [decInit, hp]
  · intro j hj
    cases hj
  · intro x hx
    cases hx

/-- The published part, whoever holds the lock. -/
theorem decPub_of_inv {hself : NativeSelf tt} {s : CacheState Coder (List DecObj) DecLoc} (h : CacheInv (decLaws hself) s) :
    DecPub tt s.glob s.pub := by
  cases hl : s.lock with
  | none => exact h.free hl
  | some j =>
    have := h.held j hl
    cases hp : s.phase j with
    | idle => rw [hp] at this; exact this.elim
    | wait t => rw [hp] at this; exact this.elim
    | locked t => rw [hp] at this; exact this
    | building t l => rw [hp] at this; exact this.good
    | leaving t c => rw [hp] at this; exact this.1

theorem complete_of_pub {g : List DecObj} {m : CoderMap Coder} (h : DecPub tt g m) :
    ∀ n t c, m t = some c → Complete tt g n t c
  | 0, _, _, _ => trivial
  | n + 1, t, c, hc => by
    have := h.1 t c hc
    unfold Complete
    cases hw : wanted tt t with
    | inl p => rw [hw] at this; exact this
    | inr kids =>
      rw [hw] at this
      obtain ⟨a, h1, h2, h3⟩ := this
      have hlist : ∃ ds : List Coder, kids.map m = ds.map some := by
        clear h2 hw hc
        induction kids with
        | nil => exact ⟨[], rfl⟩
        | cons k kids ih =>
          obtain ⟨d, hd⟩ := h3 k (by simp)
          obtain ⟨ds, hds⟩ := ih fun k hk => h3 k (by simp [hk])
          exact ⟨d :: ds, by simp [hd, hds]⟩
      obtain ⟨ds, hds⟩ := hlist
      refine ⟨a, ds, h1, by rw [← hds]; exact h2, ?_, ?_⟩
      · have := congrArg List.length hds
        simpa using this.symm
      · intro i k d hk hd
        refine complete_of_pub h n k d ?_
        have h5 := congrArg (·[i]?) hds
        simp only [List.getElem?_map, hk, hd, Option.map_some, Option.some.injEq] at h5
        exact h5

theorem reaches_pub {g : List DecObj} {m : CoderMap Coder} (h : DecPub tt g m) {c : Coder} {b : Nat} (hr : LinksTo g c b)
    {t : TypeId} (hc : m t = some c) : ∃ u, m u = some (.obj b) := by
  induction hr generalizing t with
  | here a => exact ⟨t, hc⟩
  | link a u ls d b ho hd _ ih =>
    have := h.1 t _ hc
    cases hw : wanted tt t with
    | inl p => rw [hw] at this; cases this
    | inr kids =>
      rw [hw] at this
      obtain ⟨a', h1, h2, h3⟩ := this
      cases h1
      rw [ho] at h2
      simp only [Option.some.injEq, DecObj.mk.injEq] at h2
      obtain ⟨_, rfl⟩ := h2
      obtain ⟨k, hk, hkd⟩ := List.mem_map.mp hd
      exact ih hkd

/-- A step of the construction does not change the objects of the published cache. -/
theorem decStep_frozen {g g' : List DecObj} {pub : CoderMap Coder} {t0 : TypeId} {l l' : DecLoc}
    (h : DecBusy tt g pub t0 l) (hs : DecStep tt g l g' l') {u : TypeId} {b : Nat} (hu : pub u = some (.obj b)) : g'[b]? = g[b]? := by
  have hb : ∃ kids, g[b]? = some ⟨u, some kids⟩ := by
    have := h.good.1 u _ hu
    cases hw : wanted tt u with
    | inl p => rw [hw] at this; cases this
    | inr kids =>
      rw [hw] at this
      obtain ⟨a, h1, h2, _⟩ := this
      cases h1
      exact ⟨_, h2⟩
  obtain ⟨kids, hb⟩ := hb
  cases hs with
  | node => rw [List.getElem?_append_left (List.getElem?_eq_some_iff.mp hb).1]
  | rebuild t a kids' hq hr hs =>
    have : a ≠ b := by
      rintro rfl
      obtain ⟨h1, h2, h3, _⟩ := h.todo t a hr
      have h6 := h.cache t _ h2
      rw [wanted_node h3 hs] at h6
      obtain ⟨a', e, h7⟩ := h6
      cases e
      have hut : u = t := by
        rcases h7 with ⟨_, h7⟩ | ⟨_, h7, _⟩ <;> rw [hb] at h7 <;> simp at h7 <;> exact h7.1
      subst hut
      rw [h1] at hu
      cases hu
    rw [List.getElem?_set_ne this]
  | _ => rfl

/-! ## The construction ends -/

/-- What is left to do for types among `S`. -/
def decMeasure (tt : DecTypes) (S : List TypeId) (l : DecLoc) : Nat :=
  (S.map fun t => if l.cache t = none then (match tt.shape t with | .node kids => kids.length | _ => 0) + 2 else 0).sum +
    l.queue.length + l.rebuild.length

theorem sum_put {m : CoderMap Coder} {t : TypeId} {c : Coder} (hn : m t = none) (w : TypeId → Nat) {S : List TypeId} (ht : t ∈ S) :
    (S.map fun u => if m.put t c u = none then w u else 0).sum + w t ≤ (S.map fun u => if m u = none then w u else 0).sum := by
  have hle : ∀ S : List TypeId, (S.map fun u => if m.put t c u = none then w u else 0).sum ≤ (S.map fun u => if m u = none then w u else 0).sum := by
    intro S
    induction S with
    | nil => simp
    | cons u S ih =>
      simp only [List.map_cons, List.sum_cons]
      by_cases hu : u = t
      · subst hu; simp only [put_same, hn, if_true]; simp; omega
      · rw [put_other _ _ hu]; omega
  induction S with
  | nil => cases ht
  | cons u S ih =>
    simp only [List.map_cons, List.sum_cons]
    by_cases hu : u = t
    · subst hu
      have := hle S
      simp only [put_same, hn, if_true]
      simp
      omega
    · have := ih (by rcases List.mem_cons.mp ht with h | h; exact absurd h.symm hu; exact h)
      rw [put_other _ _ hu]
      omega

theorem decStep_measure {S : List TypeId} (hS : ClosedTypes tt S) {g g' : List DecObj} {l l' : DecLoc}
    (hq : ∀ t ∈ l.queue, t ∈ S) (hs : DecStep tt g l g' l') :
    decMeasure tt S l' < decMeasure tt S l ∧ ∀ t ∈ l'.queue, t ∈ S := by
  have key : ∀ {t : TypeId} {q : List TypeId} (c : Coder), l.queue = t :: q → l.cache t = none → t ∈ S →
      (S.map fun u => if l.cache.put t c u = none then (match tt.shape u with | .node kids => kids.length | _ => 0) + 2 else 0).sum +
        ((match tt.shape t with | .node kids => kids.length | _ => 0) + 2) ≤
      (S.map fun u => if l.cache u = none then (match tt.shape u with | .node kids => kids.length | _ => 0) + 2 else 0).sum := by
    intro t q c _ hc ht
    exact sum_put hc (fun u => (match tt.shape u with | .node kids => kids.length | _ => 0) + 2) ht
  cases hs with
  | visited t q c hq' hc =>
    rw [hq'] at hq
    refine ⟨?_, fun u hu => hq u (by simp [hu])⟩
    simp only [decMeasure, hq', List.length_cons]
    omega
  | prim t q p hq' hc hs =>
    have := key (.prim p) hq' hc (hq t (by simp [hq']))
    rw [hq'] at hq
    refine ⟨?_, fun u hu => hq u (by simp [hu])⟩
    simp only [decMeasure, hq', List.length_cons]
    omega
  | nativeCached t q k p c hq' hc hs hk =>
    have := key c hq' hc (hq t (by simp [hq']))
    rw [hq'] at hq
    refine ⟨?_, fun u hu => hq u (by simp [hu])⟩
    simp only [decMeasure, hq', List.length_cons]
    omega
  | native t q k p hq' hc hs hk =>
    have := key (.prim p) hq' hc (hq t (by simp [hq']))
    rw [hq'] at hq
    refine ⟨?_, fun u hu => hq u (by simp [hu])⟩
    simp only [decMeasure, hq', List.length_cons]
    omega
  | node t q kids hq' hc hs =>
    have ht := hq t (by simp [hq'])
    have := key (.obj g.length) hq' hc ht
    rw [hq'] at hq
    refine ⟨?_, fun u hu => ?_⟩
    · simp only [hs] at this
      simp only [decMeasure, hq', List.length_cons, pushAll, List.length_append, List.length_reverse]
      omega
    · rcases mem_pushAll.mp hu with hu | hu
      · exact hS t ht kids hs u hu
      · exact hq u (by simp [hu])
  | rebuild t a kids hq' hr hs =>
    refine ⟨?_, hq⟩
    have : (l.rebuild.filter (· ≠ (t, a))).length < l.rebuild.length :=
      List.length_filter_lt_length_iff_exists.mpr ⟨(t, a), hr, by simp⟩
    simp only [decMeasure]
    omega

theorem decStep_exists {g : List DecObj} {pub : CoderMap Coder} {t0 : TypeId} {l : DecLoc} (h : DecBusy tt g pub t0 l) :
    (decBuilder tt).done l = some l.cache ∨ ∃ g' l', DecStep tt g l g' l' := by
  cases hq : l.queue with
  | nil =>
    cases hr : l.rebuild with
    | nil => left; simp [decBuilder, hq, hr]
    | cons x rest =>
      right
      obtain ⟨t, a⟩ := x
      have hm : (t, a) ∈ l.rebuild := by simp [hr]
      obtain ⟨_, _, _, kids, h4, _⟩ := h.todo t a hm
      exact ⟨_, _, .rebuild t a kids hq hm h4⟩
  | cons t q =>
    right
    cases hc : l.cache t with
    | some c => exact ⟨_, _, .visited t q c hq hc⟩
    | none =>
      cases hs : tt.shape t with
      | prim p => exact ⟨_, _, .prim t q p hq hc hs⟩
      | native k p =>
        cases hk : l.cache k with
        | some c => exact ⟨_, _, .nativeCached t q k p c hq hc hs hk⟩
        | none => exact ⟨_, _, .native t q k p hq hc hs hk⟩
      | node kids => exact ⟨_, _, .node t q kids hq hc hs⟩

end

section
variable {tt : DecTypes}

theorem closedTypes_append {S S' : List TypeId} (h : ClosedTypes tt S) (h' : ClosedTypes tt S') : ClosedTypes tt (S ++ S') := by
  intro t ht kids hk k hkk
  rcases List.mem_append.mp ht with ht | ht
  · exact List.mem_append.mpr (.inl (h t ht kids hk k hkk))
  · exact List.mem_append.mpr (.inr (h' t ht kids hk k hkk))

theorem closedTypes_cover (hfin : ∀ t, ∃ S, t ∈ S ∧ ClosedTypes tt S) (q : List TypeId) :
    ∃ S, (∀ t ∈ q, t ∈ S) ∧ ClosedTypes tt S := by
  induction q with
  | nil => exact ⟨[], by simp, by intro t ht; cases ht⟩
  | cons t q ih =>
    obtain ⟨S, h1, h2⟩ := ih
    obtain ⟨S', h3, h4⟩ := hfin t
    refine ⟨S' ++ S, ?_, closedTypes_append h4 h2⟩
    intro u hu
    rcases List.mem_cons.mp hu with rfl | hu
    · exact List.mem_append.mpr (.inl h3)
    · exact List.mem_append.mpr (.inr (h1 u hu))

/-- With finitely many types within reach of each, the construction of decoders comes to its end. -/
theorem dec_ends (hself : NativeSelf tt) (hfin : ∀ t, ∃ S, t ∈ S ∧ ClosedTypes tt S) : (decLaws hself).Ends := by
  intro g pub t l hb
  obtain ⟨S, hq, hS⟩ := closedTypes_cover hfin l.queue
  refine ends_of_measure (W := decLaws hself) pub t (fun _ l => ∀ u ∈ l.queue, u ∈ S) (fun _ l => decMeasure tt S l) ?_ ?_ _ g l hb hq (Nat.le_refl _)
  · intro g l g' l' ho hs
    exact decStep_measure hS ho hs
  · intro g l hb
    rcases decStep_exists (show DecBusy tt g pub t l from hb) with hd | h
    · exact .inl ⟨_, hd⟩
    · exact .inr h

end

end Jzon
