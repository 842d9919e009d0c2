import Verif.Proof.Levels

/-!
# The fields of a struct type: the result against the rule of Go
-/

set_option linter.unusedSimpArgs false

namespace Jzon

open Spec

section
variable (E : StructEnv) (ot : Bool) (root : Ty)

theorem candidate_iff (c : Cand) :
    Candidate E ot root c ↔ ∃ n : Embed, Reach E ot root n.index n.path n.typ ∧ c ∈ leaves E ot n := by
  unfold Candidate
  constructor
  · rintro ⟨index, path, s, fs, i, sf, h1, h2, h3, h4, h5, h6⟩
    exact ⟨⟨s, index, path⟩, h1, (mem_leaves E ot _ c).mpr ⟨fs, i, sf, h2, h3, h4, h5, h6⟩⟩
  · rintro ⟨n, h1, h2⟩
    obtain ⟨fs, i, sf, h2, h3, h4, h5, h6⟩ := (mem_leaves E ot n c).mp h2
    exact ⟨_, _, _, fs, i, sf, h1, h2, h3, h4, h5, h6⟩

/-- The same field of another occurrence of a struct. -/
theorem leaf_again {n m : Embed} {c : Cand} (h : c ∈ leaves E ot n) (hm : m.typ = n.typ) :
    ∃ c' ∈ leaves E ot m, ∃ i, c.index = n.index ++ [i] ∧ c'.index = m.index ++ [i] ∧ c.path = n.path ++ [.member i] ∧
      c'.path = m.path ++ [.member i] ∧ c'.name = c.name ∧ c'.tagged = c.tagged ∧
      (m.index = n.index → m.path = n.path → c' = c) := by
  obtain ⟨fs, i, sf, h2, h3, h4⟩ := (mem_leaves E ot n c).mp h
  obtain ⟨g1, g2, rfl⟩ := (from_iff E ot n sf i c).mp h4
  refine ⟨leafOf E m sf i, ?_, i, rfl, rfl, rfl, rfl, rfl, rfl, ?_⟩
  · rw [mem_leaves, hm]
    exact ⟨fs, i, sf, h2, h3, (from_iff E ot m sf i _).mpr ⟨g1, g2, rfl⟩⟩
  · intro h5 h6
    unfold leafOf
    rw [h5, h6]

theorem mem_twice (b : Bool) (c x : Cand) : x ∈ twice b c ↔ x = c := by
  cases b <;> simp [twice]

theorem mem_outOf (x : Embed × Bool) (c : Cand) : c ∈ outOf E ot x ↔ c ∈ leaves E ot x.1 := by
  unfold outOf
  simp only [List.mem_flatMap, mem_twice]
  constructor
  · rintro ⟨_, h, rfl⟩; exact h
  · intro h; exact ⟨_, h, rfl⟩

theorem count_flatMap {A : Type} {l : List A} {f : A → List Cand} (hp : l.Pairwise fun x y => ∀ c, c ∈ f x → c ∉ f y) {x : A}
    (hx : x ∈ l) {c : Cand} (hc : c ∈ f x) : (l.flatMap f).count c = (f x).count c := by
  induction l with
  | nil => simp at hx
  | cons y l ih =>
    rw [List.pairwise_cons] at hp
    rw [List.flatMap_cons, List.count_append]
    simp only [List.mem_cons] at hx
    rcases hx with rfl | hx
    · have : (l.flatMap f).count c = 0 := by
        rw [List.count_eq_zero]
        intro h
        rw [List.mem_flatMap] at h
        obtain ⟨z, hz, hz'⟩ := h
        exact hp.1 z hz c hc hz'
      omega
    · have : (f y).count c = 0 := by
        rw [List.count_eq_zero]
        intro h
        exact hp.1 x hx c h hc
      rw [ih hp.2 hx]
      omega

/-- Two leaves at the same place. -/
theorem leaf_index {n m : Embed} {c c' : Cand} (hn : Reach E ot root n.index n.path n.typ) (hm : Reach E ot root m.index m.path m.typ)
    (h : c ∈ leaves E ot n) (h' : c' ∈ leaves E ot m) (he : c.index = c'.index) : n = m ∧ c = c' := by
  obtain ⟨fs, i, sf, h2, h3, h4⟩ := (mem_leaves E ot n c).mp h
  obtain ⟨fs', i', sf', h2', h3', h4'⟩ := (mem_leaves E ot m c').mp h'
  rw [h4.2.1, h4'.2.1] at he
  obtain ⟨e1, e2⟩ := List.append_inj' he rfl
  rw [e1] at hn
  obtain ⟨e3, e4⟩ := reach_unique E ot root hn hm
  have : n = m := by cases n; cases m; simp_all
  subst this
  refine ⟨rfl, ?_⟩
  exact nodup_map_inj (f := (·.index)) (leaves_nodup E ot n) h h' (by rw [h4.2.1, h4'.2.1, e2])

variable {E ot root}
variable {k : Nat} {count : Ty → Nat} {visited : List Ty} {fields : List Cand} {V : List (Embed × Bool)}

theorem Inv.mem_fields (h : Inv E ot root k [] count visited fields V) (c : Cand) :
    c ∈ fields ↔ ∃ x ∈ V, c ∈ leaves E ot x.1 := by
  rw [h.fields_eq, List.mem_flatMap]
  simp only [mem_outOf]

theorem Inv.reached (h : Inv E ot root k [] count visited fields V) {index : List Nat} {path : List PathStep} {t : Ty}
    (hr : Reach E ot root index path t) : ∃ x ∈ V, x.1.typ = t ∧ x.1.index.length ≤ index.length := by
  have : t ∈ visited := by
    induction hr with
    | root =>
      by_cases hk : 0 < k
      · exact h.near [] [] root .root hk
      · rcases h.here [] [] root .root (by simp; omega) with hv | ⟨n, hn, _⟩
        · exact hv
        · simp at hn
    | @step index p s fs i sf t hr hf hi he ih =>
      rw [h.visited_eq] at ih
      obtain ⟨x, hx, rfl⟩ := ih
      have hc := (mem_children E ot x.1
        ⟨t, x.1.index ++ [i], x.1.path ++ (.member i :: if sf.ty.isPtr then [.deref sf.exported t] else [])⟩).mpr
        ⟨fs, i, sf, hf, hi, he, rfl, rfl⟩
      rcases h.closed x hx _ hc with hv | ⟨n, hn, _⟩
      · exact hv
      · simp at hn
  rw [h.visited_eq] at this
  obtain ⟨x, hx, rfl⟩ := this
  exact ⟨x, hx, rfl, h.short x hx _ _ hr⟩

/-- A field occurs twice if its struct was met twice. -/
theorem Inv.count_eq (h : Inv E ot root k [] count visited fields V) {x : Embed × Bool} (hx : x ∈ V) {c : Cand}
    (hc : c ∈ leaves E ot x.1) : fields.count c = if x.2 then 2 else 1 := by
  rw [h.fields_eq]
  have hp : V.Pairwise fun x y => ∀ c, c ∈ outOf E ot x → c ∉ outOf E ot y := by
    have := h.nodup
    rw [List.Nodup, List.pairwise_map] at this
    refine List.Pairwise.imp_of_mem ?_ this
    intro a b ha hb hne c h1 h2
    rw [mem_outOf] at h1 h2
    have := (leaf_index E ot root (h.reach a ha).1 (h.reach b hb).1 h1 h2 rfl).1
    exact hne (by rw [this])
  rw [count_flatMap hp hx ((mem_outOf E ot x c).mpr hc)]
  unfold outOf
  have hp2 : (leaves E ot x.1).Pairwise fun a b => ∀ c, c ∈ twice x.2 a → c ∉ twice x.2 b := by
    have := leaves_nodup E ot x.1
    rw [List.Nodup, List.pairwise_map] at this
    refine this.imp ?_
    intro a b hne c h1 h2
    rw [mem_twice] at h1 h2
    exact hne (by rw [← h1, ← h2])
  rw [count_flatMap hp2 hc ((mem_twice _ _ _).mpr rfl)]
  cases x.2 <;> simp [twice]

theorem Inv.mem_chosen_iff (h : Inv E ot root k [] count visited fields V) (c : Cand) :
    c ∈ chosen fields ↔ (∃ x ∈ V, c ∈ leaves E ot x.1 ∧ x.2 = false) ∧
      ∀ x' ∈ V, ∀ c' ∈ leaves E ot x'.1, c' ≠ c → c'.name = c.name → Beats c c' := by
  rw [mem_chosen]
  constructor
  · rintro ⟨h1, h2⟩
    obtain ⟨x, hx, hc⟩ := (h.mem_fields c).mp h1
    refine ⟨⟨x, hx, hc, ?_⟩, ?_⟩
    · cases hb : x.2 with
      | false => rfl
      | true =>
        exfalso
        have h3 := h.count_eq hx hc
        rw [hb, if_pos rfl] at h3
        have : c ∈ fields.erase c := by
          rw [← List.count_pos_iff, List.count_erase_self, h3]
          omega
        rcases h2 c this rfl with g | ⟨_, g1, g2⟩
        · omega
        · rw [g1] at g2; cases g2
    · intro x' hx' c' hc' hne hn
      exact h2 c' ((List.mem_erase_of_ne hne).mpr ((h.mem_fields c').mpr ⟨x', hx', hc'⟩)) hn
  · rintro ⟨⟨x, hx, hc, hb⟩, h2⟩
    refine ⟨(h.mem_fields c).mpr ⟨x, hx, hc⟩, ?_⟩
    intro c' hc' hn
    by_cases hne : c' = c
    · subst hne
      exfalso
      have h3 := h.count_eq hx hc
      rw [hb] at h3
      rw [← List.count_pos_iff, List.count_erase_self, h3] at hc'
      simp at hc'
    · obtain ⟨x', hx', g⟩ := (h.mem_fields c').mp ((List.mem_erase_of_ne hne).mp hc')
      exact h2 x' hx' c' g hne hn

/-- The result holds only fields of the struct and its embedded structs. -/
theorem Inv.candidate (h : Inv E ot root k [] count visited fields V) {c : Cand} (hc : c ∈ chosen fields) : Candidate E ot root c := by
  obtain ⟨⟨x, hx, h1, _⟩, _⟩ := (h.mem_chosen_iff c).mp hc
  exact (candidate_iff E ot root c).mpr ⟨x.1, (h.reach x hx).1, h1⟩

/-- All fields of the name come behind a field of the result, except the same field of the same struct. -/
theorem Inv.beats (h : Inv E ot root k [] count visited fields V) {c : Cand} (hc : c ∈ chosen fields) {n : Embed}
    (hn : Reach E ot root n.index n.path n.typ) {c' : Cand} (hc' : c' ∈ leaves E ot n) (hname : c'.name = c.name) :
    Beats c c' ∨ ∃ x ∈ V, x.2 = false ∧ c ∈ leaves E ot x.1 ∧ x.1.typ = n.typ ∧ c'.tagged = c.tagged ∧
      x.1.index.length ≤ n.index.length ∧ (∃ i, c.index = x.1.index ++ [i] ∧ c'.index = n.index ++ [i]) ∧
      (x.1.index = n.index → c' = c) := by
  obtain ⟨⟨x, hx, h1, h2⟩, h3⟩ := (h.mem_chosen_iff c).mp hc
  obtain ⟨y, hy, hyt, hyl⟩ := h.reached hn
  obtain ⟨d, hd, i, e1, e2, _, _, e3, e4, e5⟩ := leaf_again E ot hc' hyt
  by_cases hdc : d = c
  · right
    subst hdc
    have hxy : x.1 = y.1 := (leaf_index E ot root (h.reach x hx).1 (h.reach y hy).1 h1 hd rfl).1
    refine ⟨x, hx, h2, h1, by rw [hxy, hyt], e4.symm, by rw [hxy]; exact hyl, ⟨i, by rw [hxy]; exact e2, e1⟩, ?_⟩
    intro he
    rw [hxy] at he
    have hr := (h.reach y hy).1
    rw [he] at hr
    exact (e5 he (reach_unique E ot root hr hn).1).symm
  · left
    have hlen : d.index.length ≤ c'.index.length := by rw [e1, e2]; simp; exact hyl
    rcases h3 y hy d hd hdc (e3.trans hname) with g | ⟨g1, g2, g3⟩
    · left; omega
    · by_cases hl : c.index.length = c'.index.length
      · right; exact ⟨hl, g2, by rw [← e4]; exact g3⟩
      · left; omega

/-- Every field that comes before all others of its name is in the result. -/
theorem Inv.complete (h : Inv E ot root k [] count visited fields V) {c : Cand} (hc : Visible E ot root c) : c ∈ chosen fields := by
  obtain ⟨h1, h2⟩ := hc
  rw [candidate_iff] at h1
  obtain ⟨n, hn, hl⟩ := h1
  obtain ⟨x, hx, hxt, hxl⟩ := h.reached hn
  -- another occurrence of the struct at this depth or above hides the field
  have other : ∀ m : Embed, Reach E ot root m.index m.path m.typ → m.typ = n.typ → m.index.length ≤ n.index.length → m.index = n.index := by
    intro m hm ht hml
    obtain ⟨d, hd, i, e1, e2, _, _, e3, e4, e5⟩ := leaf_again E ot hl ht
    by_cases he : d.index = c.index
    · rw [e1, e2] at he
      exact (List.append_inj' he rfl).1
    · exfalso
      rcases h2 d ((candidate_iff E ot root d).mpr ⟨m, hm, hd⟩) e3 he with g | ⟨_, g1, g2⟩
      · rw [e1, e2] at g
        simp at g
        omega
      · rw [e4, g1] at g2; cases g2
  have hxn := other x.1 (h.reach x hx).1 hxt hxl
  have hc : c ∈ leaves E ot x.1 := by
    obtain ⟨d, hd, i, _, _, _, _, _, _, e5⟩ := leaf_again E ot hl hxt
    have hr := (h.reach x hx).1
    rw [hxn] at hr
    rw [← e5 hxn (reach_unique E ot root hr hn).1]
    exact hd
  rw [h.mem_chosen_iff]
  refine ⟨⟨x, hx, hc, ?_⟩, ?_⟩
  · cases hb : x.2 with
    | false => rfl
    | true =>
      exfalso
      obtain ⟨y, hy, e, he, y', hy', e', he', g1, g2, g3, g4, g5⟩ := (h.flags x hx).mp hb
      have r1 := (reach_child E ot root (h.reach y hy).1 he).1
      have r2 := (reach_child E ot root (h.reach y' hy').1 he').1
      rw [hxn] at g3 g4
      have a := other e r1 (g1.trans hxt) (by omega)
      have b := other e' r2 (g2.trans hxt) (by omega)
      exact g5 (a.trans b.symm)
  · intro x' hx' c' hc' hne hname
    refine h2 c' ((candidate_iff E ot root c').mpr ⟨x'.1, (h.reach x' hx').1, hc'⟩) hname ?_
    intro he
    exact hne (leaf_index E ot root (h.reach x' hx').1 hn hc' hl he).2

/-- The beginning of a shortest way is a shortest way. -/
theorem shortest_parent {index : List Nat} {path : List PathStep} {s t : Ty} {fs : List SField} {i : Nat} {sf : SField}
    (hr : Reach E ot root index path s) (hf : E.fieldsOf s = some fs) (hi : fs[i]? = some sf) (he : Embeds E ot sf t)
    (hs : Shortest E ot root (index ++ [i]) t) : Shortest E ot root index s := by
  refine ⟨⟨path, hr⟩, ?_⟩
  intro index' path' hr'
  have := hs.2 _ _ (.step hr' hf hi he)
  simp at this
  exact this

/-- If structs met twice embed no structs, the result is what the rule of Go says. -/
theorem Inv.sound (h : Inv E ot root k [] count visited fields V) (hd : FlatDiamonds E ot root) {c : Cand} (hc : c ∈ chosen fields) :
    Visible E ot root c := by
  refine ⟨h.candidate hc, ?_⟩
  intro c' hc' hname hne
  obtain ⟨n, hn, hl⟩ := (candidate_iff E ot root c').mp hc'
  rcases h.beats hc hn hl hname with hb | ⟨x, hx, hxb, hxc, hxt, ht, hlen, ⟨i, e1, e2⟩, e3⟩
  · exact hb
  · by_cases hll : x.1.index.length < n.index.length
    · left; rw [e1, e2]; simp; exact hll
    · exfalso
      have hni : n.index ≠ x.1.index := by
        intro he
        exact hne (by rw [e1, e2, he])
      have hshort : ∀ m : Embed, Reach E ot root m.index m.path m.typ → m.typ = x.1.typ → m.index.length = x.1.index.length →
          Shortest E ot root m.index x.1.typ := by
        intro m hm ht hml
        refine ⟨⟨m.path, ht ▸ hm⟩, ?_⟩
        intro index' path' hr'
        rw [hml]
        exact h.short x hx _ _ hr'
      -- a shortest way ends with an edge that was explored
      have edge : ∀ m : Embed, Reach E ot root m.index m.path m.typ → m.typ = x.1.typ → m.index.length = x.1.index.length →
          0 < m.index.length → ∃ y ∈ V, ∃ e ∈ children E ot y.1, e.typ = x.1.typ ∧ e.index = m.index := by
        intro m hm hmt hml hpos
        have hs := hshort m hm hmt hml
        rcases reach_inv E ot root hm with ⟨h0, _, _⟩ | ⟨index, p, s, fs, j, sf, g1, g2, g3, g4, g5, g6⟩
        · rw [h0] at hpos; simp at hpos
        · rw [hmt] at g4
          rw [g5] at hs
          have hps := shortest_parent g1 g2 g3 g4 hs
          obtain ⟨y, hy, hyt, hyl⟩ := h.reached g1
          have hys : Shortest E ot root y.1.index s := by
            refine ⟨⟨y.1.path, hyt ▸ (h.reach y hy).1⟩, ?_⟩
            intro index' path' hr'
            have := hps.2 _ _ hr'
            omega
          by_cases hyi : y.1.index = index
          · refine ⟨y, hy, ⟨x.1.typ, y.1.index ++ [j],
              y.1.path ++ (.member j :: if sf.ty.isPtr then [.deref sf.exported x.1.typ] else [])⟩, ?_, rfl, ?_⟩
            · rw [mem_children, hyt]
              exact ⟨fs, j, sf, g2, g3, g4, rfl, rfl⟩
            · rw [g5, hyi]
          · exact absurd g4 (hd s _ _ hys hps hyi fs g2 sf (List.mem_of_getElem? g3) _)
      have hpos : 0 < x.1.index.length := by
        apply Classical.byContradiction
        intro h0
        have h1 : x.1.index = [] := List.length_eq_zero_iff.mp (by omega)
        have h2 : n.index = [] := List.length_eq_zero_iff.mp (by omega)
        exact hni (by rw [h1, h2])
      obtain ⟨y, hy, e, he, g1, g2⟩ := edge n hn hxt.symm (by omega) (by omega)
      obtain ⟨y', hy', e', he', g1', g2'⟩ := edge x.1 (h.reach x hx).1 rfl rfl hpos
      have : x.2 = true := (h.flags x hx).mpr ⟨y, hy, e, he, y', hy', e', he', g1, g1', by rw [g2]; omega, by rw [g2'],
        by rw [g2, g2']; exact hni⟩
      rw [hxb] at this
      cases this

end

end Jzon
