import Verif.Proof.Struct
import Verif.Proof.Dominant

/-!
# The fields of a struct type: level by level
-/

set_option linter.unusedSimpArgs false

namespace Jzon

open Spec

/-! ## Lists -/

theorem nodup_length_le {A : Type} [DecidableEq A] {l m : List A} (h : l.Nodup) (hs : ∀ x ∈ l, x ∈ m) : l.length ≤ m.length := by
  induction l generalizing m with
  | nil => simp
  | cons x l ih =>
    rw [List.nodup_cons] at h
    have hx := hs x (by simp)
    have := ih (m := m.erase x) h.2 (fun y hy => by
      have hne : y ≠ x := fun e => h.1 (e ▸ hy)
      rw [List.mem_erase_of_ne hne]
      exact hs y (by simp [hy]))
    rw [List.length_erase_of_mem hx] at this
    have : 0 < m.length := List.length_pos_of_mem hx
    simp
    omega

theorem nodup_map_inj {A B : Type} {f : A → B} {l : List A} (h : (l.map f).Nodup) {x y : A} (hx : x ∈ l) (hy : y ∈ l)
    (he : f x = f y) : x = y := by
  induction l with
  | nil => simp at hx
  | cons z l ih =>
    rw [List.map_cons, List.nodup_cons] at h
    simp only [List.mem_cons] at hx hy
    rcases hx with rfl | hx <;> rcases hy with rfl | hy
    · rfl
    · exact absurd (he ▸ List.mem_map_of_mem hy) h.1
    · exact absurd (he ▸ List.mem_map_of_mem hx) h.1
    · exact ih h.2 hx hy

/-- Two elements with different marks. -/
theorem two_iff {A B : Type} (f : A → B) (p : A → Bool) {l : List A} (h : (l.map f).Nodup) :
    1 < (l.filter p).length ↔ ∃ x ∈ l, ∃ y ∈ l, p x = true ∧ p y = true ∧ f x ≠ f y := by
  have hf : ((l.filter p).map f).Nodup := h.sublist (List.filter_sublist.map f)
  constructor
  · intro hl
    match hm : l.filter p with
    | [] => rw [hm] at hl; simp at hl
    | [_] => rw [hm] at hl; simp at hl
    | x :: y :: r =>
      have hx : x ∈ l.filter p := by rw [hm]; simp
      have hy : y ∈ l.filter p := by rw [hm]; simp
      rw [hm] at hf
      simp only [List.map_cons, List.nodup_cons, List.mem_cons, not_or] at hf
      rw [List.mem_filter] at hx hy
      exact ⟨x, hx.1, y, hy.1, hx.2, hy.2, hf.1.1⟩
  · rintro ⟨x, hx, y, hy, px, py, hne⟩
    have hx' : x ∈ l.filter p := List.mem_filter.mpr ⟨hx, px⟩
    have hy' : y ∈ l.filter p := List.mem_filter.mpr ⟨hy, py⟩
    match hm : l.filter p with
    | [] => rw [hm] at hx'; simp at hx'
    | [z] =>
      rw [hm] at hx' hy'
      simp at hx' hy'
      exact absurd (by rw [hx', hy']) hne
    | _ :: _ :: r => simp

/-! ## Embedded structs -/

section
variable (E : StructEnv) (ot : Bool) (root : Ty)

theorem reach_inv {idx : List Nat} {path : List PathStep} {t : Ty} (h : Reach E ot root idx path t) :
    (idx = [] ∧ path = [] ∧ t = root) ∨
    ∃ index p s fs i sf, Reach E ot root index p s ∧ E.fieldsOf s = some fs ∧ fs[i]? = some sf ∧ Embeds E ot sf t ∧
      idx = index ++ [i] ∧ path = p ++ (.member i :: if sf.ty.isPtr then [.deref sf.exported t] else []) := by
  cases h with
  | root => exact .inl ⟨rfl, rfl, rfl⟩
  | step h hf hi he => exact .inr ⟨_, _, _, _, _, _, h, hf, hi, he, rfl, rfl⟩

theorem embeds_unique {sf : SField} {t t' : Ty} (h : Embeds E ot sf t) (h' : Embeds E ot sf t') : t = t' :=
  h.2.2.2.1.trans h'.2.2.2.1.symm

theorem reach_unique {idx : List Nat} {path path' : List PathStep} {t t' : Ty} (h : Reach E ot root idx path t)
    (h' : Reach E ot root idx path' t') : path = path' ∧ t = t' := by
  induction h generalizing path' t' with
  | root =>
    rcases reach_inv E ot root h' with ⟨_, rfl, rfl⟩ | ⟨index, p, s, fs, i, sf, _, _, _, _, h, _⟩
    · exact ⟨rfl, rfl⟩
    · simp at h
  | @step index p s fs i sf t h hf hi he ih =>
    rcases reach_inv E ot root h' with ⟨h2, _, _⟩ | ⟨index', p', s', fs', i', sf', g1, g2, g3, g4, g5, g6⟩
    · simp at h2
    · obtain ⟨rfl, e⟩ := List.append_inj' g5 rfl
      simp at e
      subst e
      obtain ⟨rfl, rfl⟩ := ih g1
      rw [hf] at g2
      simp at g2
      subst g2
      rw [hi] at g3
      simp at g3
      subst g3
      obtain rfl := embeds_unique E ot he g4
      exact ⟨g6.symm, rfl⟩

theorem reach_struct (hr : StructTy E root) {idx : List Nat} {path : List PathStep} {t : Ty} (h : Reach E ot root idx path t) :
    StructTy E t := by
  rcases reach_inv E ot root h with ⟨_, _, rfl⟩ | ⟨_, _, _, _, _, _, _, _, _, h, _, _⟩
  · exact hr
  · exact h.2.2.2.2

/-- The child of an embedded struct is an embedded struct. -/
theorem reach_child {n e : Embed} (h : Reach E ot root n.index n.path n.typ) (he : e ∈ children E ot n) :
    Reach E ot root e.index e.path e.typ ∧ e.index.length = n.index.length + 1 := by
  obtain ⟨fs, i, sf, h1, h2, h3, h4, h5⟩ := (mem_children E ot n e).mp he
  rw [h4, h5]
  exact ⟨.step h h1 h2 h3, by simp⟩

theorem filterMap_map_nodup {A B C D : Type} {l : List A} {g : A → D} (h : (l.map g).Nodup) {f : A → Option B} {k : B → C}
    (hf : ∀ x y b c, f x = some b → f y = some c → k b = k c → g x = g y) : ((l.filterMap f).map k).Nodup := by
  induction l with
  | nil => simp
  | cons x l ih =>
    rw [List.map_cons, List.nodup_cons] at h
    cases hx : f x with
    | none => rw [List.filterMap_cons_none hx]; exact ih h.2
    | some b =>
      rw [List.filterMap_cons_some hx, List.map_cons, List.nodup_cons]
      refine ⟨?_, ih h.2⟩
      rw [List.mem_map]
      rintro ⟨c, hc, hk⟩
      rw [List.mem_filterMap] at hc
      obtain ⟨y, hy, hc⟩ := hc
      exact h.1 (by rw [hf x y b c hx hc hk.symm]; exact List.mem_map_of_mem hy)

theorem numbered_nodup (f : Embed) : ((numbered E f).map (·.2)).Nodup := by
  unfold numbered
  rw [List.zipIdx_map_snd]
  exact List.nodup_range'

theorem children_nodup (f : Embed) : ((children E ot f).map (·.index)).Nodup := by
  refine filterMap_map_nodup (numbered_nodup E f) ?_
  rintro ⟨sf, i⟩ ⟨sf', i'⟩ b c h1 h2 h3
  simp only at h1 h2 ⊢
  split at h1 <;> split at h2
  · cases h1; cases h2
    have := (List.append_inj' h3 rfl).2
    simpa using this
  all_goals simp at h1 h2

theorem leaves_nodup (f : Embed) : ((leaves E ot f).map (·.index)).Nodup := by
  refine filterMap_map_nodup (numbered_nodup E f) ?_
  rintro ⟨sf, i⟩ ⟨sf', i'⟩ b c h1 h2 h3
  simp only at h1 h2 ⊢
  split at h1 <;> split at h2
  · cases h1; cases h2
    have := (List.append_inj' h3 rfl).2
    simpa using this
  all_goals simp at h1 h2

/-! ## The queue -/

/-- The queue and the counts after the embedded structs `K`. -/
structure Queue (st : DState) (K : List Embed) : Prop where
  count : ∀ t, st.nextCount t = (K.filter fun e => decide (e.typ = t)).length
  sub : ∀ n ∈ st.next, n ∈ K
  nodup : (st.next.map (·.typ)).Nodup
  all : ∀ e ∈ K, ∃ n ∈ st.next, n.typ = e.typ

theorem Queue.push {st : DState} {K : List Embed} (h : Queue st K) (e : Embed) : Queue (st.push e) (K ++ [e]) := by
  have h0 : st.nextCount e.typ = 0 ↔ ∀ x ∈ K, x.typ ≠ e.typ := by
    rw [h.count, List.length_eq_zero_iff, List.filter_eq_nil_iff]
    simp
  constructor
  · intro t
    simp only [DState.push, List.filter_append, List.length_append, h.count t]
    by_cases ht : t = e.typ
    · subst ht; simp
    · simp [ht, Ne.symm ht]
  · intro n hn
    simp only [DState.push] at hn
    split at hn
    · simp only [List.mem_append, List.mem_singleton] at hn ⊢
      rcases hn with hn | hn
      · exact .inl (h.sub n hn)
      · exact .inr hn
    · simp [h.sub n hn]
  · simp only [DState.push]
    split
    · rename_i hc
      rw [h0] at hc
      rw [List.map_append, List.nodup_append]
      refine ⟨h.nodup, by simp, ?_⟩
      intro t ht t' ht'
      simp only [List.map_cons, List.map_nil, List.mem_singleton] at ht'
      subst ht'
      rw [List.mem_map] at ht
      obtain ⟨n, hn, rfl⟩ := ht
      exact hc n (h.sub n hn)
    · exact h.nodup
  · intro x hx
    simp only [List.mem_append, List.mem_singleton] at hx
    simp only [DState.push]
    by_cases hc : st.nextCount e.typ = 0
    · rw [if_pos hc]
      rcases hx with hx | rfl
      · obtain ⟨n, hn, he⟩ := h.all x hx
        exact ⟨n, by simp [hn], he⟩
      · exact ⟨x, by simp, rfl⟩
    · rw [if_neg hc]
      rcases hx with hx | rfl
      · exact h.all x hx
      · rw [h0] at hc
        simp only [ne_eq, Classical.not_forall, Decidable.not_not] at hc
        obtain ⟨y, hy, he⟩ := hc
        obtain ⟨n, hn, hne⟩ := h.all y hy
        exact ⟨n, hn, hne.trans he⟩

theorem Queue.pushes {st : DState} {K : List Embed} (h : Queue st K) (l : List Embed) : Queue (l.foldl DState.push st) (K ++ l) := by
  induction l generalizing st K with
  | nil => simpa using h
  | cons e l ih =>
    rw [List.foldl_cons]
    have := ih (h.push e)
    simpa using this

theorem pushes_fields (st : DState) (l : List Embed) : (l.foldl DState.push st).fields = st.fields := by
  induction l generalizing st with
  | nil => rfl
  | cons e l ih => rw [List.foldl_cons, ih]; rfl

theorem pushes_visited (st : DState) (l : List Embed) : (l.foldl DState.push st).visited = st.visited := by
  induction l generalizing st with
  | nil => rfl
  | cons e l ih => rw [List.foldl_cons, ih]; rfl

/-- The fields that come from a struct. -/
def outOf (x : Embed × Bool) : List Cand := (leaves E ot x.1).flatMap (twice x.2)

/-- One level. -/
theorem level_foldl {count : Ty → Nat} {st : DState} {K : List Embed} (hq : Queue st K) (cur : List Embed)
    (hn : (cur.map (·.typ)).Nodup) :
    (cur.foldl (DState.node E ot count) st).fields =
      st.fields ++ ((cur.filter fun f => decide (f.typ ∉ st.visited)).map fun f => (f, decide (count f.typ > 1))).flatMap (outOf E ot) ∧
    (cur.foldl (DState.node E ot count) st).visited =
      ((cur.filter fun f => decide (f.typ ∉ st.visited)).map (·.typ)).reverse ++ st.visited ∧
    Queue (cur.foldl (DState.node E ot count) st)
      (K ++ (cur.filter fun f => decide (f.typ ∉ st.visited)).flatMap (children E ot)) := by
  induction cur generalizing st K with
  | nil => simp; exact hq
  | cons f cur ih =>
    rw [List.map_cons, List.nodup_cons] at hn
    rw [List.foldl_cons]
    unfold DState.node
    by_cases hv : f.typ ∈ st.visited
    · rw [if_pos hv]
      obtain ⟨h1, h2, h3⟩ := ih hq hn.2
      refine ⟨?_, ?_, ?_⟩
      · rw [List.filter_cons_of_neg (by simp [hv])]; exact h1
      · rw [List.filter_cons_of_neg (by simp [hv])]; exact h2
      · rw [List.filter_cons_of_neg (by simp [hv])]; exact h3
    · rw [if_neg hv]
      simp only
      rw [fields_foldl]
      show _ ∧ _ ∧ _
      have hq' : Queue ((children E ot f).foldl DState.push
          { st with
            visited := f.typ :: st.visited,
            fields := st.fields ++ List.flatMap (twice (decide (count f.typ > 1))) (leaves E ot f) }) (K ++ children E ot f) := by
        apply Queue.pushes
        exact ⟨hq.count, hq.sub, hq.nodup, hq.all⟩
      have hfil : cur.filter (fun x => decide (x.typ ∉ f.typ :: st.visited)) = cur.filter (fun x => decide (x.typ ∉ st.visited)) := by
        apply List.filter_congr
        intro x hx
        have : x.typ ≠ f.typ := fun e => hn.1 (e ▸ List.mem_map_of_mem hx)
        simp [this]
      obtain ⟨h1, h2, h3⟩ := ih hq' hn.2
      rw [pushes_visited] at h1 h2 h3
      rw [pushes_fields] at h1
      simp only [hfil] at h1 h2 h3
      rw [List.filter_cons_of_pos (by simp [hv])]
      refine ⟨?_, ?_, ?_⟩
      · refine h1.trans ?_
        simp [outOf]
      · refine h2.trans ?_
        simp
      · have : K ++ (f :: cur.filter fun x => decide (x.typ ∉ st.visited)).flatMap (children E ot) =
            K ++ children E ot f ++ (cur.filter fun x => decide (x.typ ∉ st.visited)).flatMap (children E ot) := by
          simp
        rw [this]
        exact h3

/-! ## The invariant -/

/-- Two different embedded structs of type `t` at depth `k` in the structs explored. -/
def Two (V : List (Embed × Bool)) (k : Nat) (t : Ty) : Prop :=
  ∃ x ∈ V, ∃ e ∈ children E ot x.1, ∃ x' ∈ V, ∃ e' ∈ children E ot x'.1,
    e.typ = t ∧ e'.typ = t ∧ e.index.length = k ∧ e'.index.length = k ∧ e.index ≠ e'.index

/-- What holds before the level `k`; `V` are the structs explored. -/
structure Inv (k : Nat) (next : List Embed) (count : Ty → Nat) (visited : List Ty) (fields : List Cand) (V : List (Embed × Bool)) :
    Prop where
  fields_eq : fields = V.flatMap (outOf E ot)
  visited_eq : ∀ t, t ∈ visited ↔ ∃ x ∈ V, x.1.typ = t
  vnodup : visited.Nodup
  nodup : (V.map (·.1.typ)).Nodup
  reach : ∀ x ∈ V, Reach E ot root x.1.index x.1.path x.1.typ ∧ x.1.index.length < k
  short : ∀ x ∈ V, ∀ index path, Reach E ot root index path x.1.typ → x.1.index.length ≤ index.length
  nreach : ∀ n ∈ next, Reach E ot root n.index n.path n.typ ∧ n.index.length = k
  nnodup : (next.map (·.typ)).Nodup
  closed : ∀ x ∈ V, ∀ e ∈ children E ot x.1, e.typ ∈ visited ∨ ∃ n ∈ next, n.typ = e.typ
  near : ∀ index path t, Reach E ot root index path t → index.length < k → t ∈ visited
  here : ∀ index path t, Reach E ot root index path t → index.length = k → t ∈ visited ∨ ∃ n ∈ next, n.typ = t
  count : ∀ t, count t > 1 ↔ Two E ot V k t
  flags : ∀ x ∈ V, x.2 = true ↔ Two E ot V x.1.index.length x.1.typ

theorem inv_start : Inv E ot root 0 [⟨root, [], []⟩] (fun _ => 0) [] [] [] where
  fields_eq := rfl
  visited_eq := by simp
  vnodup := by simp
  nodup := by simp
  reach := by simp
  short := by simp
  nreach := by
    intro n hn
    simp at hn
    subst hn
    exact ⟨.root, rfl⟩
  nnodup := by simp
  closed := by simp
  near := by intro _ _ _ _ h; omega
  here := by
    intro index path t h hl
    rcases reach_inv E ot root h with ⟨_, _, rfl⟩ | ⟨_, _, _, _, _, _, _, _, _, _, rfl, _⟩
    · exact .inr ⟨⟨t, [], []⟩, by simp, rfl⟩
    · simp at hl
  count := by
    intro t
    constructor
    · intro h; omega
    · rintro ⟨x, hx, _⟩; simp at hx
  flags := by simp

theorem flatMap_nodup {A B C : Type} {l : List A} {f : A → List B} {k : B → C} (h1 : ∀ x ∈ l, ((f x).map k).Nodup)
    (h2 : l.Pairwise fun x y => ∀ b ∈ f x, ∀ c ∈ f y, k b ≠ k c) : ((l.flatMap f).map k).Nodup := by
  induction l with
  | nil => simp
  | cons x l ih =>
    rw [List.pairwise_cons] at h2
    rw [List.flatMap_cons, List.map_append, List.nodup_append]
    refine ⟨h1 x (by simp), ih (fun y hy => h1 y (by simp [hy])) h2.2, ?_⟩
    intro a ha b hb
    rw [List.mem_map] at ha hb
    obtain ⟨a, ha, rfl⟩ := ha
    obtain ⟨b, hb, rfl⟩ := hb
    rw [List.mem_flatMap] at hb
    obtain ⟨y, hy, hb⟩ := hb
    exact h2.1 y hy a ha b hb

theorem inv_step {k : Nat} {next : List Embed} {count : Ty → Nat} {visited : List Ty} {fields : List Cand}
    {V : List (Embed × Bool)} (h : Inv E ot root k next count visited fields V) :
    ∃ F : List Embed, F = next.filter (fun f => decide (f.typ ∉ visited)) ∧
      (next.foldl (DState.node E ot count) ⟨visited, fields, fun _ => 0, []⟩).visited = (F.map (·.typ)).reverse ++ visited ∧
      (F = [] → (next.foldl (DState.node E ot count) ⟨visited, fields, fun _ => 0, []⟩).next = []) ∧
      Inv E ot root (k + 1) (next.foldl (DState.node E ot count) ⟨visited, fields, fun _ => 0, []⟩).next
        (next.foldl (DState.node E ot count) ⟨visited, fields, fun _ => 0, []⟩).nextCount
        (next.foldl (DState.node E ot count) ⟨visited, fields, fun _ => 0, []⟩).visited
        (next.foldl (DState.node E ot count) ⟨visited, fields, fun _ => 0, []⟩).fields
        (V ++ F.map fun f => (f, decide (count f.typ > 1))) := by
  have hq0 : Queue ⟨visited, fields, fun _ => 0, []⟩ [] := ⟨by simp, by simp, by simp, by simp⟩
  obtain ⟨h1, h2, h3⟩ := level_foldl E ot (count := count) hq0 next h.nnodup
  simp only [List.nil_append] at h1 h2 h3
  generalize hst : next.foldl (DState.node E ot count) ⟨visited, fields, fun _ => 0, []⟩ = st at *
  generalize hF : next.filter (fun f => decide (f.typ ∉ visited)) = F at *
  have memF : ∀ n, n ∈ F ↔ n ∈ next ∧ n.typ ∉ visited := by
    intro n; rw [← hF, List.mem_filter]; simp
  have typF : (F.map (·.typ)).Nodup := by
    rw [← hF]; exact h.nnodup.sublist (List.filter_sublist.map _)
  have hvis : ∀ t, t ∈ st.visited ↔ t ∈ visited ∨ ∃ n ∈ F, n.typ = t := by
    intro t
    rw [h2]
    simp only [List.mem_append, List.mem_reverse, List.mem_map]
    exact Or.comm
  have reachF : ∀ n ∈ F, Reach E ot root n.index n.path n.typ ∧ n.index.length = k := fun n hn => h.nreach n ((memF n).mp hn).1
  -- the embedded structs of the new level
  have hK : ((F.flatMap (children E ot)).map (·.index)).Nodup := by
    refine flatMap_nodup (fun x _ => children_nodup E ot x) ?_
    have : F.Pairwise fun x y => x.typ ≠ y.typ := by
      have := typF
      rw [List.Nodup, List.pairwise_map] at this
      exact this
    refine List.Pairwise.imp_of_mem ?_ this
    intro x y hx hy hne b hb c hc hbc
    obtain ⟨_, i, _, _, _, _, h4, _⟩ := (mem_children E ot x b).mp hb
    obtain ⟨_, j, _, _, _, _, h5, _⟩ := (mem_children E ot y c).mp hc
    rw [h4, h5] at hbc
    have he := (List.append_inj' hbc rfl).1
    have r1 := (reachF x hx).1
    rw [he] at r1
    exact hne (reach_unique E ot root r1 (reachF y hy).1).2
  -- children of new structs are one level deeper
  have twoSame : ∀ m t, m ≤ k →
      (Two E ot (V ++ F.map fun f => (f, decide (count f.typ > 1))) m t ↔ Two E ot V m t) := by
    intro m t hm
    have old : ∀ x ∈ V ++ F.map (fun f => (f, decide (count f.typ > 1))), ∀ e ∈ children E ot x.1, e.index.length = m → x ∈ V := by
      intro x hx e he hl
      rw [List.mem_append] at hx
      rcases hx with hx | hx
      · exact hx
      · rw [List.mem_map] at hx
        obtain ⟨f, hf, rfl⟩ := hx
        have := (reach_child E ot root (reachF f hf).1 he).2
        have := (reachF f hf).2
        omega
    constructor
    · rintro ⟨x, hx, e, he, x', hx', e', he', g1, g2, g3, g4, g5⟩
      exact ⟨x, old x hx e he g3, e, he, x', old x' hx' e' he' g4, e', he', g1, g2, g3, g4, g5⟩
    · rintro ⟨x, hx, e, he, x', hx', e', he', g⟩
      exact ⟨x, by simp [hx], e, he, x', by simp [hx'], e', he', g⟩
  refine ⟨F, rfl, h2, ?_, ?_⟩
  · rintro rfl
    cases hn : st.next with
    | nil => rfl
    | cons n r => exact absurd (h3.sub n (by rw [hn]; simp)) (by simp)
  have near' : ∀ index path t, Reach E ot root index path t → index.length < k + 1 → t ∈ st.visited := by
    intro index path t hr hl
    rw [hvis]
    by_cases hlt : index.length < k
    · exact .inl (h.near index path t hr hlt)
    · rcases h.here index path t hr (by omega) with hv | ⟨n, hn, rfl⟩
      · exact .inl hv
      · by_cases hv : n.typ ∈ visited
        · exact .inl hv
        · exact .inr ⟨n, (memF n).mpr ⟨hn, hv⟩, rfl⟩
  have vis' : ∀ t, t ∈ st.visited ↔ ∃ x ∈ V ++ F.map (fun f => (f, decide (count f.typ > 1))), x.1.typ = t := by
    intro t
    rw [hvis, h.visited_eq]
    simp only [List.mem_append, List.mem_map]
    constructor
    · rintro (⟨x, hx, rfl⟩ | ⟨n, hn, rfl⟩)
      · exact ⟨x, .inl hx, rfl⟩
      · exact ⟨_, .inr ⟨n, hn, rfl⟩, rfl⟩
    · rintro ⟨_, hx | ⟨n, hn, rfl⟩, rfl⟩
      · exact .inl ⟨_, hx, rfl⟩
      · exact .inr ⟨n, hn, rfl⟩
  have closed' : ∀ x ∈ V ++ F.map (fun f => (f, decide (count f.typ > 1))), ∀ e ∈ children E ot x.1,
      e.typ ∈ st.visited ∨ ∃ n ∈ st.next, n.typ = e.typ := by
    intro x hx e he
    rw [List.mem_append] at hx
    rcases hx with hx | hx
    · left
      obtain ⟨r, hl⟩ := reach_child E ot root (h.reach x hx).1 he
      exact near' _ _ _ r (by have := (h.reach x hx).2; omega)
    · rw [List.mem_map] at hx
      obtain ⟨f, hf, rfl⟩ := hx
      right
      exact h3.all e (List.mem_flatMap.mpr ⟨f, hf, he⟩)
  constructor
  · rw [h1, List.flatMap_append, h.fields_eq]
  · exact vis'
  · rw [h2, List.nodup_append]
    refine ⟨?_, h.vnodup, ?_⟩
    · exact (List.reverse_perm (F.map (·.typ))).nodup_iff.mpr typF
    · intro a ha b hb
      rw [List.mem_reverse, List.mem_map] at ha
      obtain ⟨n, hn, rfl⟩ := ha
      rintro rfl
      exact ((memF n).mp hn).2 hb
  · rw [List.map_append, List.nodup_append]
    refine ⟨h.nodup, ?_, ?_⟩
    · rw [List.map_map]; exact typF
    · intro a ha b hb
      rw [List.map_map, List.mem_map] at hb
      rw [List.mem_map] at ha
      obtain ⟨x, hx, rfl⟩ := ha
      obtain ⟨n, hn, rfl⟩ := hb
      intro he
      exact ((memF n).mp hn).2 ((h.visited_eq _).mpr ⟨x, hx, he⟩)
  · intro x hx
    rw [List.mem_append] at hx
    rcases hx with hx | hx
    · obtain ⟨g1, g2⟩ := h.reach x hx
      exact ⟨g1, by omega⟩
    · rw [List.mem_map] at hx
      obtain ⟨f, hf, rfl⟩ := hx
      obtain ⟨g1, g2⟩ := reachF f hf
      exact ⟨g1, by simp only; omega⟩
  · intro x hx index path hr
    rw [List.mem_append] at hx
    rcases hx with hx | hx
    · exact h.short x hx index path hr
    · rw [List.mem_map] at hx
      obtain ⟨f, hf, rfl⟩ := hx
      simp only at hr ⊢
      apply Classical.byContradiction
      intro hlt
      have := (reachF f hf).2
      exact ((memF f).mp hf).2 (h.near index path _ hr (by omega))
  · intro n hn
    have := h3.sub n hn
    rw [List.mem_flatMap] at this
    obtain ⟨f, hf, hn⟩ := this
    obtain ⟨g1, g2⟩ := reach_child E ot root (reachF f hf).1 hn
    have := (reachF f hf).2
    exact ⟨g1, by omega⟩
  · exact h3.nodup
  · exact closed'
  · exact near'
  · intro index path t hr hl
    rcases reach_inv E ot root hr with ⟨rfl, _, _⟩ | ⟨index', p, s, fs, i, sf, g1, g2, g3, g4, rfl, rfl⟩
    · simp at hl
    · simp at hl
      have hs := near' _ _ _ g1 (by omega)
      rw [vis'] at hs
      obtain ⟨x, hx, rfl⟩ := hs
      have he := (mem_children E ot x.1
        ⟨t, x.1.index ++ [i], x.1.path ++ (.member i :: if sf.ty.isPtr then [.deref sf.exported t] else [])⟩).mpr
        ⟨fs, i, sf, g2, g3, g4, rfl, rfl⟩
      exact closed' x hx _ he
  · intro t
    rw [h3.count t]
    rw [gt_iff_lt, two_iff (·.index) _ hK]
    constructor
    · rintro ⟨e, he, e', he', g1, g2, g3⟩
      rw [List.mem_flatMap] at he he'
      obtain ⟨f, hf, he⟩ := he
      obtain ⟨f', hf', he'⟩ := he'
      simp only [decide_eq_true_eq] at g1 g2
      refine ⟨_, List.mem_append_right V (List.mem_map_of_mem hf), e, he, _, List.mem_append_right V (List.mem_map_of_mem hf'), e', he',
        g1, g2, ?_, ?_, g3⟩
      · have := (reach_child E ot root (reachF f hf).1 he).2
        rw [(reachF f hf).2] at this
        exact this
      · have := (reach_child E ot root (reachF f' hf').1 he').2
        rw [(reachF f' hf').2] at this
        exact this
    · rintro ⟨x, hx, e, he, x', hx', e', he', g1, g2, g3, g4, g5⟩
      have new : ∀ x ∈ V ++ F.map (fun f => (f, decide (count f.typ > 1))), ∀ e ∈ children E ot x.1, e.index.length = k + 1 →
          e ∈ F.flatMap (children E ot) := by
        intro x hx e he hl
        rw [List.mem_append] at hx
        rcases hx with hx | hx
        · have := (reach_child E ot root (h.reach x hx).1 he).2
          have := (h.reach x hx).2
          omega
        · rw [List.mem_map] at hx
          obtain ⟨f, hf, rfl⟩ := hx
          exact List.mem_flatMap.mpr ⟨f, hf, he⟩
      exact ⟨e, new x hx e he g3, e', new x' hx' e' he' g4, by simpa using g1, by simpa using g2, g5⟩
  · intro x hx
    rw [List.mem_append] at hx
    rcases hx with hx | hx
    · rw [twoSame _ _ (by have := (h.reach x hx).2; omega)]
      exact h.flags x hx
    · rw [List.mem_map] at hx
      obtain ⟨f, hf, rfl⟩ := hx
      simp only
      rw [(reachF f hf).2, twoSame _ _ (Nat.le_refl _), decide_eq_true_eq]
      exact h.count f.typ

/-- The loop ends. -/
theorem levels_done (hr : StructTy E root) (n : Nat) {k : Nat} {next : List Embed} {count : Ty → Nat} {visited : List Ty} {fields : List Cand}
    {V : List (Embed × Bool)} (h : Inv E ot root k next count visited fields V)
    (hn : E.all.length + 2 ≤ n + visited.length) :
    ∃ k' count' visited' fields' V', describeLevels E ot n next count visited fields = some fields' ∧
      Inv E ot root k' [] count' visited' fields' V' := by
  have bound : ∀ {k : Nat} {next : List Embed} {count : Ty → Nat} {visited : List Ty} {fields : List Cand}
      {V : List (Embed × Bool)}, Inv E ot root k next count visited fields V → visited.length ≤ E.all.length := by
    intro k next count visited fields V h
    refine nodup_length_le h.vnodup ?_
    intro t ht
    rw [h.visited_eq] at ht
    obtain ⟨x, hx, rfl⟩ := ht
    obtain ⟨fs, hfs⟩ := reach_struct E ot root hr (h.reach x hx).1
    exact E.complete _ (by rw [hfs]; rfl)
  induction n generalizing k next count visited fields V with
  | zero => have := bound h; omega
  | succ n ih =>
    unfold describeLevels
    by_cases he : next = []
    · subst he
      rw [if_pos rfl]
      exact ⟨k, count, visited, fields, V, rfl, h⟩
    · rw [if_neg he]
      obtain ⟨F, _, h2, h3, h4⟩ := inv_step E ot root h
      simp only
      by_cases hF : F = []
      · rw [h3 hF] at h4 ⊢
        have := bound h
        obtain ⟨m, rfl⟩ : ∃ m, n = m + 1 := ⟨n - 1, by omega⟩
        unfold describeLevels
        rw [if_pos rfl]
        exact ⟨_, _, _, _, _, rfl, h4⟩
      · refine ih h4 ?_
        rw [h2]
        have : 0 < F.length := List.length_pos_iff.mpr hF
        simp
        omega

/-- The result comes from a complete exploration. -/
theorem describe_done (hr : StructTy E root) :
    ∃ k count visited fields V, describeStruct E ot root = some (chosen fields) ∧ Inv E ot root k [] count visited fields V := by
  obtain ⟨k, count, visited, fields, V, h1, h2⟩ := levels_done E ot root hr (E.all.length + 2) (inv_start E ot root) (by simp)
  refine ⟨k, count, visited, fields, V, ?_, h2⟩
  unfold describeStruct
  rw [h1]
  rfl

end

end Jzon
