import Verif.Spec.Struct

/-!
# Sorting, and the choice of one field for each name
-/

set_option linter.unusedSimpArgs false

namespace Jzon

open Spec

/-! ## Orders -/

/-- A strict linear order. -/
structure Linear {A : Type} (lt : A → A → Bool) : Prop where
  irrefl : ∀ a, lt a a = false
  trans : ∀ a b c, lt a b = true → lt b c = true → lt a c = true
  total : ∀ a b, lt a b = true ∨ a = b ∨ lt b a = true

theorem Linear.asymm {A : Type} {lt : A → A → Bool} (h : Linear lt) {a b : A} (hab : lt a b = true) : lt b a = false := by
  cases hb : lt b a with
  | false => rfl
  | true => exact absurd (h.trans a b a hab hb) (by simp [h.irrefl a])

/-- First by one order, then by another. -/
def lex {A B : Type} [DecidableEq A] (la : A → A → Bool) (lb : B → B → Bool) (x y : A × B) : Bool :=
  if x.1 ≠ y.1 then la x.1 y.1 else lb x.2 y.2

theorem lex_linear {A B : Type} [DecidableEq A] {la : A → A → Bool} {lb : B → B → Bool} (ha : Linear la) (hb : Linear lb) :
    Linear (lex la lb) := by
  constructor
  · rintro ⟨a, b⟩; simp [lex, hb.irrefl]
  · rintro ⟨a1, b1⟩ ⟨a2, b2⟩ ⟨a3, b3⟩ h1 h2
    unfold lex at *
    simp only at *
    by_cases e1 : a1 = a2
    · subst e1
      rw [if_neg (by simp)] at h1
      by_cases e2 : a1 = a3
      · subst e2
        rw [if_neg (by simp)] at h2 ⊢
        exact hb.trans _ _ _ h1 h2
      · rw [if_pos e2] at h2 ⊢
        exact h2
    · rw [if_pos e1] at h1
      by_cases e2 : a2 = a3
      · subst e2
        rw [if_pos e1]
        exact h1
      · rw [if_pos e2] at h2
        have h3 := ha.trans _ _ _ h1 h2
        have e3 : a1 ≠ a3 := by rintro rfl; rw [ha.irrefl] at h3; cases h3
        rw [if_pos e3]
        exact h3
  · rintro ⟨a1, b1⟩ ⟨a2, b2⟩
    unfold lex
    simp only
    by_cases e : a1 = a2
    · subst e
      rw [if_neg (by simp), if_neg (by simp)]
      rcases hb.total b1 b2 with h | h | h
      · exact .inl h
      · exact .inr (.inl (by rw [h]))
      · exact .inr (.inr h)
    · rw [if_pos e, if_pos (Ne.symm e)]
      rcases ha.total a1 a2 with h | h | h
      · exact .inl h
      · exact absurd h e
      · exact .inr (.inr h)

theorem bytesLt_linear : Linear bytesLt := by
  constructor
  · intro a; induction a with
    | nil => rfl
    | cons c a ih => simp [bytesLt, ih]
  · intro a b c
    induction a generalizing b c with
    | nil => cases b <;> cases c <;> simp [bytesLt]
    | cons x a ih =>
      cases b with
      | nil => simp [bytesLt]
      | cons y b =>
        cases c with
        | nil => simp [bytesLt]
        | cons z c =>
          intro h1 h2
          unfold bytesLt at h1 h2 ⊢
          by_cases e1 : x = y
          · subst e1
            rw [if_pos rfl] at h1
            by_cases e2 : x = z
            · rw [if_pos e2] at h2 ⊢; exact ih _ _ h1 h2
            · rw [if_neg e2] at h2 ⊢; exact h2
          · rw [if_neg e1] at h1
            by_cases e2 : y = z
            · subst e2; rw [if_neg e1]; exact h1
            · rw [if_neg e2] at h2
              simp only [decide_eq_true_eq] at h1 h2
              have h3 : x < z := UInt8.lt_trans h1 h2
              have e3 : x ≠ z := by rintro rfl; exact absurd h3 (UInt8.lt_irrefl _)
              rw [if_neg e3]
              simpa using h3
  · intro a
    induction a with
    | nil => intro b; cases b <;> simp [bytesLt]
    | cons x a ih =>
      intro b
      cases b with
      | nil => simp [bytesLt]
      | cons y b =>
        unfold bytesLt
        by_cases e : x = y
        · subst e
          simp only [if_true]
          rcases ih b with h | h | h
          · exact .inl h
          · exact .inr (.inl (by rw [h]))
          · exact .inr (.inr h)
        · rw [if_neg e, if_neg (Ne.symm e)]
          simp only [decide_eq_true_eq]
          rcases UInt8.lt_or_lt_of_ne e with h | h
          · exact .inl h
          · exact .inr (.inr h)

theorem indexLess_iff (x y : List Nat) : indexLess x y = true ↔ IndexLt x y := by
  induction x generalizing y with
  | nil =>
    cases y with
    | nil => simp [indexLess]; intro h; cases h
    | cons b y => simp [indexLess]; exact .nil b y
  | cons a x ih =>
    cases y with
    | nil => simp [indexLess]; intro h; cases h
    | cons b y =>
      unfold indexLess
      by_cases e : a = b
      · subst e
        rw [if_neg (by simp), ih]
        exact ⟨.eq a x y, fun h => by cases h with
          | lt _ _ _ _ h => omega
          | eq _ _ _ h => exact h⟩
      · rw [if_pos e]
        simp only [decide_eq_true_eq]
        exact ⟨.lt a b x y, fun h => by cases h with
          | lt _ _ _ _ h => exact h
          | eq _ _ _ h => exact absurd rfl e⟩

theorem indexLess_linear : Linear indexLess := by
  constructor
  · intro a; induction a with
    | nil => rfl
    | cons c a ih => simp [indexLess, ih]
  · intro a b c
    simp only [indexLess_iff]
    intro h1
    induction h1 generalizing c with
    | nil b y => intro h2; cases h2 <;> exact .nil _ _
    | lt a b x y h => intro h2; cases h2 with
      | lt _ _ _ _ h' => exact .lt _ _ _ _ (by omega)
      | eq _ _ _ h' => exact .lt _ _ _ _ h
    | eq a x y h ih => intro h2; cases h2 with
      | lt _ _ _ _ h' => exact .lt _ _ _ _ h'
      | eq _ _ _ h' => exact .eq _ _ _ (ih _ h')
  · intro a
    simp only [indexLess_iff]
    induction a with
    | nil => intro b; cases b with
      | nil => exact .inr (.inl rfl)
      | cons => exact .inl (.nil _ _)
    | cons x a ih =>
      intro b
      cases b with
      | nil => exact .inr (.inr (.nil _ _))
      | cons y b =>
        rcases Nat.lt_trichotomy x y with h | h | h
        · exact .inl (.lt _ _ _ _ h)
        · subst h
          rcases ih b with h | h | h
          · exact .inl (.eq _ _ _ h)
          · exact .inr (.inl (by rw [h]))
          · exact .inr (.inr (.eq _ _ _ h))
        · exact .inr (.inr (.lt _ _ _ _ h))

theorem natLt_linear : Linear fun a b : Nat => decide (a < b) :=
  ⟨by simp, by simp; omega, by simp; omega⟩

theorem boolFirst_linear : Linear fun a b : Bool => a && !b :=
  ⟨by decide, by decide, by decide⟩

/-- What the first sort compares. -/
def candKey (x : Cand) : List Byte × Nat × Bool × List Nat := (x.name, x.index.length, x.tagged, x.index)

def keyLess : List Byte × Nat × Bool × List Nat → List Byte × Nat × Bool × List Nat → Bool :=
  lex bytesLt (lex (fun a b => decide (a < b)) (lex (fun a b => a && !b) indexLess))

theorem keyLess_linear : Linear keyLess :=
  lex_linear bytesLt_linear (lex_linear natLt_linear (lex_linear boolFirst_linear indexLess_linear))

theorem candLess_eq (x y : Cand) : candLess x y = keyLess (candKey x) (candKey y) := by
  unfold candLess keyLess candKey lex
  simp only
  by_cases h1 : x.name = y.name
  · by_cases h2 : x.index.length = y.index.length
    · cases h3 : x.tagged <;> cases h4 : y.tagged <;> simp [h1, h2]
    · simp [h1, h2]
  · simp [h1]

/-! ## Sorting -/

theorem insertBy_perm {A : Type} (less : A → A → Bool) (x : A) (l : List A) : (insertBy less x l).Perm (x :: l) := by
  induction l with
  | nil => exact .refl _
  | cons y l ih =>
    unfold insertBy
    split
    · exact (ih.cons y).trans (.swap _ _ _)
    · exact .refl _

theorem sortBy_perm {A : Type} (less : A → A → Bool) (l : List A) : (sortBy less l).Perm l := by
  induction l with
  | nil => exact .refl _
  | cons x l ih => exact (insertBy_perm less x _).trans (ih.cons x)

theorem insertBy_sorted {A K : Type} {less : A → A → Bool} {key : A → K} {lt : K → K → Bool} (hl : Linear lt)
    (hk : ∀ x y, less x y = lt (key x) (key y)) (x : A) (l : List A) (h : l.Pairwise fun a b => less b a = false) :
    (insertBy less x l).Pairwise fun a b => less b a = false := by
  induction l with
  | nil => simp [insertBy]
  | cons y l ih =>
    rw [List.pairwise_cons] at h
    unfold insertBy
    by_cases hyx : less y x = true
    · rw [if_pos hyx, List.pairwise_cons]
      refine ⟨?_, ih h.2⟩
      intro z hz
      have := (insertBy_perm less x l).mem_iff.mp hz
      simp at this
      rcases this with rfl | hz
      · rw [hk] at hyx ⊢
        exact hl.asymm hyx
      · exact h.1 z hz
    · rw [if_neg hyx, List.pairwise_cons]
      have hyx' : less y x = false := by simpa using hyx
      refine ⟨?_, List.pairwise_cons.mpr h⟩
      intro z hz
      simp at hz
      rcases hz with rfl | hz
      · exact hyx'
      · have h1 := h.1 z hz
        cases h2 : less z x with
        | false => rfl
        | true =>
          exfalso
          rw [hk] at h1 h2 hyx'
          rcases hl.total (key y) (key z) with h3 | h3 | h3
          · rw [hl.trans _ _ _ h3 h2] at hyx'; cases hyx'
          · rw [h3, h2] at hyx'; cases hyx'
          · rw [h1] at h3; cases h3

theorem sortBy_sorted {A K : Type} {less : A → A → Bool} {key : A → K} {lt : K → K → Bool} (hl : Linear lt)
    (hk : ∀ x y, less x y = lt (key x) (key y)) (l : List A) : (sortBy less l).Pairwise fun a b => less b a = false := by
  induction l with
  | nil => simp [sortBy]
  | cons x l ih => exact insertBy_sorted hl hk x _ ih

/-! ## One field for each name -/

/-- `candLess y x = false` in terms of names and depths. -/
theorem candLess_false {x y : Cand} (h : candLess y x = false) :
    bytesLt y.name x.name = false ∧ (x.name = y.name → x.index.length ≤ y.index.length ∧
      (x.index.length = y.index.length → y.tagged = true → x.tagged = true)) := by
  unfold candLess at h
  by_cases h1 : y.name = x.name
  · rw [if_neg (by simpa using h1)] at h
    refine ⟨by rw [h1]; exact bytesLt_linear.irrefl _, fun _ => ?_⟩
    by_cases h2 : y.index.length = x.index.length
    · rw [if_neg (by simpa using h2)] at h
      refine ⟨by omega, fun _ ht => ?_⟩
      by_cases h3 : y.tagged = x.tagged
      · rw [← h3]; exact ht
      · rw [if_pos h3, ht] at h; cases h
    · rw [if_pos h2] at h
      simp at h
      exact ⟨h, by omega⟩
  · rw [if_pos h1] at h
    exact ⟨h, fun h2 => absurd h2.symm h1⟩

theorem takeWhile_name {n : List Byte} {c : Cand} {l : List Cand} (h : c ∈ l.takeWhile fun fj => decide (fj.name = n)) :
    c.name = n := by
  induction l with
  | nil => simp at h
  | cons x l ih =>
    rw [List.takeWhile_cons] at h
    by_cases hx : x.name = n
    · simp only [hx, decide_true, if_true, List.mem_cons] at h
      rcases h with rfl | h
      · exact hx
      · exact ih h
    · simp [hx] at h

/-- In a sorted list all fields of a name stand together. -/
theorem dropWhile_name {fi : Cand} {l : List Cand} (h : (fi :: l).Pairwise fun a b => candLess b a = false) {c : Cand}
    (hc : c ∈ l.dropWhile fun fj => decide (fj.name = fi.name)) : c.name ≠ fi.name := by
  induction l with
  | nil => simp at hc
  | cons x l ih =>
    rw [List.dropWhile_cons] at hc
    by_cases hx : x.name = fi.name
    · simp only [hx, decide_true, if_true] at hc
      refine ih ?_ hc
      simp only [List.pairwise_cons, List.mem_cons] at h ⊢
      exact ⟨fun a ha => h.1 a (.inr ha), h.2.2⟩
    · simp only [hx, decide_false] at hc
      simp only [List.pairwise_cons, List.mem_cons] at h
      have h1 := (candLess_false (h.1 x (.inl rfl))).1
      rw [if_neg (by simp)] at hc
      simp only [List.mem_cons] at hc
      rcases hc with rfl | hc
      · exact hx
      · intro he
        have h2 := (candLess_false (h.2.1 c hc)).1
        rw [he] at h2
        rcases bytesLt_linear.total x.name fi.name with h3 | h3 | h3
        · rw [h1] at h3; cases h3
        · exact hx h3
        · rw [h2] at h3; cases h3

/-- What remains of a sorted list. -/
theorem mem_pickFields (n : Nat) (l : List Cand) (hn : l.length ≤ n) (h : l.Pairwise fun a b => candLess b a = false) (c : Cand) :
    c ∈ pickFields n l ↔ c ∈ l ∧ ∀ c' ∈ l.erase c, c'.name = c.name → Beats c c' := by
  induction n generalizing l with
  | zero =>
    have : l = [] := by cases l with
      | nil => rfl
      | cons => simp at hn
    subst this
    simp [pickFields]
  | succ n ih =>
    cases l with
    | nil => simp [pickFields]
    | cons fi rest =>
      have hsplit := List.takeWhile_append_dropWhile (p := fun fj : Cand => decide (fj.name = fi.name)) (l := rest)
      have hafter : ∀ c, c ∈ rest.dropWhile (fun fj => decide (fj.name = fi.name)) → c.name ≠ fi.name :=
        fun c hc => dropWhile_name h hc
      have hsame : ∀ c, c ∈ rest.takeWhile (fun fj => decide (fj.name = fi.name)) → c.name = fi.name :=
        fun c hc => takeWhile_name hc
      have hlen : (rest.dropWhile fun fj => decide (fj.name = fi.name)).length ≤ n := by
        have := (List.dropWhile_sublist (fun fj : Cand => decide (fj.name = fi.name)) (l := rest)).length_le
        simp at hn
        omega
      have hsorted : (rest.dropWhile fun fj => decide (fj.name = fi.name)).Pairwise fun a b => candLess b a = false :=
        (List.pairwise_cons.mp h).2.sublist (List.dropWhile_sublist _)
      have ih' := ih _ hlen hsorted
      unfold pickFields
      simp only
      revert hsplit hafter hsame ih'
      generalize hS : rest.takeWhile (fun fj => decide (fj.name = fi.name)) = S
      generalize rest.dropWhile (fun fj => decide (fj.name = fi.name)) = A
      intro hsplit hafter hsame ih'
      subst hsplit
      -- the fields of another name
      have other : c.name ≠ fi.name → ((c ∈ A ∧ ∀ c' ∈ A.erase c, c'.name = c.name → Beats c c') ↔
          (c ∈ fi :: (S ++ A) ∧ ∀ c' ∈ (fi :: (S ++ A)).erase c, c'.name = c.name → Beats c c')) := by
        intro hne
        have h1 : c ≠ fi := fun e => hne (by rw [e])
        have h2 : c ∉ S := fun e => hne (hsame c e)
        have e : (fi :: (S ++ A)).erase c = fi :: (S ++ A.erase c) := by
          rw [List.erase_cons_tail (by simpa using Ne.symm h1), List.erase_append_right _ h2]
        rw [e]
        simp only [List.mem_cons, List.mem_append, h1, h2, false_or]
        constructor
        · rintro ⟨g1, g2⟩
          refine ⟨g1, ?_⟩
          rintro c' (rfl | g | g) gn
          · exact absurd gn.symm hne
          · exact absurd ((hsame c' g).symm.trans gn).symm hne
          · exact g2 c' g gn
        · rintro ⟨g1, g2⟩
          exact ⟨g1, fun c' g gn => g2 c' (.inr (.inr g)) gn⟩
      -- the fields of this name: only the first one may remain
      have same : c.name = fi.name → ((c ∈ fi :: (S ++ A) ∧ ∀ c' ∈ (fi :: (S ++ A)).erase c, c'.name = c.name → Beats c c') ↔
          (c = fi ∧ ∀ c' ∈ S, Beats fi c')) := by
        intro he
        have hA : c ∉ A := fun hm => hafter c hm he
        constructor
        · rintro ⟨g1, g2⟩
          by_cases hc : c = fi
          · subst hc
            refine ⟨rfl, fun c' hc' => g2 c' ?_ (hsame c' hc')⟩
            rw [List.erase_cons_head]
            simp [hc']
          · exfalso
            simp only [List.mem_cons, hc, List.mem_append, hA, false_or, or_false] at g1
            have h1 := g2 fi (by rw [List.erase_cons_tail (by simpa using Ne.symm hc)]; simp) he.symm
            have h2 := (candLess_false ((List.pairwise_cons.mp h).1 c (by simp [g1]))).2 he.symm
            rcases h1 with h1 | ⟨h1, h3, h4⟩
            · omega
            · rw [h2.2 h1.symm h3] at h4; cases h4
        · rintro ⟨rfl, g⟩
          refine ⟨by simp, ?_⟩
          rw [List.erase_cons_head]
          intro c' hc' hn'
          simp only [List.mem_append] at hc'
          rcases hc' with hc' | hc'
          · exact g c' hc'
          · exact absurd hn' (hafter c' hc')
      -- the choice of the code
      have beats : ∀ x S', S = x :: S' →
          ((∀ c' ∈ S, Beats fi c') ↔ ¬ (fi.index.length = x.index.length ∧ fi.tagged = x.tagged)) := by
        rintro x S' rfl
        have hx := (candLess_false ((List.pairwise_cons.mp h).1 x (by simp))).2 (hsame x (by simp)).symm
        constructor
        · intro g
          rcases g x (by simp) with g | ⟨g, g1, g2⟩
          · omega
          · rw [g1, g2]; simp
        · intro g c' hc'
          have hxc : x.index.length ≤ c'.index.length ∧ (x.index.length = c'.index.length → c'.tagged = true → x.tagged = true) := by
            simp only [List.mem_cons] at hc'
            rcases hc' with rfl | hc'
            · exact ⟨Nat.le_refl _, fun _ h => h⟩
            · have := (List.pairwise_cons.mp (List.pairwise_cons.mp h).2).1 c' (by simp [hc'])
              exact (candLess_false this).2 ((hsame x (by simp)).trans (hsame c' (by simp [hc'])).symm)
          by_cases hl : fi.index.length = x.index.length
          · have ht : fi.tagged ≠ x.tagged := fun e => g ⟨hl, e⟩
            have : x.tagged = false := by
              cases hx' : x.tagged with
              | false => rfl
              | true => exact absurd (hx.2 hl hx') (by rw [hx'] at ht; exact ht)
            have ht2 : fi.tagged = true := by cases hf : fi.tagged with
              | true => rfl
              | false => rw [hf, this] at ht; exact absurd rfl ht
            by_cases hl2 : x.index.length = c'.index.length
            · right
              refine ⟨by omega, ht2, ?_⟩
              cases hc2 : c'.tagged with
              | false => rfl
              | true => rw [hxc.2 hl2 hc2] at this; cases this
            · left; omega
          · left; omega
      by_cases he : c.name = fi.name
      · rw [same he]
        have hA : ∀ m, c ∉ pickFields m A ∨ True := fun _ => .inr trivial
        have hp : c ∉ pickFields n A := by
          rw [ih']
          rintro ⟨g, _⟩
          exact hafter c g he
        cases S with
        | nil => simp [hp]
        | cons x S' =>
          rw [if_neg (by simp), beats x S' rfl]
          simp only [dominantField]
          by_cases hd : fi.index.length = x.index.length ∧ fi.tagged = x.tagged
          · rw [if_pos hd]; simp [hp, hd]
          · rw [if_neg hd]; simp [hp, hd]
      · rw [← other he, ← ih']
        have h1 : c ≠ fi := fun e => he (by rw [e])
        cases S with
        | nil => simp [h1]
        | cons x S' =>
          rw [if_neg (by simp)]
          simp only [dominantField]
          by_cases hd : fi.index.length = x.index.length ∧ fi.tagged = x.tagged
          · rw [if_pos hd]
          · rw [if_neg hd]; simp [h1]

/-- One field for each name. -/
theorem pickFields_nodup (n : Nat) (l : List Cand) (hn : l.length ≤ n) (h : l.Pairwise fun a b => candLess b a = false) :
    ((pickFields n l).map (·.name)).Nodup := by
  induction n generalizing l with
  | zero => simp [pickFields]
  | succ n ih =>
    cases l with
    | nil => simp [pickFields]
    | cons fi rest =>
      have hlen : (rest.dropWhile fun fj => decide (fj.name = fi.name)).length ≤ n := by
        have := (List.dropWhile_sublist (fun fj : Cand => decide (fj.name = fi.name)) (l := rest)).length_le
        simp at hn
        omega
      have hsorted : (rest.dropWhile fun fj => decide (fj.name = fi.name)).Pairwise fun a b => candLess b a = false :=
        (List.pairwise_cons.mp h).2.sublist (List.dropWhile_sublist _)
      have hnot : fi.name ∉ (pickFields n (rest.dropWhile fun fj => decide (fj.name = fi.name))).map (·.name) := by
        rw [List.mem_map]
        rintro ⟨c, h1, h2⟩
        rw [mem_pickFields _ _ hlen hsorted] at h1
        exact dropWhile_name h h1.1 h2
      have ih' := ih _ hlen hsorted
      unfold pickFields
      simp only
      split
      · rw [List.map_cons, List.nodup_cons]
        exact ⟨hnot, ih'⟩
      · cases hS : rest.takeWhile (fun fj => decide (fj.name = fi.name)) with
        | nil => contradiction
        | cons x S' =>
          simp only [dominantField]
          by_cases hd : fi.index.length = x.index.length ∧ fi.tagged = x.tagged
          · rw [if_pos hd]; exact ih'
          · rw [if_neg hd]
            simp only
            rw [List.map_cons, List.nodup_cons]
            exact ⟨hnot, ih'⟩

/-- The fields that remain of a list. -/
def chosen (fields : List Cand) : List Cand :=
  sortBy (fun x y => indexLess x.index y.index) (pickFields (sortBy candLess fields).length (sortBy candLess fields))

theorem mem_chosen (l : List Cand) (c : Cand) :
    c ∈ chosen l ↔ c ∈ l ∧ ∀ c' ∈ l.erase c, c'.name = c.name → Beats c c' := by
  unfold chosen
  rw [(sortBy_perm _ _).mem_iff, mem_pickFields _ _ (Nat.le_refl _) (sortBy_sorted keyLess_linear candLess_eq l),
    (sortBy_perm candLess l).mem_iff]
  simp only [((sortBy_perm candLess l).erase c).mem_iff]

theorem chosen_nodup (l : List Cand) : ((chosen l).map (·.name)).Nodup := by
  unfold chosen
  exact ((sortBy_perm _ _).map _).nodup_iff.mpr (pickFields_nodup _ _ (Nat.le_refl _) (sortBy_sorted keyLess_linear candLess_eq l))

theorem chosen_sorted (l : List Cand) : (chosen l).Pairwise fun a b => ¬ IndexLt b.index a.index := by
  unfold chosen
  have := sortBy_sorted (less := fun x y : Cand => indexLess x.index y.index) (key := Cand.index) indexLess_linear (fun _ _ => rfl)
    (pickFields (sortBy candLess l).length (sortBy candLess l))
  refine this.imp ?_
  intro a b h h2
  rw [← indexLess_iff] at h2
  rw [h2] at h
  cases h

end Jzon
