import Verif.Spec.Reorder
import Verif.Proof.Alike
import Verif.Proof.Reformat
import Verif.Proof.DecInj

/-!
# Texts that differ in the order of the members of objects
-/

set_option linter.unusedSimpArgs false

namespace Jzon

open Spec

/-! ## Lists -/

theorem each_append_left {A B : Type} {R : A → B → Prop} {xs ys : List A} {zs : List B} (h : Each R (xs ++ ys) zs) :
    ∃ as bs, zs = as ++ bs ∧ Each R xs as ∧ Each R ys bs := by
  induction xs generalizing zs with
  | nil => exact ⟨[], zs, rfl, .nil, h⟩
  | cons x xs ih =>
    cases h with
    | cons h hr =>
      obtain ⟨as, bs, rfl, h1, h2⟩ := ih hr
      exact ⟨_ :: as, bs, rfl, .cons h h1, h2⟩

theorem each_appended {A B : Type} {R : A → B → Prop} {xs ys : List A} {as bs : List B} (h : Each R xs as) (h' : Each R ys bs) :
    Each R (xs ++ ys) (as ++ bs) := by
  induction h with
  | nil => exact h'
  | cons h _ ih => exact .cons h ih

/-- With two neighbours exchanged. -/
theorem each_neighbours {A B : Type} {R : A → B → Prop} {xs ys : List A} {m n : A} {zs : List B} (h : Each R (xs ++ m :: n :: ys) zs) :
    ∃ as x y bs, zs = as ++ x :: y :: bs ∧ R m x ∧ R n y ∧ Each R (xs ++ n :: m :: ys) (as ++ y :: x :: bs) := by
  obtain ⟨as, bs, rfl, h1, h2⟩ := each_append_left h
  cases h2 with
  | cons hx h2 =>
    cases h2 with
    | cons hy h2 => exact ⟨as, _, _, _, rfl, hx, hy, each_appended h1 (.cons hy (.cons hx h2))⟩

theorem visits_append {S X : Type} {G : S → X → S → Prop} {s s' : S} {xs ys : List X} :
    Visits G s (xs ++ ys) s' ↔ ∃ s1, Visits G s xs s1 ∧ Visits G s1 ys s' := by
  induction xs generalizing s with
  | nil => exact ⟨fun h => ⟨s, .nil s, h⟩, fun ⟨_, h1, h2⟩ => by cases h1; exact h2⟩
  | cons x xs ih =>
    constructor
    · intro h
      cases h with
      | cons h hr =>
        obtain ⟨s1, h1, h2⟩ := ih.mp hr
        exact ⟨s1, .cons h h1, h2⟩
    · rintro ⟨s1, h1, h2⟩
      cases h1 with
      | cons h hr => exact .cons h (ih.mpr ⟨s1, hr, h2⟩)

theorem visits_swap {S X : Type} {G : S → X → S → Prop} {s s' : S} {xs ys : List X} {m n : X}
    (hG : ∀ a b c, G a m b → G b n c → ∃ b', G a n b' ∧ G b' m c) (h : Visits G s (xs ++ m :: n :: ys) s') : Visits G s (xs ++ n :: m :: ys) s' := by
  obtain ⟨s1, h1, h2⟩ := visits_append.mp h
  cases h2 with
  | cons hm h2 =>
    cases h2 with
    | cons hn h2 =>
      obtain ⟨b', hb, hb'⟩ := hG _ _ _ hm hn
      exact visits_append.mpr ⟨s1, h1, .cons hb (.cons hb' h2)⟩

theorem find_swap {A : Type} {f : A → Bool} {as bs : List A} {x y : A} (h : ¬ (f x = true ∧ f y = true)) :
    (as ++ x :: y :: bs).reverse.find? f = (as ++ y :: x :: bs).reverse.find? f := by
  simp only [List.reverse_append, List.reverse_cons, List.append_assoc, List.find?_append, List.find?_cons, List.find?_nil, List.nil_append, List.cons_append]
  cases hx : f x <;> cases hy : f y <;> simp_all

section
variable {F : Type}

theorem putAll_swap {old : Key → Option (Val F)} {as bs : List (Key × Val F)} {x y : Key × Val F} (h : x.1 ≠ y.1) :
    putAll old (as ++ x :: y :: bs) = putAll old (as ++ y :: x :: bs) := by
  funext k
  unfold putAll
  rw [find_swap (fun ⟨h1, h2⟩ => h (by rw [eq_of_beq h1, eq_of_beq h2]))]

theorem lastWins_swap {as bs : List (List Byte × GoVal F)} {x y : List Byte × GoVal F} (h : x.1 ≠ y.1) :
    lastWins (as ++ x :: y :: bs) = lastWins (as ++ y :: x :: bs) := by
  funext k
  unfold lastWins
  rw [find_swap (fun ⟨h1, h2⟩ => h (by rw [eq_of_beq h1, eq_of_beq h2]))]

/-! ## Places -/

theorem consistent_tail {x : PathStep} {p q : List PathStep} (h : Consistent (x :: p) (x :: q)) : Consistent p q := by
  intro r e t p' e' t' q' h1 h2
  exact h (x :: r) e t p' e' t' q' (by rw [h1]; rfl) (by rw [h2]; rfl)

/-- Changes at two places, none within the other, may be made in any order. -/
theorem atPath_swap {zero : Ty → Val F} {G H : Val F → Val F → Prop} {p q : List PathStep} (hpq : ¬ p <+: q) (hqp : ¬ q <+: p) (hc : Consistent p q)
    {a b c : Val F} (h1 : AtPath zero G p a b) (h2 : AtPath zero H q b c) : ∃ b', AtPath zero H q a b' ∧ AtPath zero G p b' c := by
  induction h1 generalizing q c with
  | here a b h => exact absurd (List.nil_prefix) hpq
  | member i p vs a b hi h ih =>
    cases h2 with
    | here _ _ h => exact absurd (List.nil_prefix) hqp
    | member j q ws a2 b2 hj h2 =>
      have hlt := (List.getElem?_eq_some_iff.mp hi).1
      by_cases hij : i = j
      · subst hij
        rw [List.getElem?_set_self hlt] at hj
        cases hj
        obtain ⟨b', h3, h4⟩ := ih (fun h => hpq (List.cons_prefix_cons.mpr ⟨rfl, h⟩)) (fun h => hqp (List.cons_prefix_cons.mpr ⟨rfl, h⟩)) (consistent_tail hc) h2
        refine ⟨_, .member i q vs a b' hi h3, ?_⟩
        have := AtPath.member (zero := zero) (G := G) i p (vs.set i b') b' b2 (List.getElem?_set_self hlt) h4
        rwa [List.set_set] at this ⊢
      · rw [List.getElem?_set_ne hij] at hj
        refine ⟨_, .member j q vs a2 b2 hj h2, ?_⟩
        rw [List.set_comm _ _ hij]
        exact .member i p _ a b (by rw [List.getElem?_set_ne (Ne.symm hij)]; exact hi) h
  | deref e t p a b h ih =>
    cases h2 with
    | here _ _ h => exact absurd (List.nil_prefix) hqp
    | deref e' t' q _ c h2 =>
      obtain ⟨rfl, rfl⟩ := hc [] e t p e' t' q rfl rfl
      obtain ⟨b', h3, h4⟩ := ih (fun h => hpq (List.cons_prefix_cons.mpr ⟨rfl, h⟩)) (fun h => hqp (List.cons_prefix_cons.mpr ⟨rfl, h⟩)) (consistent_tail hc) h2
      exact ⟨_, .deref e t q a b' h3, .deref e t p b' c h4⟩
  | alloc t p b h ih =>
    cases h2 with
    | here _ _ h => exact absurd (List.nil_prefix) hqp
    | deref e' t' q _ c h2 =>
      obtain ⟨rfl, rfl⟩ := hc [] true t p e' t' q rfl rfl
      obtain ⟨b', h3, h4⟩ := ih (fun h => hpq (List.cons_prefix_cons.mpr ⟨rfl, h⟩)) (fun h => hqp (List.cons_prefix_cons.mpr ⟨rfl, h⟩)) (consistent_tail hc) h2
      exact ⟨_, .alloc t q b' h3, .deref true t p b' c h4⟩

theorem memberRel_swap {strict : Bool} {zero : Ty → Val F} {sl : List Byte → Nat → Prop} {fs : List Field} {R : Ty → Rel F}
    (hfs : fs.Pairwise fun f g => ¬ f.path <+: g.path ∧ ¬ g.path <+: f.path ∧ Consistent f.path g.path ∧ Consistent g.path f.path)
    {m n : List Byte × List Byte} {s s' : List Byte} (hm : Str m.1 s) (hn : Str n.1 s') (hs : ∀ i, ¬ (sl s i ∧ sl s' i)) {a b c : Val F}
    (h1 : MemberRel strict zero sl fs R a m b) (h2 : MemberRel strict zero sl fs R b n c) :
    ∃ b', MemberRel strict zero sl fs R a n b' ∧ MemberRel strict zero sl fs R b' m c := by
  obtain ⟨k, hk, h1⟩ := h1
  obtain ⟨k', hk', h2⟩ := h2
  obtain rfl := Props.C13_denotation_unique hm hk
  obtain rfl := Props.C13_denotation_unique hn hk'
  rcases h1 with ⟨i, f, hi, hf, h1⟩ | ⟨hi, hst, hv, rfl⟩
  · rcases h2 with ⟨j, g, hj, hg, h2⟩ | ⟨hj, hst, hv, rfl⟩
    · have hij : i ≠ j := fun h => hs i ⟨hi, h ▸ hj⟩
      obtain ⟨hp, hq, hc⟩ : ¬ f.path <+: g.path ∧ ¬ g.path <+: f.path ∧ Consistent f.path g.path := by
        obtain ⟨hi1, hi2⟩ := List.getElem?_eq_some_iff.mp hf
        obtain ⟨hj1, hj2⟩ := List.getElem?_eq_some_iff.mp hg
        rcases Nat.lt_or_gt_of_ne hij with h | h
        · have := List.pairwise_iff_getElem.mp hfs i j hi1 hj1 h
          rw [hi2, hj2] at this
          exact ⟨this.1, this.2.1, this.2.2.1⟩
        · have := List.pairwise_iff_getElem.mp hfs j i hj1 hi1 h
          rw [hi2, hj2] at this
          exact ⟨this.2.1, this.1, this.2.2.2⟩
      obtain ⟨b', h3, h4⟩ := atPath_swap hp hq hc h1 h2
      exact ⟨b', ⟨_, hn, .inl ⟨j, g, hj, hg, h3⟩⟩, ⟨_, hm, .inl ⟨i, f, hi, hf, h4⟩⟩⟩
    · exact ⟨a, ⟨_, hn, .inr ⟨hj, hst, hv, rfl⟩⟩, ⟨_, hm, .inl ⟨i, f, hi, hf, h1⟩⟩⟩
  · exact ⟨c, ⟨_, hn, h2⟩, ⟨_, hm, .inr ⟨hi, hst, hv, rfl⟩⟩⟩

/-! ## Go values -/

theorem toGoList_of_each {num : List Byte → Option (GoVal F)} {vs : List JVal} {gs : List (GoVal F)} (h : Each (fun j g => toGo num j = some g) vs gs) :
    toGoList num vs = some gs := by
  induction h with
  | nil => rfl
  | cons h _ ih => simp [toGoList, h, ih]

theorem toGoMembers_of_each {num : List Byte → Option (GoVal F)} {vs : List (List Byte × JVal)} {gs : List (List Byte × GoVal F)}
    (h : Each (fun j g => j.1 = g.1 ∧ toGo num j.2 = some g.2) vs gs) : toGoMembers num vs = some gs := by
  induction h with
  | nil => rfl
  | @cons a b as bs h _ ih =>
    obtain ⟨k, j⟩ := a
    obtain ⟨k', g⟩ := b
    obtain ⟨rfl, h⟩ := h
    simp [toGoMembers, h, ih]

theorem each_through {A B C : Type} {R : A → B → Prop} {Q : B → C → Prop} {as : List A} {bs : List B} {cs : List C} (h : Each R as bs) (h' : Each Q bs cs) :
    Each (fun a c => ∃ b, R a b ∧ Q b c) as cs := by
  induction h generalizing cs with
  | nil =>
    cases h'
    exact .nil
  | cons h _ ih =>
    cases h' with
    | cons h' hr => exact .cons ⟨_, h, h'⟩ (ih hr)

theorem each_between {A B C : Type} {R : A → B → Prop} {Q : B → C → Prop} {as : List A} {cs : List C} (h : Each (fun a c => ∃ b, R a b ∧ Q b c) as cs) :
    ∃ bs, Each R as bs ∧ Each Q bs cs := by
  induction h with
  | nil => exact ⟨[], .nil, .nil⟩
  | cons h _ ih =>
    obtain ⟨b, h1, h2⟩ := h
    obtain ⟨bs, h3, h4⟩ := ih
    exact ⟨b :: bs, .cons h1 h3, .cons h2 h4⟩

/-- The text denotes a value that has this Go value. -/
def GoText (num : List Byte → Option (GoVal F)) (t : List Byte) (g : GoVal F) : Prop := ∃ j, Value t j ∧ toGo num j = some g

theorem goText_array {num : List Byte → Option (GoVal F)} {t : List Byte} {ts : List (List Byte)} (h : ArrayOf t ts) (hs : ∀ u ∈ ts, Solid u) {g : GoVal F} :
    GoText num t g ↔ ∃ gs, g = .arr gs ∧ Each (GoText num) ts gs := by
  constructor
  · rintro ⟨j, hj, hg⟩
    obtain ⟨js, rfl⟩ := value_of_array h hj
    obtain ⟨us, hus, he⟩ := value_arr_iff.mp hj
    obtain rfl := arrayOf_same h hus hs (fun u hu => by
      obtain ⟨j, _, hj⟩ := each_left he hu
      exact .value hj)
    simp only [toGo, Option.map_eq_some_iff] at hg
    obtain ⟨gs, hgs, rfl⟩ := hg
    exact ⟨gs, rfl, each_through he (each_of_toGoList hgs)⟩
  · rintro ⟨gs, rfl, he⟩
    obtain ⟨js, h1, h2⟩ := each_between he
    exact ⟨.arr js, value_arr_iff.mpr ⟨ts, h, h1⟩, by simp [toGo, toGoList_of_each h2]⟩

theorem goText_object {num : List Byte → Option (GoVal F)} {t : List Byte} {ms : List (List Byte × List Byte)} (h : ObjectOf t ms)
    (hs : ∀ m ∈ ms, Solid m.1 ∧ Solid m.2) {g : GoVal F} :
    GoText num t g ↔ ∃ gs, g = .obj (lastWins gs) ∧ Each (fun m g => Str m.1 g.1 ∧ GoText num m.2 g.2) ms gs := by
  constructor
  · rintro ⟨j, hj, hg⟩
    obtain ⟨js, rfl⟩ := value_of_object h hj
    obtain ⟨us, hus, he⟩ := value_obj_iff.mp hj
    obtain rfl := objectOf_same h hus hs (fun u hu => by
      obtain ⟨j, _, hj⟩ := each_left he hu
      exact ⟨.str hj.1, .value hj.2⟩)
    simp only [toGo, Option.map_eq_some_iff] at hg
    obtain ⟨gs, hgs, rfl⟩ := hg
    refine ⟨gs, rfl, each_mono (fun m _ g h => ?_) (each_through he (each_of_toGoMembers hgs))⟩
    obtain ⟨j, ⟨h1, h2⟩, h3, h4⟩ := h
    exact ⟨h3 ▸ h1, j.2, h2, h4⟩
  · rintro ⟨gs, rfl, he⟩
    obtain ⟨js, h1, h2⟩ := each_between (R := fun (m : List Byte × List Byte) (j : List Byte × JVal) => Str m.1 j.1 ∧ Value m.2 j.2)
      (Q := fun (j : List Byte × JVal) (g : List Byte × GoVal F) => j.1 = g.1 ∧ toGo num j.2 = some g.2)
      (each_mono (fun m _ g h => by
        obtain ⟨h1, j, h2, h3⟩ := h
        exact ⟨(g.1, j), ⟨h1, h2⟩, rfl, h3⟩) he)
    exact ⟨.obj js, value_obj_iff.mpr ⟨ms, h, h1⟩, by simp [toGo, toGoMembers_of_each h2]⟩

theorem reordered_solid {apart : List Byte → List Byte → Prop} {t t' : List Byte} (h : Reordered apart t t') : Solid t := by
  induction h with
  | same t h => exact .value h.choose_spec
  | trans t u t' h h' ih _ => exact ih
  | array t t' ts ts' h h' hn hs ih =>
    refine Solid.enclosed (.inl rfl) (.inl rfl) h fun u hu => (?_ : Solid u).toSpans
    obtain ⟨i, hi⟩ := List.getElem?_of_mem hu
    have hlt : i < ts'.length := by
      rw [← hn]
      exact (List.getElem?_eq_some_iff.mp hi).1
    exact ih i u _ hi (List.getElem?_eq_getElem hlt)
  | object t t' ms ms' h h' hn hk hs ih =>
    have key : ∀ m ∈ ms, Solid m.1 ∧ Solid m.2 := by
      intro m hm
      obtain ⟨i, hi⟩ := List.getElem?_of_mem hm
      have hlt : i < ms'.length := by
        rw [← hn]
        exact (List.getElem?_eq_some_iff.mp hi).1
      obtain ⟨_, s, hs⟩ := hk i m _ hi (List.getElem?_eq_getElem hlt)
      exact ⟨.str hs, ih i m _ hi (List.getElem?_eq_getElem hlt)⟩
    exact Solid.object h fun m hm => ⟨(key m hm).1.toSpans, (key m hm).2.toSpans⟩
  | swap t t' xs ys m n s s' h h' hv hm hn ha =>
    refine Solid.object h fun m hm => ?_
    obtain ⟨⟨s, hs⟩, j, hj⟩ := hv m hm
    exact ⟨(Solid.str hs).toSpans, (Solid.value hj).toSpans⟩

theorem reordered_elements {apart : List Byte → List Byte → Prop} {ts ts' : List (List Byte)} (hn : ts.length = ts'.length)
    (hs : ∀ (i : Nat) (u u' : List Byte), ts[i]? = some u → ts'[i]? = some u' → Reordered apart u u') : ∀ u ∈ ts, Solid u := by
  intro u hu
  obtain ⟨i, hi⟩ := List.getElem?_of_mem hu
  have hlt : i < ts'.length := by
    rw [← hn]
    exact (List.getElem?_eq_some_iff.mp hi).1
  exact reordered_solid (hs i u _ hi (List.getElem?_eq_getElem hlt))

theorem reordered_members {apart : List Byte → List Byte → Prop} {ms ms' : List (List Byte × List Byte)} (hn : ms.length = ms'.length)
    (hk : ∀ (i : Nat) (m m' : List Byte × List Byte), ms[i]? = some m → ms'[i]? = some m' → m.1 = m'.1 ∧ ∃ s, Str m.1 s)
    (hs : ∀ (i : Nat) (m m' : List Byte × List Byte), ms[i]? = some m → ms'[i]? = some m' → Reordered apart m.2 m'.2) : ∀ m ∈ ms, Solid m.1 ∧ Solid m.2 := by
  intro m hm
  obtain ⟨i, hi⟩ := List.getElem?_of_mem hm
  have hlt : i < ms'.length := by
    rw [← hn]
    exact (List.getElem?_eq_some_iff.mp hi).1
  obtain ⟨_, s, h⟩ := hk i m _ hi (List.getElem?_eq_getElem hlt)
  exact ⟨.str h, reordered_solid (hs i m _ hi (List.getElem?_eq_getElem hlt))⟩

theorem reordered_symm {apart : List Byte → List Byte → Prop} (hsym : ∀ s s', apart s s' → apart s' s) {t t' : List Byte} (h : Reordered apart t t') :
    Reordered apart t' t := by
  induction h with
  | same t h => exact .same t h
  | trans t u t' h h' ih ih' => exact .trans _ _ _ ih' ih
  | array t t' ts ts' h h' hn hs ih => exact .array _ _ _ _ h' h hn.symm fun i u u' hu hu' => ih i u' u hu' hu
  | object t t' ms ms' h h' hn hk hs ih =>
    refine .object _ _ _ _ h' h hn.symm (fun i m m' hm hm' => ?_) fun i m m' hm hm' => ih i m' m hm' hm
    obtain ⟨h1, h2⟩ := hk i m' m hm' hm
    exact ⟨h1.symm, h1 ▸ h2⟩
  | swap t t' xs ys m n s s' h h' hv hm hn ha =>
    refine .swap _ _ xs ys n m s' s h' h (fun x hx => hv x ?_) hn hm (hsym _ _ ha)
    simp only [List.mem_append, List.mem_cons] at hx ⊢
    rcases hx with h | h | h | h <;> simp [h]

/-- Texts that differ in the order of members only have the same Go value. -/
theorem goText_reordered {num : List Byte → Option (GoVal F)} {apart : List Byte → List Byte → Prop} (hne : ∀ s s', apart s s' → s ≠ s')
    {t t' : List Byte} (h : Reordered apart t t') {g : GoVal F} (hg : GoText num t g) : GoText num t' g := by
  induction h generalizing g with
  | same t h => exact hg
  | trans t u t' h h' ih ih' => exact ih' (ih hg)
  | array t t' ts ts' h h' hn hs ih =>
    obtain ⟨gs, rfl, he⟩ := (goText_array h (reordered_elements hn hs)).mp hg
    have he' := each_exchange hn he fun i u u' b hu hu' hb => ih i u u' hu hu' hb
    refine (goText_array h' fun u hu => ?_).mpr ⟨gs, rfl, he'⟩
    obtain ⟨g, _, j, hj, _⟩ := each_left he' hu
    exact .value hj
  | object t t' ms ms' h h' hn hk hs ih =>
    obtain ⟨gs, rfl, he⟩ := (goText_object h (reordered_members hn hk hs)).mp hg
    have he' := each_exchange hn he fun i m m' b hm hm' hb => ⟨(hk i m m' hm hm').1 ▸ hb.1, ih i m m' hm hm' hb.2⟩
    refine (goText_object h' fun u hu => ?_).mpr ⟨gs, rfl, he'⟩
    obtain ⟨g, _, hs, j, hj, _⟩ := each_left he' hu
    exact ⟨.str hs, .value hj⟩
  | swap t t' xs ys m n s s' h h' hv hm hn ha =>
    obtain ⟨gs, rfl, he⟩ := (goText_object h fun x hx => by
      obtain ⟨⟨s, hs⟩, j, hj⟩ := hv x hx
      exact ⟨.str hs, .value hj⟩).mp hg
    obtain ⟨as, x, y, bs, rfl, hx, hy, he'⟩ := each_neighbours he
    refine (goText_object h' fun u hu => ?_).mpr ⟨_, congrArg _ (lastWins_swap ?_), he'⟩
    · obtain ⟨g, _, hs, j, hj, _⟩ := each_left he' hu
      exact ⟨.str hs, .value hj⟩
    · rw [← Props.C13_denotation_unique hm hx.1, ← Props.C13_denotation_unique hn hy.1]
      exact hne _ _ ha

theorem isValue_reordered {apart : List Byte → List Byte → Prop} (hne : ∀ s s', apart s s' → s ≠ s') {t t' : List Byte} (h : Reordered apart t t')
    (ht : IsValue t) : IsValue t' := by
  obtain ⟨j, hj⟩ := ht
  obtain ⟨g, hg⟩ := toGo_total (F := Unit) (num := fun t => some (.number t)) (fun t => ⟨_, rfl⟩) j
  obtain ⟨j', hj', _⟩ := goText_reordered hne h ⟨j, hj, hg⟩
  exact ⟨j', hj'⟩

/-! ## Types -/

variable {Γ : TyEnv F} {cfg : DecCfg F} {sel : List (List Byte) → List Byte → Nat → Prop}

theorem decodesO_any {o : DecOpts} {a v : Val F} {t : List Byte} :
    DecodesO Γ cfg true sel .any o a t v ↔ ∃ g, GoText (anyNumber cfg) t g ∧ v = .any g := by
  refine (decodesO_simple (R := AnyRel cfg) fun k => by cases k <;> simp only [DecodesN]).trans ?_
  exact ⟨fun ⟨j, g, hj, hg, hv⟩ => ⟨g, ⟨j, hj, hg⟩, hv⟩, fun ⟨g, ⟨j, hj, hg⟩, hv⟩ => ⟨j, g, hj, hg, hv⟩⟩

theorem decodesO_reordered {apart : List Byte → List Byte → Prop} (hne : ∀ s s', apart s s' → s ≠ s')
    (hsel : ∀ s s', apart s s' → ∀ names i, ¬ (sel names s i ∧ sel names s' i)) (hlay : Layout Γ) {P : Ty → Prop} (hP : Closed Γ P)
    (hv : ∀ U, P U → U ≠ .raw ∧ (∀ i, U ≠ .jsonUnmarshaler i) ∧ ∀ K E, Is Γ U (.map K E) → DistinctKeys Γ apart K)
    {t t' : List Byte} (h : Reordered apart t t') {T : Ty} {o : DecOpts} {a v : Val F} (hT : P T)
    (hd : DecodesO Γ cfg true sel T o a t v) : DecodesO Γ cfg true sel T o a t' v := by
  induction h generalizing T o a v with
  | same t h => exact hd
  | trans t u t' h h' ih ih' => exact ih' hT (ih hT hd)
  | array t t' ts ts' h h' hn hs ih =>
    have op := array_open h
    have op' := array_open h'
    have sol := reordered_elements hn hs
    have partner : ∀ {i : Nat} {u' : List Byte}, ts'[i]? = some u' → ∃ u, ts[i]? = some u := by
      intro i u' hu'
      have hlt : i < ts.length := by
        rw [hn]
        exact (List.getElem?_eq_some_iff.mp hu').1
      exact ⟨_, List.getElem?_eq_getElem hlt⟩
    have nn : t ≠ nullText := fun e => op (e ▸ notOpen_null)
    have nn' : t' ≠ nullText := fun e => op' (e ▸ notOpen_null)
    have slice : ∀ {T E : Ty} {o : DecOpts} {a v : Val F}, P T → Is Γ T (.slice E) → DecodesO Γ cfg true sel T o a t v → DecodesO Γ cfg true sel T o a t' v := by
      intro T E o a v hT hsl hd
      rcases (decodesO_slice hsl).mp hd with ⟨h1, _⟩ | ⟨_, b, _, _, _, h1, _⟩ | ⟨us, vs, h1, h2, h3⟩
      · exact absurd h1 nn
      · exact absurd (h1 ▸ notOpen_quotes) op
      · obtain rfl := arrayOf_same h h1 sol (fun u hu => by
          obtain ⟨x, _, hx⟩ := each_left h2 hu
          exact decodesO_solid hx)
        exact (decodesO_slice hsl).mpr (.inr (.inr ⟨ts', vs, h', each_exchange hn h2 fun i u u' b hu hu' hb =>
          ih i u u' hu hu' (hP.slice _ _ hT hsl) hb, h3⟩))
    have array : ∀ {T E : Ty} {n : Nat} {o : DecOpts} {a v : Val F}, P T → Is Γ T (.array n E) → DecodesO Γ cfg true sel T o a t v →
        DecodesO Γ cfg true sel T o a t' v := by
      intro T E n o a v hT hsl hd
      rcases (decodesO_array hsl).mp hd with ⟨h1, _⟩ | ⟨us, vs, h1, hvs, hlen, h2, h3, h4⟩
      · exact absurd h1 nn
      · obtain rfl := arrayOf_same h h1 sol (fun u hu => by
          obtain ⟨i, hi⟩ := List.getElem?_of_mem hu
          by_cases hlt : n ≤ i
          · exact .value (h2 i u hi hlt).choose_spec
          · exact decodesO_solid (h3 i u _ hi (List.getElem?_eq_getElem (by omega))))
        refine (decodesO_array hsl).mpr (.inr ⟨ts', vs, h', hvs, hlen, fun i u' hu' hle => ?_, fun i u' x hu' hx => ?_, fun i x hle hx => h4 i x (by omega) hx⟩)
        · obtain ⟨u, hu⟩ := partner hu'
          exact isValue_reordered hne (hs i u u' hu hu') (h2 i u hu hle)
        · obtain ⟨u, hu⟩ := partner hu'
          exact ih i u u' hu hu' (hP.array _ _ _ hT hsl) (h3 i u x hu hx)
    have map : ∀ {T E : Ty} {K : KeyTy} {o : DecOpts} {a v : Val F}, Is Γ T (.map K E) → ¬ DecodesO Γ cfg true sel T o a t v := by
      intro T E n o a v hs hd
      rcases (decodesO_map hs).mp hd with ⟨h1, _⟩ | ⟨ts, vs, h1, _⟩
      · exact nn h1
      · exact array_not_object h h1
    induction T generalizing a v with
    | raw => exact absurd rfl (hv _ hT).1
    | any =>
      obtain ⟨g, hg, rfl⟩ := decodesO_any.mp hd
      exact decodesO_any.mpr ⟨g, goText_reordered hne (.array _ _ _ _ h h' hn hs) hg, rfl⟩
    | ptr T ih =>
      rcases decodesO_ptr.mp hd with ⟨hd, _⟩ | ⟨_, x, hx, rfl⟩
      · exact absurd hd nn
      · exact decodesO_ptr.mpr (.inr ⟨nn', x, ih (hP.ptr _ hT) hx, rfl⟩)
    | slice T ih => exact slice hT (.slice T) hd
    | array k T ih => exact array hT (.array k T) hd
    | map K T ih => exact absurd hd (map (.map K T))
    | named i =>
      cases hdef : Γ.defn i with
      | slice T => exact slice hT (.named i _ hdef) hd
      | array k T => exact array hT (.named i _ hdef) hd
      | map K T => exact absurd hd (map (.named i _ hdef))
      | struct fs =>
        rcases (decodesO_struct hdef).mp hd with ⟨h1, _⟩ | ⟨ms, h1, _⟩
        · exact absurd h1 nn
        · exact absurd h1 (array_not_object h)
    | jsonUnmarshaler i => exact absurd rfl ((hv _ hT).2.1 i)
    | _ => exact absurd (scalar_notOpen (by simp only [Scalar]) hd) op
  | object t t' ms ms' h h' hn hk hs ih =>
    have op := object_open h
    have op' := object_open h'
    have sol := reordered_members hn hk hs
    have nn : t ≠ nullText := fun e => op (e ▸ notOpen_null)
    have nn' : t' ≠ nullText := fun e => op' (e ▸ notOpen_null)
    have slice : ∀ {T E : Ty} {o : DecOpts} {a v : Val F}, Is Γ T (.slice E) → ¬ DecodesO Γ cfg true sel T o a t v := by
      intro T E o a v hsl hd
      rcases (decodesO_slice hsl).mp hd with ⟨h1, _⟩ | ⟨_, b, _, _, _, h1, _⟩ | ⟨us, vs, h1, h2, h3⟩
      · exact nn h1
      · exact op (h1 ▸ notOpen_quotes)
      · exact array_not_object h1 h
    have array : ∀ {T E : Ty} {n : Nat} {o : DecOpts} {a v : Val F}, Is Γ T (.array n E) → ¬ DecodesO Γ cfg true sel T o a t v := by
      intro T E n o a v hsl hd
      rcases (decodesO_array hsl).mp hd with ⟨h1, _⟩ | ⟨us, vs, h1, hvs, hlen, h2, h3, h4⟩
      · exact nn h1
      · exact array_not_object h1 h
    have map : ∀ {T E : Ty} {K : KeyTy} {o : DecOpts} {a v : Val F}, P T → Is Γ T (.map K E) → DecodesO Γ cfg true sel T o a t v →
        DecodesO Γ cfg true sel T o a t' v := by
      intro T E K o a v hT hm hd
      rcases (decodesO_map hm).mp hd with ⟨h1, _⟩ | ⟨us, xs, h1, h2, h3⟩
      · exact absurd h1 nn
      · obtain rfl := objectOf_same h h1 sol (fun u hu => by
          obtain ⟨x, _, hx⟩ := each_left h2 hu
          refine ⟨?_, decodesO_solid hx.2⟩
          rcases keyRel_text hx.1 with ⟨s, hs⟩ | ⟨_, hs⟩
          · exact .str hs
          · exact .literal (.inl hs))
        exact (decodesO_map hm).mpr (.inr ⟨ms', xs, h', each_exchange hn h2 fun i m m' b hm1 hm1' hb =>
          ⟨(hk i m m' hm1 hm1').1 ▸ hb.1, ih i m m' hm1 hm1' (hP.map _ _ _ hT hm) hb.2⟩, h3⟩)
    induction T generalizing a v with
    | raw => exact absurd rfl (hv _ hT).1
    | any =>
      obtain ⟨g, hg, rfl⟩ := decodesO_any.mp hd
      exact decodesO_any.mpr ⟨g, goText_reordered hne (.object _ _ _ _ h h' hn hk hs) hg, rfl⟩
    | ptr T ih =>
      rcases decodesO_ptr.mp hd with ⟨hd, _⟩ | ⟨_, x, hx, rfl⟩
      · exact absurd hd nn
      · exact decodesO_ptr.mpr (.inr ⟨nn', x, ih (hP.ptr _ hT) hx, rfl⟩)
    | slice T ih => exact absurd hd (slice (.slice T))
    | array k T ih => exact absurd hd (array (.array k T))
    | map K T ih => exact map hT (.map K T) hd
    | named i =>
      cases hdef : Γ.defn i with
      | slice T => exact absurd hd (slice (.named i _ hdef))
      | array k T => exact absurd hd (array (.named i _ hdef))
      | map K T => exact map hT (.named i _ hdef) hd
      | struct fs =>
        rcases (decodesO_struct hdef).mp hd with ⟨h1, _⟩ | ⟨us, h1, h2⟩
        · exact absurd h1 nn
        · obtain rfl := objectOf_same h h1 sol (fun m hm => by
            obtain ⟨_, _, h⟩ := visits_mem h2 hm
            exact memberRel_str (fun _ _ _ _ _ h => decodesO_solid h) h)
          refine (decodesO_struct hdef).mpr (.inr ⟨ms', h', visits_exchange hn (fun k m m' x y hm hm' hG => ?_) h2⟩)
          obtain ⟨key, hkey, hG⟩ := hG
          refine ⟨key, (hk k m m' hm hm').1 ▸ hkey, ?_⟩
          rcases hG with ⟨j, f, hj, hf, hG⟩ | ⟨hj, hst, hjv, hx⟩
          · exact .inl ⟨j, f, hj, hf, atPath_mono (fun x y hxy => ih k m m' hm hm' (hP.field i fs f hT hdef (List.mem_of_getElem? hf)) hxy) hG⟩
          · exact .inr ⟨hj, hst, isValue_reordered hne (hs k m m' hm hm') hjv, hx⟩
    | jsonUnmarshaler i => exact absurd rfl ((hv _ hT).2.1 i)
    | _ => exact absurd (scalar_notOpen (by simp only [Scalar]) hd) op
  | swap t t' xs ys m n s s' h h' hmem hm hn ha =>
    have op := object_open h
    have op' := object_open h'
    have sol : ∀ x ∈ xs ++ m :: n :: ys, Solid x.1 ∧ Solid x.2 := fun x hx => by
      obtain ⟨⟨s, hs⟩, j, hj⟩ := hmem x hx
      exact ⟨.str hs, .value hj⟩
    have nn : t ≠ nullText := fun e => op (e ▸ notOpen_null)
    have nn' : t' ≠ nullText := fun e => op' (e ▸ notOpen_null)
    have slice : ∀ {T E : Ty} {o : DecOpts} {a v : Val F}, Is Γ T (.slice E) → ¬ DecodesO Γ cfg true sel T o a t v := by
      intro T E o a v hsl hd
      rcases (decodesO_slice hsl).mp hd with ⟨h1, _⟩ | ⟨_, b, _, _, _, h1, _⟩ | ⟨us, vs, h1, h2, h3⟩
      · exact nn h1
      · exact op (h1 ▸ notOpen_quotes)
      · exact array_not_object h1 h
    have array : ∀ {T E : Ty} {n : Nat} {o : DecOpts} {a v : Val F}, Is Γ T (.array n E) → ¬ DecodesO Γ cfg true sel T o a t v := by
      intro T E n o a v hsl hd
      rcases (decodesO_array hsl).mp hd with ⟨h1, _⟩ | ⟨us, vs, h1, hvs, hlen, h2, h3, h4⟩
      · exact nn h1
      · exact array_not_object h1 h
    have map : ∀ {T E : Ty} {K : KeyTy} {o : DecOpts} {a v : Val F}, P T → Is Γ T (.map K E) → DecodesO Γ cfg true sel T o a t v →
        DecodesO Γ cfg true sel T o a t' v := by
      intro T E K o a v hT hmap hd
      rcases (decodesO_map hmap).mp hd with ⟨h1, _⟩ | ⟨us, zs, h1, h2, h3⟩
      · exact absurd h1 nn
      · obtain rfl := objectOf_same h h1 sol (fun u hu => by
          obtain ⟨x, _, hx⟩ := each_left h2 hu
          refine ⟨?_, decodesO_solid hx.2⟩
          rcases keyRel_text hx.1 with ⟨s, hs⟩ | ⟨_, hs⟩
          · exact .str hs
          · exact .literal (.inl hs))
        obtain ⟨as, x, y, bs, rfl, hx, hy, he'⟩ := each_neighbours h2
        refine (decodesO_map hmap).mpr (.inr ⟨_, _, h', he', ?_⟩)
        rw [h3, putAll_swap ((hv T hT).2.2 K E hmap _ _ _ _ _ _ hm hn ha hx.1 hy.1)]
    induction T generalizing a v with
    | raw => exact absurd rfl (hv _ hT).1
    | any =>
      obtain ⟨g, hg, rfl⟩ := decodesO_any.mp hd
      exact decodesO_any.mpr ⟨g, goText_reordered hne (.swap _ _ _ _ _ _ _ _ h h' hmem hm hn ha) hg, rfl⟩
    | ptr T ih =>
      rcases decodesO_ptr.mp hd with ⟨hd, _⟩ | ⟨_, x, hx, rfl⟩
      · exact absurd hd nn
      · exact decodesO_ptr.mpr (.inr ⟨nn', x, ih (hP.ptr _ hT) hx, rfl⟩)
    | slice T ih => exact absurd hd (slice (.slice T))
    | array k T ih => exact absurd hd (array (.array k T))
    | map K T ih => exact map hT (.map K T) hd
    | named i =>
      cases hdef : Γ.defn i with
      | slice T => exact absurd hd (slice (.named i _ hdef))
      | array k T => exact absurd hd (array (.named i _ hdef))
      | map K T => exact map hT (.named i _ hdef) hd
      | struct fs =>
        rcases (decodesO_struct hdef).mp hd with ⟨h1, _⟩ | ⟨us, h1, h2⟩
        · exact absurd h1 nn
        · obtain rfl := objectOf_same h h1 sol (fun m hm => by
            obtain ⟨_, _, h⟩ := visits_mem h2 hm
            exact memberRel_str (fun _ _ _ _ _ h => decodesO_solid h) h)
          exact (decodesO_struct hdef).mpr (.inr ⟨_, h', visits_swap (fun x y z h1 h2 =>
            memberRel_swap (hlay i fs hdef) hm hn (fun i => hsel _ _ ha _ i) h1 h2) h2⟩)
    | jsonUnmarshaler i => exact absurd rfl ((hv _ hT).2.1 i)
    | _ => exact absurd (scalar_notOpen (by simp only [Scalar]) hd) op

/-! ## Names -/

theorem apart_symm {lib : FoldLib} {same : Nat → Nat → Prop} (hl : FoldLaws lib same) {cs : Bool} {s s' : List Byte} (h : Apart same cs s s') :
    Apart same cs s' s := by
  refine ⟨h.1.symm, fun hc hk => h.2 hc ?_⟩
  obtain ⟨ns, ms, h1, h2, h3⟩ := hk
  exact ⟨ms, ns, h2, h1, each_symm hl h3⟩

/-- Names that are apart select different fields. -/
theorem apart_selects {lib : FoldLib} {same : Nat → Nat → Prop} (hl : FoldLaws lib same) {cs : Bool} {s s' : List Byte} (h : Apart same cs s s')
    (names : List (List Byte)) (i : Nat) : ¬ (SelectsHere same cs names s i ∧ SelectsHere same cs names s' i) := by
  rintro ⟨⟨h1, _⟩, ⟨h2, _⟩⟩
  rcases h1 with h1 | ⟨_, hc, ⟨n, hn, h1⟩, _⟩
  · rcases h2 with h2 | ⟨_, hc, ⟨n', hn', h2⟩, _⟩
    · rw [h1] at h2
      cases h2
      exact h.1 rfl
    · rw [h1] at hn'
      cases hn'
      exact h.2 hc h2
  · rcases h2 with h2 | ⟨_, _, ⟨n', hn', h2⟩, _⟩
    · rw [h2] at hn
      cases hn
      exact (apart_symm hl h).2 hc h1
    · rw [hn] at hn'
      cases hn'
      refine h.2 hc ?_
      obtain ⟨ns, ms, h3, h4, h5⟩ := h1
      obtain ⟨ns', ms', h6, h7, h8⟩ := h2
      obtain rfl := (runes_iff.mp h3).trans (runes_iff.mp h6).symm
      refine ⟨ms, ms', h4, h7, ?_⟩
      have := each_through (each_symm hl h5) h8
      exact each_mono (fun a _ b ⟨c, h, h'⟩ => hl.trans _ _ _ h h') this

theorem distinct_str {apart : List Byte → List Byte → Prop} (hne : ∀ s s', apart s s' → s ≠ s') : DistinctKeys Γ apart .str := by
  intro m m' s s' k k' hm hm' ha hk hk'
  rcases hk with ⟨u, hu, rfl⟩ | ⟨_, hn, _⟩
  · rcases hk' with ⟨u', hu', rfl⟩ | ⟨_, hn, _⟩
    · rw [← Props.C13_denotation_unique hm hu, ← Props.C13_denotation_unique hm' hu']
      intro h
      cases h
      exact hne _ _ ha rfl
    · exact absurd (.inl hn) (str_not_lit hm')
  · exact absurd (.inl hn) (str_not_lit hm)

theorem str_of_intPart {u s : List Byte} (h : IntPart u) (hs : Str (inQuotes u) s) : s = u :=
  Props.C13_denotation_unique hs (str_plain (plain_intPart h))

theorem str_of_intLit {w : Nat} {u s : List Byte} {z : Int} (h : IntLit w u z) (hs : Str (inQuotes u) s) : s = u := by
  refine Props.C13_denotation_unique hs (str_plain ?_)
  obtain ⟨ds, hd, hi, _⟩ := h
  cases hd with
  | pos => exact plain_intPart hi
  | neg =>
    intro c hc
    rcases List.mem_cons.mp hc with rfl | hc
    · decide
    · exact plain_intPart hi c hc

theorem distinct_uint {apart : List Byte → List Byte → Prop} (hne : ∀ s s', apart s s' → s ≠ s') (w : Width) : DistinctKeys Γ apart (.uint w) := by
  intro m m' s s' k k' hm hm' ha hk hk'
  rcases hk with ⟨u, z, hu, rfl, rfl⟩ | ⟨_, hn, _⟩
  · rcases hk' with ⟨u', z', hu', rfl, rfl⟩ | ⟨_, hn, _⟩
    · obtain rfl := str_of_intPart hu.1 hm
      obtain rfl := str_of_intPart hu'.1 hm'
      intro h
      cases h
      exact hne _ _ ha (uintLit_inj hu hu')
    · exact absurd (.inl hn) (str_not_lit hm')
  · exact absurd (.inl hn) (str_not_lit hm)

theorem distinct_int {apart : List Byte → List Byte → Prop} (hne : ∀ s s', apart s s' → s ≠ s')
    (h0 : ¬ apart [0x30] [0x2D, 0x30] ∧ ¬ apart [0x2D, 0x30] [0x30]) (w : Width) : DistinctKeys Γ apart (.int w) := by
  intro m m' s s' k k' hm hm' ha hk hk'
  rcases hk with ⟨u, z, hu, rfl, rfl⟩ | ⟨_, hn, _⟩
  · rcases hk' with ⟨u', z', hu', rfl, rfl⟩ | ⟨_, hn, _⟩
    · obtain rfl := str_of_intLit hu hm
      obtain rfl := str_of_intLit hu' hm'
      intro h
      cases h
      rcases intLit_inj hu hu' with h | ⟨rfl, rfl⟩ | ⟨rfl, rfl⟩
      · exact hne _ _ ha h
      · exact h0.1 ha
      · exact h0.2 ha
    · exact absurd (.inl hn) (str_not_lit hm')
  · exact absurd (.inl hn) (str_not_lit hm)

/-! ## Permutations -/

theorem items_exist (ts : List (List Byte)) (h : ts ≠ []) : ∃ b, Items b ts := by
  induction ts with
  | nil => exact absurd rfl h
  | cons t ts ih =>
    cases ts with
    | nil => exact ⟨_, .one [] t [] (by simp [Ws]) (by simp [Ws])⟩
    | cons u us =>
      obtain ⟨b, hb⟩ := ih (by simp)
      exact ⟨_, .cons [] t [] b _ (by simp [Ws]) (by simp [Ws]) hb⟩

theorem objectOf_exists (ms : List (List Byte × List Byte)) : ∃ t, ObjectOf t ms := by
  have members : ∀ ms : List (List Byte × List Byte), ∃ ts, Each MemberOf ts ms := by
    intro ms
    induction ms with
    | nil => exact ⟨[], .nil⟩
    | cons m ms ih =>
      obtain ⟨ts, h⟩ := ih
      exact ⟨_, .cons ⟨[], [], by simp [Ws], by simp [Ws], rfl⟩ h⟩
  obtain ⟨ts, h⟩ := members ms
  by_cases hts : ts = []
  · subst hts
    exact ⟨_, [], .empty [] (by simp [Ws]), h⟩
  · obtain ⟨b, hb⟩ := items_exist ts hts
    exact ⟨_, ts, .items b ts hb, h⟩

/-- All members in another order, if all their names are apart. -/
theorem reordered_perm {apart : List Byte → List Byte → Prop} (hsym : ∀ s s', apart s s' → apart s' s) {ms ms' : List (List Byte × List Byte)} (hp : ms.Perm ms')
    {t t' : List Byte} (xs : List (List Byte × List Byte)) (h : ObjectOf t (xs ++ ms)) (h' : ObjectOf t' (xs ++ ms'))
    (hv : ∀ x ∈ xs ++ ms, (∃ s, Str x.1 s) ∧ IsValue x.2) (ha : ms.Pairwise fun m n => ∀ s s', Str m.1 s → Str n.1 s' → apart s s') : Reordered apart t t' := by
  induction hp generalizing xs t t' with
  | nil =>
    exact .object t t' _ _ h h' rfl (fun i m m' hm hm' => by
      rw [hm] at hm'
      cases hm'
      exact ⟨rfl, (hv m (List.mem_of_getElem? hm)).1⟩) fun i m m' hm hm' => by
      rw [hm] at hm'
      cases hm'
      exact .same _ (hv m (List.mem_of_getElem? hm)).2
  | cons x hp ih =>
    exact ih (xs ++ [x]) (by simpa using h) (by simpa using h') (by simpa using hv) (List.pairwise_cons.mp ha).2
  | swap x y l =>
    obtain ⟨⟨s, hs⟩, _⟩ := hv y (by simp)
    obtain ⟨⟨s', hs'⟩, _⟩ := hv x (by simp)
    exact .swap t t' xs l y x s s' h h' hv hs hs' ((List.pairwise_cons.mp ha).1 x (by simp) s s' hs hs')
  | trans h1 h2 ih1 ih2 =>
    rename_i l1 l2 l3
    obtain ⟨u, hu⟩ := objectOf_exists (xs ++ l2)
    refine .trans t u t' (ih1 xs h hu hv ha) (ih2 xs hu h' (fun x hx => hv x ?_) ?_)
    · rw [List.mem_append] at hx ⊢
      exact hx.imp_right h1.mem_iff.mpr
    · exact (h1.pairwise_iff (fun {a b} hab s s' hs hs' => hsym _ _ (hab s' s hs' hs))).mp ha

end

end Jzon
