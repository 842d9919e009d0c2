import Verif.Spec.Struct
import Verif.Proof.EncStr

/-!
# Struct tags
-/

set_option linter.unusedSimpArgs false

namespace Jzon

open Spec

theorem indexComma_some {s : List Byte} {i : Nat} (h : indexComma s = some i) :
    0x2C ∉ s.take i ∧ s = s.take i ++ 0x2C :: s.drop (i + 1) := by
  unfold indexComma at h
  obtain ⟨h1, h2, h3⟩ := List.findIdx?_eq_some_iff_getElem.mp h
  simp only [beq_iff_eq] at h2 h3
  constructor
  · intro hm
    obtain ⟨j, hj, he⟩ := List.mem_iff_getElem.mp hm
    simp only [List.length_take, List.getElem_take] at hj he
    exact h3 j (by omega) he
  · conv => lhs; rw [← List.take_append_drop i s]
    congr 1
    rw [List.drop_eq_getElem_cons h1, h2]

theorem indexComma_none {s : List Byte} (h : indexComma s = none) : 0x2C ∉ s := by
  unfold indexComma at h
  rw [List.findIdx?_eq_none_iff] at h
  intro hm
  have := h _ hm
  simp at this

theorem comma_cut {a b x y : List Byte} (ha : 0x2C ∉ a) (hb : 0x2C ∉ b) (h : a ++ 0x2C :: x = b ++ 0x2C :: y) : a = b ∧ x = y := by
  induction a generalizing b with
  | nil => cases b with
    | nil => simp at h; exact ⟨rfl, h⟩
    | cons c b => simp at h; exact absurd (by simp [← h.1]) hb
  | cons c a ih => cases b with
    | nil => simp at h; exact absurd (by simp [h.1]) ha
    | cons d b =>
      simp only [List.cons_append, List.cons.injEq] at h
      obtain ⟨rfl, h⟩ := h
      obtain ⟨rfl, rfl⟩ := ih (by simp at ha; exact ha.2) (by simp at hb; exact hb.2) h
      exact ⟨rfl, rfl⟩

/-- How a text splits at its first comma. -/
theorem parts_cons {a x : List Byte} (ha : 0x2C ∉ a) {ps : List (List Byte)} :
    Parts (a ++ 0x2C :: x) ps ↔ ∃ qs, ps = a :: qs ∧ Parts x qs := by
  constructor
  · rintro ⟨p, qs, rfl, h1, h2⟩
    cases qs with
    | nil =>
      simp at h2
      exact absurd (by rw [← h2]; simp) (h1 p (by simp))
    | cons q qs =>
      simp only [List.flatMap_cons, List.cons_append] at h2
      obtain ⟨rfl, h3⟩ := comma_cut ha (h1 p (by simp)) h2
      exact ⟨q :: qs, rfl, q, qs, rfl, fun r hr => h1 r (by simp at hr ⊢; right; exact hr), h3⟩
  · rintro ⟨_, rfl, q, qs, rfl, h1, rfl⟩
    refine ⟨a, q :: qs, rfl, ?_, by simp⟩
    intro r hr
    simp at hr
    rcases hr with rfl | hr
    · exact ha
    · exact h1 r (by simpa using hr)

theorem parts_single {a : List Byte} (ha : 0x2C ∉ a) {ps : List (List Byte)} : Parts a ps ↔ ps = [a] := by
  constructor
  · rintro ⟨p, qs, rfl, h1, h2⟩
    cases qs with
    | nil => simp at h2; rw [h2]
    | cons q qs => exact absurd (by rw [h2]; simp) ha
  · rintro rfl
    exact ⟨a, [], rfl, by simpa using ha, by simp⟩

theorem parseTag_eq (tag : List Byte) :
    (∃ i, parseTag tag = (tag.take i, tag.drop (i + 1)) ∧ 0x2C ∉ tag.take i ∧ tag = tag.take i ++ 0x2C :: tag.drop (i + 1)) ∨
    (parseTag tag = (tag, []) ∧ 0x2C ∉ tag) := by
  unfold parseTag
  cases h : indexComma tag with
  | some i => exact .inl ⟨i, rfl, indexComma_some h⟩
  | none => exact .inr ⟨rfl, indexComma_none h⟩

theorem tagName_iff {tag n : List Byte} : TagName tag n ↔ n = (parseTag tag).1 := by
  unfold TagName
  rcases parseTag_eq tag with ⟨i, h1, h2, h3⟩ | ⟨h1, h2⟩
  · rw [h1]
    simp only
    constructor
    · rintro ⟨ps, h⟩
      rw [h3, parts_cons h2] at h
      obtain ⟨qs, h4, _⟩ := h
      simp at h4
      exact h4.1
    · rintro rfl
      have : ∃ qs, Parts (tag.drop (i + 1)) qs := by
        generalize tag.drop (i + 1) = x
        have : ∀ (k : Nat) (x : List Byte), x.length ≤ k → ∃ qs, Parts x qs := by
          intro k
          induction k with
          | zero =>
            intro x hx
            have : x = [] := by cases x with
              | nil => rfl
              | cons => simp at hx
            subst this
            exact ⟨[[]], (parts_single (by simp)).mpr rfl⟩
          | succ k ih =>
            intro x hx
            rcases parseTag_eq x with ⟨j, g1, g2, g3⟩ | ⟨g1, g2⟩
            · obtain ⟨qs, hq⟩ := ih (x.drop (j + 1)) (by
                have := congrArg List.length g3
                simp at this
                simp
                omega)
              exact ⟨x.take j :: qs, by
                have := (parts_cons g2).mpr ⟨qs, rfl, hq⟩
                rwa [← g3] at this⟩
            · exact ⟨_, (parts_single g2).mpr rfl⟩
        exact this _ x (Nat.le_refl _)
      obtain ⟨qs, hq⟩ := this
      refine ⟨qs, ?_⟩
      have := (parts_cons h2).mpr ⟨qs, rfl, hq⟩
      rwa [← h3] at this
  · rw [h1]
    simp only [parts_single h2]
    constructor
    · rintro ⟨ps, h⟩
      simp at h
      exact h.1
    · rintro rfl
      exact ⟨[], rfl⟩

theorem tagContainsLoop_iff {o : List Byte} (ho : o ≠ []) (n : Nat) (s : List Byte) (hn : s.length < n) :
    tagContainsLoop o n s = true ↔ ∃ ps, Parts s ps ∧ o ∈ ps := by
  induction n generalizing s with
  | zero => omega
  | succ n ih =>
    unfold tagContainsLoop
    by_cases hs : s = []
    · subst hs
      rw [if_pos rfl]
      simp only [parts_single (a := []) (by simp)]
      simp [ho]
    · rw [if_neg hs]
      cases h : indexComma s with
      | some i =>
        obtain ⟨h1, h2⟩ := indexComma_some h
        have hl : (s.drop (i + 1)).length < n := by
          have := congrArg List.length h2
          simp at this
          simp
          omega
        have : (∃ ps, Parts s ps ∧ o ∈ ps) ↔ o = s.take i ∨ ∃ ps, Parts (s.drop (i + 1)) ps ∧ o ∈ ps := by
          have hp : ∀ ps, Parts s ps ↔ ∃ qs, ps = s.take i :: qs ∧ Parts (s.drop (i + 1)) qs := by
            intro ps
            rw [← parts_cons h1, ← h2]
          simp only [hp]
          constructor
          · rintro ⟨_, ⟨qs, rfl, h3⟩, h4⟩
            simp at h4
            rcases h4 with h4 | h4
            · exact .inl h4
            · exact .inr ⟨qs, h3, h4⟩
          · rintro (rfl | ⟨qs, h3, h4⟩)
            · obtain ⟨ps, hps⟩ : ∃ ps, Parts (s.drop (i + 1)) ps := by
                obtain ⟨ps, hh⟩ := (tagName_iff (tag := s.drop (i + 1))).mpr rfl
                exact ⟨_, hh⟩
              exact ⟨_, ⟨ps, rfl, hps⟩, by simp⟩
            · exact ⟨_, ⟨qs, rfl, h3⟩, by simp [h4]⟩
        rw [this, ← ih _ hl]
        simp only
        by_cases ht : s.take i = o
        · rw [if_pos ht]; simp [ht]
        · rw [if_neg ht]
          constructor
          · exact .inr
          · rintro (h | h)
            · exact absurd h.symm ht
            · exact h
      | none =>
        have h1 := indexComma_none h
        simp only [parts_single h1]
        by_cases ht : s = o
        · rw [if_pos ht]; simp [ht]
        · rw [if_neg ht]
          constructor
          · intro hh
            exfalso
            cases n with
            | zero => simp [tagContainsLoop] at hh
            | succ n => simp [tagContainsLoop] at hh
          · rintro ⟨_, rfl, hm⟩
            simp at hm
            exact absurd hm.symm ht

theorem tagContains_iff {o : List Byte} (ho : o ≠ []) (s : List Byte) :
    tagContains s o = true ↔ ∃ ps, Parts s ps ∧ o ∈ ps := by
  unfold tagContains
  cases s with
  | nil =>
    simp only [List.length_nil, if_true]
    simp only [parts_single (a := []) (by simp)]
    simp [ho]
  | cons c s =>
    rw [if_neg (by simp)]
    exact tagContainsLoop_iff ho _ _ (by omega)

theorem tagOption_iff {tag o : List Byte} (ho : o ≠ []) : TagOption tag o ↔ tagContains (parseTag tag).2 o = true := by
  rw [tagContains_iff ho]
  unfold TagOption
  rcases parseTag_eq tag with ⟨i, h1, h2, h3⟩ | ⟨h1, h2⟩
  · rw [h1]
    have hp : ∀ ps, Parts tag ps ↔ ∃ qs, ps = tag.take i :: qs ∧ Parts (tag.drop (i + 1)) qs := by
      intro ps
      rw [← parts_cons h2, ← h3]
    simp only [hp]
    constructor
    · rintro ⟨n, ps, ⟨qs, h4, h5⟩, h6⟩
      simp at h4
      exact ⟨qs, h5, h4.2 ▸ h6⟩
    · rintro ⟨qs, h5, h6⟩
      exact ⟨_, qs, ⟨qs, rfl, h5⟩, h6⟩
  · rw [h1]
    simp only [parts_single h2, parts_single (a := []) (by simp)]
    simp [ho]

theorem special_iff (c : Nat) :
    ((bs! "!#$%&()*+-./:<=>?@[]^_{|}~ ").any fun b => b.toNat == c) = true ↔ c ∈ specialChars := by
  have h : specialChars = (bs! "!#$%&()*+-./:<=>?@[]^_{|}~ ").map fun b => b.toNat := by decide +kernel
  rw [h, List.any_eq_true, List.mem_map]
  simp only [beq_iff_eq]

theorem isValidTagLoop_iff {letter : Nat → Bool} (hl : letter 0xFFFD = false) (n : Nat) (s : List Byte) (hn : s.length ≤ n) :
    isValidTagLoop letter n s = true ↔
      ∃ cs : List Nat, s = cs.flatMap utf8 ∧ ∀ c ∈ cs, Scalar c ∧ (c ∈ specialChars ∨ letter c = true) := by
  induction n generalizing s with
  | zero =>
    have : s = [] := by cases s with
      | nil => rfl
      | cons => simp at hn
    subst this
    exact ⟨fun _ => ⟨[], rfl, by simp⟩, fun _ => rfl⟩
  | succ n ih =>
    unfold isValidTagLoop
    by_cases hs : s = []
    · rw [if_pos hs]
      exact ⟨fun _ => ⟨[], hs, by simp⟩, fun _ => rfl⟩
    · rw [if_neg hs]
      have key : ∀ c, c ∈ specialChars ∨ letter c = true → c ≠ 0xFFFD := by
        rintro c h rfl
        rw [hl] at h
        simp [specialChars] at h
      -- the first rune of a text that is a concatenation
      have cut : ∀ cs : List Nat, s = cs.flatMap utf8 → (∀ c ∈ cs, Scalar c) → ∃ c cs', cs = c :: cs' ∧
          decodeRune s = (c, (utf8 c).length) ∧ s.drop (utf8 c).length = cs'.flatMap utf8 := by
        intro cs h1 h2
        cases cs with
        | nil => exact absurd (by simpa using h1) hs
        | cons c cs =>
          simp only [List.flatMap_cons] at h1
          refine ⟨c, cs, rfl, ?_, ?_⟩
          · rw [h1]; exact decodeRune_utf8 (h2 c (by simp)) _
          · rw [h1, List.drop_left]
      obtain ⟨d1, d2⟩ : 1 ≤ (decodeRune s).2 ∧ True := ⟨by
        rcases decodeRune_cases s hs with h | ⟨c, t, hc, _, h⟩
        · rw [h]; exact Nat.le_refl 1
        · rw [h]; exact (utf8_length c).1, trivial⟩
      have ih' := ih (s.drop (decodeRune s).2) (by
        simp
        have : 0 < s.length := List.length_pos_iff.mpr hs
        omega)
      have main : ((decodeRune s).1 ∈ specialChars ∨ letter (decodeRune s).1 = true) ∧ isValidTagLoop letter n (s.drop (decodeRune s).2) = true ↔
          ∃ cs : List Nat, s = cs.flatMap utf8 ∧ ∀ c ∈ cs, Scalar c ∧ (c ∈ specialChars ∨ letter c = true) := by
        rw [ih']
        constructor
        · rintro ⟨h1, cs, h2, h3⟩
          rcases decodeRune_cases s hs with h | ⟨c, t, hc, h4, h5⟩
          · rw [h] at h1
            exact absurd rfl (key _ h1)
          · rw [h5] at h1 h2
            simp only at h1 h2
            refine ⟨c :: cs, ?_, ?_⟩
            · rw [List.flatMap_cons, ← h2, h4]; simp
            · intro d hd
              simp at hd
              rcases hd with rfl | hd
              · exact ⟨hc, h1⟩
              · exact h3 d hd
        · rintro ⟨cs, h1, h2⟩
          obtain ⟨c, cs', rfl, h3, h4⟩ := cut cs h1 (fun c hc => (h2 c hc).1)
          rw [h3]
          exact ⟨(h2 c (by simp)).2, cs', h4, fun d hd => h2 d (by simp [hd])⟩
      rw [← main]
      simp only
      by_cases h1 : ((bs! "!#$%&()*+-./:<=>?@[]^_{|}~ ").any fun b => b.toNat == (decodeRune s).1) = true
      · rw [if_pos h1]
        rw [special_iff] at h1
        simp [h1]
      · rw [if_neg h1]
        rw [special_iff] at h1
        by_cases h2 : letter (decodeRune s).1 = true
        · simp [h1, h2]
        · simp [h1, h2]

theorem isValidTag_iff {letter : Nat → Bool} (hl : letter 0xFFFD = false) (s : List Byte) :
    isValidTag letter s = true ↔ ValidName letter s := by
  unfold isValidTag ValidName
  by_cases hs : s = []
  · subst hs
    simp only [if_true]
    constructor
    · intro h; cases h
    · rintro ⟨cs, h1, h2, _⟩
      cases cs with
      | nil => exact absurd rfl h1
      | cons c cs =>
        have := (utf8_length c).1
        have h3 := congrArg List.length h2
        simp at h3
        omega
  · rw [if_neg hs, isValidTagLoop_iff hl _ _ (Nat.le_refl _)]
    constructor
    · rintro ⟨cs, h1, h2⟩
      refine ⟨cs, ?_, h1, h2⟩
      rintro rfl
      exact hs (by simpa using h1)
    · rintro ⟨cs, _, h1, h2⟩
      exact ⟨cs, h1, h2⟩

end Jzon
