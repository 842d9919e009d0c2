import Verif.Spec.Fold
import Verif.Proof.EncStr
import Verif.Proof.Str

/-!
# Case folding
-/

set_option linter.unusedSimpArgs false

namespace Jzon

open Spec

/-! ## Characters -/

/-- The characters of a byte string. -/
def runesFuel : Nat → List Byte → List Nat
  | 0, _ => []
  | n + 1, l => if l = [] then [] else (decodeRune l).1 :: runesFuel n (l.drop (decodeRune l).2)

def runesOf (l : List Byte) : List Nat := runesFuel l.length l

theorem runesFuel_eq {n m : Nat} {l : List Byte} (hn : l.length ≤ n) (hm : l.length ≤ m) : runesFuel n l = runesFuel m l := by
  induction n generalizing l m with
  | zero =>
    have : l = [] := List.length_eq_zero_iff.mp (by omega)
    subst this
    cases m <;> simp [runesFuel]
  | succ n ih =>
    cases m with
    | zero =>
      have : l = [] := List.length_eq_zero_iff.mp (by omega)
      subst this
      simp [runesFuel]
    | succ m =>
      by_cases hl : l = []
      · simp [runesFuel, hl]
      · have := decodeRune_size hl
        simp only [runesFuel, hl, if_false]
        rw [ih (m := m)]
        · simp; omega
        · simp; omega

theorem runesOf_nil : runesOf [] = [] := rfl

theorem runesOf_step {l : List Byte} (hl : l ≠ []) : runesOf l = (decodeRune l).1 :: runesOf (l.drop (decodeRune l).2) := by
  unfold runesOf
  obtain ⟨c, t, rfl⟩ : ∃ c t, l = c :: t := by
    cases l with
    | nil => exact absurd rfl hl
    | cons c t => exact ⟨c, t, rfl⟩
  have := decodeRune_size hl
  simp only [List.length_cons, runesFuel, hl, if_false]
  rw [runesFuel_eq]
  · simp at this ⊢; omega
  · simp

theorem runes_iff {l : List Byte} {ns : List Nat} : Runes l ns ↔ ns = runesOf l := by
  constructor
  · intro h
    induction h with
    | nil => rfl
    | char n l ns hn _ ih =>
      have h1 := decodeRune_utf8 hn l
      have hne : utf8 n ++ l ≠ [] := by
        have := utf8_length n
        intro h
        rw [List.append_eq_nil_iff] at h
        rw [h.1] at this
        simp at this
      rw [runesOf_step hne, h1, ih]
      simp
    | bad c l ns hc _ ih =>
      rw [runesOf_step (List.cons_ne_nil _ _)]
      rcases decodeRune_cases (c :: l) (List.cons_ne_nil _ _) with h | ⟨n, t, hn, h2, h⟩
      · rw [h, ih]; simp
      · exact absurd ⟨t, h2.symm⟩ (hc n hn)
  · rintro rfl
    suffices ∀ n, ∀ l : List Byte, l.length ≤ n → Runes l (runesOf l) from this _ l (Nat.le_refl _)
    intro n
    induction n with
    | zero =>
      intro l hl
      have : l = [] := List.length_eq_zero_iff.mp (by omega)
      subst this
      exact .nil
    | succ n ih =>
      intro l hl
      cases l with
      | nil => exact .nil
      | cons c t =>
        rw [runesOf_step (List.cons_ne_nil _ _)]
        have hs := decodeRune_size (l := c :: t) (List.cons_ne_nil _ _)
        have hi := ih ((c :: t).drop (decodeRune (c :: t)).2) (by simp at hl hs ⊢; omega)
        rcases decodeRune_cases (c :: t) (List.cons_ne_nil _ _) with h | ⟨m, t', hm, h2, h⟩
        · rw [h] at hi ⊢
          refine .bad c t _ ?_ (by simpa using hi)
          rintro m hm ⟨t', h3⟩
          rw [← h3, decodeRune_utf8 hm] at h
          obtain ⟨rfl, h⟩ := Prod.mk.inj h
          simp [utf8] at h
        · rw [h] at hi ⊢
          rw [h2] at hi ⊢
          refine .char m _ _ hm ?_
          simpa using hi

theorem scalar_fffd : Scalar 0xFFFD := .inr ⟨by decide, by decide⟩

theorem runesOf_scalar (l : List Byte) : ∀ n ∈ runesOf l, Scalar n := by
  have h : Runes l (runesOf l) := runes_iff.mpr rfl
  generalize runesOf l = ns at h
  induction h with
  | nil => simp
  | char n l ns hn _ ih => simp; exact ⟨hn, ih⟩
  | bad c l ns hc _ ih => simp; exact ⟨scalar_fffd, ih⟩

theorem keyEq_iff {same : Nat → Nat → Prop} {s t : List Byte} : KeyEq same s t ↔ Each same (runesOf s) (runesOf t) := by
  constructor
  · rintro ⟨ns, ms, h1, h2, h3⟩
    rw [← runes_iff.mp h1, ← runes_iff.mp h2]
    exact h3
  · intro h
    exact ⟨_, _, runes_iff.mpr rfl, runes_iff.mpr rfl, h⟩

theorem each_cons {α β : Type} {R : α → β → Prop} {a : α} {b : β} {as : List α} {bs : List β} :
    Each R (a :: as) (b :: bs) ↔ R a b ∧ Each R as bs :=
  ⟨fun h => by cases h with | cons h hr => exact ⟨h, hr⟩, fun h => .cons h.1 h.2⟩

theorem each_nil_left {α β : Type} {R : α → β → Prop} {bs : List β} : Each R ([] : List α) bs ↔ bs = [] :=
  ⟨fun h => by cases h; rfl, fun h => h ▸ .nil⟩

theorem each_nil_right {α β : Type} {R : α → β → Prop} {as : List α} : Each R as ([] : List β) ↔ as = [] :=
  ⟨fun h => by cases h; rfl, fun h => h ▸ .nil⟩

theorem runesOf_eq_nil {l : List Byte} : runesOf l = [] ↔ l = [] := by
  constructor
  · intro h
    cases l with
    | nil => rfl
    | cons c t => rw [runesOf_step (List.cons_ne_nil _ _)] at h; cases h
  · rintro rfl; rfl

theorem decodeRune_ascii {c : Byte} (h : c < 0x80) (t : List Byte) : decodeRune (c :: t) = (c.toNat, 1) := by
  simp only [decodeRune, h, if_true]

theorem runesOf_ascii {c : Byte} (h : c < 0x80) (t : List Byte) : runesOf (c :: t) = c.toNat :: runesOf t := by
  rw [runesOf_step (List.cons_ne_nil _ _), decodeRune_ascii h]
  simp

theorem decodeRune_high {c : Byte} (h : ¬ c < 0x80) (t : List Byte) : 0x80 ≤ (decodeRune (c :: t)).1 := by
  rcases decodeRune_cases (c :: t) (List.cons_ne_nil _ _) with h1 | ⟨n, t', hn, h2, h1⟩
  · rw [h1]; decide
  · rw [h1]
    apply Nat.le_of_not_lt
    intro hlt
    simp only at hlt
    rw [utf8, if_pos hlt] at h2
    cases h2
    exact h (by rw [UInt8.lt_iff_toNat_lt]; simp; omega)

/-! ## The comparison functions -/

section
variable {lib : FoldLib} {same : Nat → Nat → Prop}

/-- The characters with a third form. -/
def Special (b : Byte) : Prop := b = 0x4B ∨ b = 0x6B ∨ b = 0x53 ∨ b = 0x73

theorem mask_toNat : ∀ a : Byte, (a &&& caseMask).toNat = if a.toNat / 32 % 2 = 1 then a.toNat - 32 else a.toNat := by
  apply forall_byte; decide +kernel

theorem ascii_mask (a : Byte) (ha : a < 0x80) (b : Byte) (hb : b < 0x80) :
    AsciiSame a.toNat b.toNat ↔ a = b ∨ ((0x41 ≤ a &&& caseMask ∧ a &&& caseMask ≤ 0x5A) ∧ a &&& caseMask = b &&& caseMask) := by
  unfold AsciiSame
  rw [UInt8.lt_iff_toNat_lt] at ha hb
  rw [UInt8.le_iff_toNat_le, UInt8.le_iff_toNat_le, ← UInt8.toNat_inj, ← UInt8.toNat_inj, mask_toNat, mask_toNat]
  simp at *
  split <;> split <;> omega

theorem asciiSame_high {a b : Nat} (ha : a < 0x80) (hb : 0x80 ≤ b) :
    AsciiSame a b ↔ ((a = 0x4B ∨ a = 0x6B) ∧ b = 0x212A) ∨ ((a = 0x53 ∨ a = 0x73) ∧ b = 0x17F) := by
  unfold AsciiSame
  omega

theorem byte_eq {a : Byte} {n : Nat} (hn : n < 256) : a.toNat = n ↔ a = UInt8.ofNat n := by
  constructor
  · rintro rfl; simp
  · rintro rfl; simp; omega

theorem equalFoldRight_iff (hl : FoldLaws lib same) {s t : List Byte} (hs : ∀ c ∈ s, c < 0x80) :
    equalFoldRight s t = true ↔ Each same (runesOf s) (runesOf t) := by
  induction s generalizing t with
  | nil =>
    rw [runesOf_nil, each_nil_left, runesOf_eq_nil]
    simp [equalFoldRight]
  | cons sb s ih =>
    have hsb : sb < 0x80 := hs sb (by simp)
    have hsb' : sb.toNat < 0x80 := by rw [UInt8.lt_iff_toNat_lt] at hsb; exact hsb
    have ih' := fun t => ih (t := t) (fun c hc => hs c (by simp [hc]))
    rw [runesOf_ascii hsb]
    cases t with
    | nil => rw [runesOf_nil, each_nil_right]; simp [equalFoldRight]
    | cons tb t =>
      by_cases htb : tb < 0x80
      · rw [runesOf_ascii htb, each_cons, hl.ascii _ _ hsb', ascii_mask sb hsb tb htb]
        simp only [equalFoldRight, htb, if_true]
        by_cases h1 : sb = tb
        · simp [h1, ih']
        · by_cases h2 : 0x41 ≤ sb &&& caseMask ∧ sb &&& caseMask ≤ 0x5A
          · by_cases h3 : sb &&& caseMask = tb &&& caseMask
            · simp [h1, h2, h3, ih']
            · simp [h1, h2, h3]
          · simp [h1, h2]
      · rw [runesOf_step (List.cons_ne_nil _ _), each_cons, hl.ascii _ _ hsb',
          asciiSame_high hsb' (decodeRune_high htb t)]
        simp only [equalFoldRight, htb, if_false]
        rw [byte_eq (by decide), byte_eq (by decide), byte_eq (by decide), byte_eq (by decide)]
        simp only [smallLongEss, kelvin]
        by_cases h1 : sb = 0x73 ∨ sb = 0x53
        · have : ¬ (sb = UInt8.ofNat 75 ∨ sb = UInt8.ofNat 107) := by
            rcases h1 with rfl | rfl <;> decide
          have h1' : sb = UInt8.ofNat 83 ∨ sb = UInt8.ofNat 115 := by
            rcases h1 with rfl | rfl
            · right; rfl
            · left; rfl
          simp only [h1, if_true, h1', true_and, this, false_and, false_or]
          by_cases h2 : (decodeRune (tb :: t)).1 = 0x17F
          · simp [h2, ih']
          · simp [h2]
        · have h1' : ¬ (sb = UInt8.ofNat 83 ∨ sb = UInt8.ofNat 115) := by
            rintro (rfl | rfl)
            · exact h1 (.inr rfl)
            · exact h1 (.inl rfl)
          simp only [h1, if_false, h1', false_and, or_false]
          by_cases h3 : sb = 0x6B ∨ sb = 0x4B
          · have h3' : sb = UInt8.ofNat 75 ∨ sb = UInt8.ofNat 107 := by
              rcases h3 with rfl | rfl
              · right; rfl
              · left; rfl
            simp only [h3, if_true, h3', true_and]
            by_cases h2 : (decodeRune (tb :: t)).1 = 0x212A
            · simp [h2, ih']
            · simp [h2]
          · have h3' : ¬ (sb = UInt8.ofNat 75 ∨ sb = UInt8.ofNat 107) := by
              rintro (rfl | rfl)
              · exact h3 (.inr rfl)
              · exact h3 (.inl rfl)
            simp only [h3, if_false, h3', false_and]
            simp

theorem mask_high (tb : Byte) (htb : ¬ tb < 0x80) (sb : Byte) (hsb : sb < 0x80) : sb &&& caseMask ≠ tb &&& caseMask := by
  rw [UInt8.lt_iff_toNat_lt] at htb hsb
  rw [ne_eq, ← UInt8.toNat_inj, mask_toNat, mask_toNat]
  simp at *
  split <;> split <;> omega

theorem letter_mask : ∀ sb : Byte, sb < 0x80 →
    (((0x61 ≤ sb ∧ sb ≤ 0x7A) ∨ (0x41 ≤ sb ∧ sb ≤ 0x5A)) ↔ (0x41 ≤ sb &&& caseMask ∧ sb &&& caseMask ≤ 0x5A)) := by
  apply forall_byte; decide +kernel

theorem asciiLoop_iff {s t : List Byte} (hs : ∀ c ∈ s, c < 0x80 ∧ ¬ Special c) :
    asciiEqualFold s t = equalFoldRight s t := by
  have key : ∀ s t : List Byte, (∀ c ∈ s, c < 0x80 ∧ ¬ Special c) →
      (s.length = t.length → asciiEqualFoldLoop s t = equalFoldRight s t) ∧
      (s.length ≠ t.length → equalFoldRight s t = false) := by
    intro s
    induction s with
    | nil =>
      intro t _
      cases t with
      | nil => simp [asciiEqualFoldLoop, equalFoldRight]
      | cons => simp [equalFoldRight]
    | cons sb s ih =>
      intro t hs
      cases t with
      | nil => simp [equalFoldRight]
      | cons tb t =>
        have ⟨hsb, hsp⟩ := hs sb (by simp)
        have ⟨i1, i2⟩ := ih t (fun c hc => hs c (by simp [hc]))
        have n1 : ¬ (sb = 0x73 ∨ sb = 0x53) := by
          rintro (rfl | rfl)
          · exact hsp (.inr (.inr (.inr rfl)))
          · exact hsp (.inr (.inr (.inl rfl)))
        have n2 : ¬ (sb = 0x6B ∨ sb = 0x4B) := by
          rintro (rfl | rfl)
          · exact hsp (.inr (.inl rfl))
          · exact hsp (.inl rfl)
        have hlm := letter_mask sb hsb
        constructor
        · intro h
          have hl : s.length = t.length := by simpa using h
          by_cases htb : tb < 0x80
          · simp only [asciiEqualFoldLoop, equalFoldRight, htb, if_true]
            by_cases h1 : sb = tb
            · simp only [h1, if_true, ne_eq, not_true_eq_false, if_false]; exact i1 hl
            · rw [if_neg h1, if_pos h1]
              by_cases h2 : 0x41 ≤ sb &&& caseMask ∧ sb &&& caseMask ≤ 0x5A
              · rw [if_pos (hlm.mpr h2), if_pos h2]
                by_cases h3 : sb &&& caseMask = tb &&& caseMask
                · rw [if_neg (by simpa using h3), if_neg (by simpa using h3)]; exact i1 hl
                · rw [if_pos h3, if_pos h3]
              · rw [if_neg (fun h => h2 (hlm.mp h)), if_neg h2]
          · simp only [asciiEqualFoldLoop, equalFoldRight, htb, if_false, n1, n2]
            have h1 : sb ≠ tb := by rintro rfl; exact htb hsb
            rw [if_neg h1, if_pos (mask_high tb htb sb hsb)]
            simp
        · intro h
          have hl : s.length ≠ t.length := by simpa using h
          by_cases htb : tb < 0x80
          · simp only [equalFoldRight, htb, if_true, i2 hl]; simp
          · simp only [equalFoldRight, htb, if_false, n1, n2]
  obtain ⟨k1, k2⟩ := key s t hs
  unfold asciiEqualFold
  by_cases h : s.length = t.length
  · simp [h, k1 h]
  · simp [h, k2 h]

theorem letterLoop_iff {s t : List Byte}
    (hs : ∀ c ∈ s, c < 0x80 ∧ ¬ Special c ∧ 0x41 ≤ c &&& caseMask ∧ c &&& caseMask ≤ 0x5A) :
    simpleLetterEqualFold s t = asciiEqualFold s t := by
  have key : ∀ s t : List Byte, (∀ c ∈ s, c < 0x80 ∧ ¬ Special c ∧ 0x41 ≤ c &&& caseMask ∧ c &&& caseMask ≤ 0x5A) →
      simpleLetterLoop s t = asciiEqualFoldLoop s t := by
    intro s
    induction s with
    | nil => intro t _; cases t <;> rfl
    | cons sb s ih =>
      intro t hs
      cases t with
      | nil => rfl
      | cons tb t =>
        have ⟨h1, h2, h3⟩ := hs sb (by simp)
        have hi := ih t (fun c hc => hs c (by simp [hc]))
        simp only [simpleLetterLoop, asciiEqualFoldLoop]
        by_cases h : sb = tb
        · simp [h, hi]
        · rw [if_neg h, if_pos ((letter_mask sb h1).mpr h3), hi]
  unfold simpleLetterEqualFold asciiEqualFold
  rw [key s t hs]

theorem mask_cases : ∀ b : Byte, b < 0x80 →
    ((b &&& caseMask < 0x41 ∨ b &&& caseMask > 0x5A) → ¬ Special b) ∧
    ((b &&& caseMask = 0x4B ∨ b &&& caseMask = 0x53) ↔ Special b) := by
  unfold Special
  apply forall_byte; decide +kernel

/-- What the choice in `foldFunc` amounts to. -/
theorem foldFuncLoop_cases (lib : FoldLib) (nl sp : Bool) (s : List Byte) :
    (foldFuncLoop lib nl sp s = lib.equalFold ∧ ∃ c ∈ s, ¬ c < 0x80) ∨
    (foldFuncLoop lib nl sp s = equalFoldRight ∧ (∀ c ∈ s, c < 0x80)) ∨
    (foldFuncLoop lib nl sp s = asciiEqualFold ∧ sp = false ∧ (∀ c ∈ s, c < 0x80 ∧ ¬ Special c)) ∨
    (foldFuncLoop lib nl sp s = simpleLetterEqualFold ∧ sp = false ∧ nl = false ∧
      (∀ c ∈ s, c < 0x80 ∧ ¬ Special c ∧ 0x41 ≤ c &&& caseMask ∧ c &&& caseMask ≤ 0x5A)) := by
  induction s generalizing nl sp with
  | nil =>
    simp only [foldFuncLoop]
    cases sp <;> cases nl <;> simp
  | cons b s ih =>
    simp only [foldFuncLoop]
    by_cases hb : b ≥ 0x80
    · left; rw [if_pos hb]; exact ⟨rfl, b, by simp, UInt8.not_lt.mpr hb⟩
    · have hb' : b < 0x80 := by
        rw [ge_iff_le, UInt8.le_iff_toNat_le] at hb
        rw [UInt8.lt_iff_toNat_lt]; omega
      have hm := mask_cases b hb'
      rw [if_neg hb]
      by_cases h1 : b &&& caseMask < 0x41 ∨ b &&& caseMask > 0x5A
      · rw [if_pos h1]
        rcases ih true sp with ⟨h, c, hc, h2⟩ | ⟨h, h2⟩ | ⟨h, h2, h3⟩ | ⟨_, _, h3, _⟩
        · exact .inl ⟨h, c, by simp [hc], h2⟩
        · exact .inr (.inl ⟨h, by simpa using ⟨hb', h2⟩⟩)
        · exact .inr (.inr (.inl ⟨h, h2, by simpa using ⟨⟨hb', hm.1 h1⟩, h3⟩⟩))
        · cases h3
      · rw [if_neg h1]
        have h1' : 0x41 ≤ b &&& caseMask ∧ b &&& caseMask ≤ 0x5A := by
          simp only [gt_iff_lt, not_or, UInt8.not_lt] at h1
          exact h1
        by_cases h4 : b &&& caseMask = 0x4B ∨ b &&& caseMask = 0x53
        · rw [if_pos h4]
          rcases ih nl true with ⟨h, c, hc, h2⟩ | ⟨h, h2⟩ | ⟨_, h2, _⟩ | ⟨_, h2, _⟩
          · exact .inl ⟨h, c, by simp [hc], h2⟩
          · exact .inr (.inl ⟨h, by simpa using ⟨hb', h2⟩⟩)
          · cases h2
          · cases h2
        · rw [if_neg h4]
          have hsp : ¬ Special b := fun h => h4 (hm.2.mpr h)
          rcases ih nl sp with ⟨h, c, hc, h2⟩ | ⟨h, h2⟩ | ⟨h, h2, h3⟩ | ⟨h, h2, h3, h5⟩
          · exact .inl ⟨h, c, by simp [hc], h2⟩
          · exact .inr (.inl ⟨h, by simpa using ⟨hb', h2⟩⟩)
          · exact .inr (.inr (.inl ⟨h, h2, by simpa using ⟨⟨hb', hsp⟩, h3⟩⟩))
          · exact .inr (.inr (.inr ⟨h, h2, h3, by simpa using ⟨⟨hb', hsp, h1'⟩, h5⟩⟩))

theorem foldFunc_iff (hl : FoldLaws lib same) (name key : List Byte) :
    foldFunc lib name name key = true ↔ KeyEq same name key := by
  unfold foldFunc
  rcases foldFuncLoop_cases lib false false name with ⟨h, _⟩ | ⟨h, h2⟩ | ⟨h, _, h3⟩ | ⟨h, _, _, h3⟩
  · rw [h]; exact hl.equalFold _ _
  · rw [h, equalFoldRight_iff hl h2, keyEq_iff]
  · rw [h, asciiLoop_iff h3, equalFoldRight_iff hl (fun c hc => (h3 c hc).1), keyEq_iff]
  · rw [h, letterLoop_iff h3, asciiLoop_iff (fun c hc => ⟨(h3 c hc).1, (h3 c hc).2.1⟩),
      equalFoldRight_iff hl (fun c hc => (h3 c hc).1), keyEq_iff]

/-! ## The canonical form -/

/-- The smallest character equal to `r`. -/
def IsMin (same : Nat → Nat → Prop) (r m : Nat) : Prop := same r m ∧ ∀ b, same r b → m ≤ b

theorem foldDown_loop (hl : FoldLaws lib same) {r : Nat} (hr : Scalar r) {n fr : Nat} (h1 : same r fr) (h2 : r < fr)
    (h3 : 0x110000 < fr + n) : ∃ m, foldDown lib r n fr = some m ∧ IsMin same r m := by
  induction n generalizing fr with
  | zero =>
    have := hl.scalar _ _ hr h1
    unfold Scalar at this
    omega
  | succ n ih =>
    have hs := hl.scalar _ _ hr h1
    simp only [foldDown, gt_iff_lt, h2, if_true]
    have hf := hl.trans _ _ _ h1 (hl.fold_same fr)
    by_cases h4 : fr < lib.simpleFold fr
    · exact ih hf (by omega) (by omega)
    · have hmin : IsMin same r (lib.simpleFold fr) :=
        ⟨hf, fun b hb => hl.fold_first fr (by omega) b (hl.trans _ _ _ (hl.symm _ _ h1) hb)⟩
      have hle : lib.simpleFold fr ≤ r := hmin.2 r (hl.refl r)
      cases n with
      | zero => unfold Scalar at hs; omega
      | succ n =>
        refine ⟨_, ?_, hmin⟩
        simp only [foldDown]
        rw [if_neg (by omega)]

theorem foldDown_stop {lib : FoldLib} {r fr n : Nat} (h : ¬ r < fr) : foldDown lib r (n + 1) fr = some fr := by
  unfold foldDown
  rw [if_neg h]

theorem foldDown_spec (hl : FoldLaws lib same) {r : Nat} (hr : Scalar r) :
    ∃ m, foldDown lib r 0x110000 (lib.simpleFold r) = some m ∧ IsMin same r m := by
  by_cases h : r < lib.simpleFold r
  · exact foldDown_loop hl hr (hl.fold_same r) h (by omega)
  · refine ⟨lib.simpleFold r, ?_, hl.fold_same r, hl.fold_first r (by omega)⟩
    exact (foldDown_stop h : foldDown lib r (0x10FFFF + 1) (lib.simpleFold r) = _)

theorem isMin_unique {r m m' : Nat} (h : IsMin same r m) (h' : IsMin same r m') : m = m' :=
  Nat.le_antisymm (h.2 _ h'.1) (h'.2 _ h.1)

theorem isMin_same (hl : FoldLaws lib same) {a b m : Nat} (h : same a b) : IsMin same a m ↔ IsMin same b m := by
  constructor
  · rintro ⟨h1, h2⟩
    exact ⟨hl.trans _ _ _ (hl.symm _ _ h) h1, fun c hc => h2 c (hl.trans _ _ _ h hc)⟩
  · rintro ⟨h1, h2⟩
    exact ⟨hl.trans _ _ _ h h1, fun c hc => h2 c (hl.trans _ _ _ (hl.symm _ _ h) hc)⟩

theorem appendRune_scalar {n : Nat} (hn : Scalar n) (p : List Byte) : appendRune p n = p ++ utf8 n := by
  apply appendRune_ok
  · unfold Scalar at hn; omega
  · unfold Scalar at hn
    simp only [isSurrogate, Bool.and_eq_false_iff, decide_eq_false_iff_not]
    omega

theorem toUpperLoop_spec (hl : FoldLaws lib same) {n : Nat} {inp out : List Byte} (hn : inp.length ≤ n) :
    ∃ ms, Each (IsMin same) (runesOf inp) ms ∧ toUpperLoop lib n inp out = some (out ++ ms.flatMap utf8) := by
  induction n generalizing inp out with
  | zero =>
    have : inp = [] := List.length_eq_zero_iff.mp (by omega)
    subst this
    exact ⟨[], .nil, by simp [toUpperLoop]⟩
  | succ n ih =>
    by_cases hi : inp = []
    · subst hi
      exact ⟨[], .nil, by simp [toUpperLoop]⟩
    · have hs := decodeRune_size hi
      rw [runesOf_step hi]
      have hsc : Scalar (decodeRune inp).1 := runesOf_scalar inp _ (by rw [runesOf_step hi]; simp)
      obtain ⟨m, h1, h2⟩ := foldDown_spec hl hsc
      obtain ⟨ms, h3, h4⟩ := ih (inp := inp.drop (decodeRune inp).2) (out := appendRune out m) (by simp; omega)
      refine ⟨m :: ms, .cons h2 h3, ?_⟩
      simp only [toUpperLoop, hi, if_false, h1, h4]
      rw [appendRune_scalar (hl.scalar _ _ hsc h2.1)]
      simp

theorem toUpper_spec (hl : FoldLaws lib same) (inp out : List Byte) :
    ∃ ms, Each (IsMin same) (runesOf inp) ms ∧ toUpper lib inp out = some (out ++ ms.flatMap utf8) :=
  toUpperLoop_spec hl (Nat.le_refl _)

theorem each_min_scalar (hl : FoldLaws lib same) {ns ms : List Nat} (h : Each (IsMin same) ns ms) (hs : ∀ n ∈ ns, Scalar n) :
    ∀ m ∈ ms, Scalar m := by
  induction h with
  | nil => simp
  | cons h _ ih =>
    simp at hs ⊢
    exact ⟨hl.scalar _ _ hs.1 h.1, ih hs.2⟩

theorem runes_flatMap {ms : List Nat} (h : ∀ m ∈ ms, Scalar m) : Runes (ms.flatMap utf8) ms := by
  induction ms with
  | nil => exact .nil
  | cons m ms ih =>
    simp at h ⊢
    exact .char m _ _ h.1 (ih h.2)

theorem flatMap_utf8_inj {ms ms' : List Nat} (h : ∀ m ∈ ms, Scalar m) (h' : ∀ m ∈ ms', Scalar m)
    (he : ms.flatMap utf8 = ms'.flatMap utf8) : ms = ms' := by
  rw [runes_iff.mp (runes_flatMap h), he, ← runes_iff.mp (runes_flatMap h')]

theorem each_min_iff (hl : FoldLaws lib same) {ns ns' ms ms' : List Nat} (h : Each (IsMin same) ns ms)
    (h' : Each (IsMin same) ns' ms') : ms = ms' ↔ Each same ns ns' := by
  induction h generalizing ns' ms' with
  | nil =>
    rw [each_nil_left]
    cases h' <;> simp
  | cons h hr ih =>
    cases h' with
    | nil => rw [each_nil_right]; simp
    | cons h' hr' =>
      rw [each_cons, ← ih hr', List.cons.injEq]
      refine and_congr_left fun _ => ?_
      constructor
      · rintro rfl
        exact hl.trans _ _ _ h.1 (hl.symm _ _ h'.1)
      · intro hab
        exact isMin_unique h ((isMin_same hl hab).mpr h')

/-- The upper case form of a name. -/
def upperOf (lib : FoldLib) (s : List Byte) : List Byte := (toUpper lib s []).getD []

theorem toUpper_eq (hl : FoldLaws lib same) (s p : List Byte) : toUpper lib s p = some (p ++ upperOf lib s) := by
  obtain ⟨ms, h1, h2⟩ := toUpper_spec hl s p
  obtain ⟨ms', h1', h2'⟩ := toUpper_spec hl s []
  have : ms = ms' := by
    rw [each_min_iff hl h1 h1']
    have : ∀ l : List Nat, Each same l l := by
      intro l
      induction l with
      | nil => exact .nil
      | cons a l ih => exact .cons (hl.refl a) ih
    exact this _
  simp [upperOf, h2, h2', this]

theorem upperOf_iff (hl : FoldLaws lib same) (s t : List Byte) : upperOf lib s = upperOf lib t ↔ KeyEq same s t := by
  obtain ⟨ms, h1, h2⟩ := toUpper_spec hl s []
  obtain ⟨ms', h1', h2'⟩ := toUpper_spec hl t []
  rw [keyEq_iff, ← each_min_iff hl h1 h1']
  simp only [upperOf, h2, h2', Option.getD_some, List.nil_append]
  exact ⟨flatMap_utf8_inj (each_min_scalar hl h1 (runesOf_scalar s)) (each_min_scalar hl h1' (runesOf_scalar t)),
    fun h => h ▸ rfl⟩

/-! ## Lookups -/

/-- What the maps of a big struct decoder hold after adding the names `done`. -/
structure IndexInv (lib : FoldLib) (df : FieldIndex) (done : List (List Byte)) : Prop where
  len : df.len = done.length
  exact_ : ∀ k i, df.nameIndex k = some i ↔ (done[i]? = some k ∧ ∀ j, i < j → done[j]? ≠ some k)
  upper : ∀ u i, df.nameIndexUpper u = some i ↔
    ((∃ n, done[i]? = some n ∧ upperOf lib n = u) ∧ ∀ j n, j < i → done[j]? = some n → upperOf lib n ≠ u)

theorem getElem?_append_one {α : Type} (l : List α) (x : α) (i : Nat) (y : α) :
    (l ++ [x])[i]? = some y ↔ l[i]? = some y ∨ (i = l.length ∧ x = y) := by
  rw [List.getElem?_append]
  split
  · next h => constructor
              · exact .inl
              · rintro (h1 | ⟨h1, _⟩)
                · exact h1
                · omega
  · next h =>
    have hn : l[i]? = none := List.getElem?_eq_none (by omega)
    rw [hn, List.getElem?_singleton]
    constructor
    · intro h1
      split at h1
      · cases h1; exact .inr ⟨by omega, rfl⟩
      · cases h1
    · rintro (h1 | ⟨h1, rfl⟩)
      · cases h1
      · rw [if_pos (by omega)]

theorem indexInv_add (hl : FoldLaws lib same) {df : FieldIndex} {done : List (List Byte)} (h : IndexInv lib df done)
    (name : List Byte) : ∃ df', df.add lib name = some df' ∧ IndexInv lib df' (done ++ [name]) := by
  have hlt : ∀ {i : Nat} {k : List Byte}, done[i]? = some k → i < done.length := fun h =>
    (List.getElem?_eq_some_iff.mp h).1
  refine ⟨_, by simp only [FieldIndex.add, toUpper_eq hl, List.nil_append]; rfl, ?_, ?_, ?_⟩
  · simp [h.len]
  · intro k i
    simp only
    by_cases hk : k = name
    · subst hk
      simp only [if_true, Option.some.injEq, h.len]
      constructor
      · rintro rfl
        refine ⟨(getElem?_append_one _ _ _ _).mpr (.inr ⟨rfl, rfl⟩), fun j hj hj2 => ?_⟩
        rcases (getElem?_append_one _ _ _ _).mp hj2 with h1 | ⟨h1, _⟩
        · have := hlt h1; omega
        · omega
      · rintro ⟨h1, h2⟩
        rcases (getElem?_append_one _ _ _ _).mp h1 with h3 | ⟨h3, _⟩
        · exact absurd ((getElem?_append_one done k done.length k).mpr (.inr ⟨rfl, rfl⟩)) (h2 _ (hlt h3))
        · exact h3.symm
    · simp only [hk, if_false, h.exact_]
      constructor
      · rintro ⟨h1, h2⟩
        refine ⟨(getElem?_append_one _ _ _ _).mpr (.inl h1), fun j hj hj2 => ?_⟩
        rcases (getElem?_append_one _ _ _ _).mp hj2 with h3 | ⟨_, h3⟩
        · exact h2 j hj h3
        · exact hk h3.symm
      · rintro ⟨h1, h2⟩
        rcases (getElem?_append_one _ _ _ _).mp h1 with h3 | ⟨_, h3⟩
        · exact ⟨h3, fun j hj hj2 => h2 j hj ((getElem?_append_one _ _ _ _).mpr (.inl hj2))⟩
        · exact absurd h3.symm hk
  · intro u i
    simp only
    have old : ∀ u i, df.nameIndexUpper u = some i →
        ((∃ n, (done ++ [name])[i]? = some n ∧ upperOf lib n = u) ∧
          ∀ j n, j < i → (done ++ [name])[j]? = some n → upperOf lib n ≠ u) := by
      intro u i h1
      obtain ⟨⟨n, h2, h3⟩, h4⟩ := (h.upper u i).mp h1
      refine ⟨⟨n, (getElem?_append_one _ _ _ _).mpr (.inl h2), h3⟩, fun j n' hj hj2 => ?_⟩
      rcases (getElem?_append_one _ _ _ _).mp hj2 with h5 | ⟨h5, _⟩
      · exact h4 j n' hj h5
      · have := hlt h2; omega
    have new : ∀ u i, ((∃ n, (done ++ [name])[i]? = some n ∧ upperOf lib n = u) ∧
          ∀ j n, j < i → (done ++ [name])[j]? = some n → upperOf lib n ≠ u) →
        df.nameIndexUpper u = some i ∨ (i = done.length ∧ u = upperOf lib name ∧ df.nameIndexUpper u = none) := by
      rintro u i ⟨⟨n, h2, h3⟩, h4⟩
      rcases (getElem?_append_one _ _ _ _).mp h2 with h5 | ⟨h5, rfl⟩
      · left
        exact (h.upper u i).mpr ⟨⟨n, h5, h3⟩, fun j n' hj hj2 => h4 j n' hj ((getElem?_append_one _ _ _ _).mpr (.inl hj2))⟩
      · right
        refine ⟨h5, h3.symm, ?_⟩
        cases hn : df.nameIndexUpper u with
        | none => rfl
        | some j =>
          obtain ⟨⟨n', h6, h7⟩, _⟩ := (h.upper u j).mp hn
          exact absurd h7 (h4 j n' (by have := hlt h6; omega) ((getElem?_append_one _ _ _ _).mpr (.inl h6)))
    by_cases hn : df.nameIndexUpper (upperOf lib name) = none
    · simp only [hn, if_true]
      by_cases hu : u = upperOf lib name
      · subst hu
        simp only [if_true, Option.some.injEq, h.len]
        constructor
        · rintro rfl
          refine ⟨⟨name, (getElem?_append_one _ _ _ _).mpr (.inr ⟨rfl, rfl⟩), rfl⟩, fun j n hj hj2 he => ?_⟩
          rcases (getElem?_append_one _ _ _ _).mp hj2 with h5 | ⟨h5, _⟩
          · -- then the map would have an entry
            have : ∃ i, df.nameIndexUpper (upperOf lib name) = some i := by
              have hex : ∃ j, ∃ n, done[j]? = some n ∧ upperOf lib n = upperOf lib name := ⟨j, n, h5, he⟩
              obtain ⟨j0, hj0, hmin⟩ : ∃ j0, (∃ n, done[j0]? = some n ∧ upperOf lib n = upperOf lib name) ∧
                  ∀ j1 : Nat, j1 < j0 → ¬ ∃ n, done[j1]? = some n ∧ upperOf lib n = upperOf lib name := by
                clear hj hj2 h5
                obtain ⟨j, hj⟩ := hex
                induction j using Nat.strongRecOn with
                | ind j ih =>
                  by_cases hlow : ∃ j1, j1 < j ∧ ∃ n, done[j1]? = some n ∧ upperOf lib n = upperOf lib name
                  · obtain ⟨j1, h1, h2⟩ := hlow
                    exact ih j1 h1 h2
                  · exact ⟨j, hj, fun j1 h1 h2 => hlow ⟨j1, h1, h2⟩⟩
              exact ⟨j0, (h.upper _ _).mpr ⟨hj0, fun j1 n1 h1 h2 h3 => hmin j1 h1 ⟨n1, h2, h3⟩⟩⟩
            obtain ⟨i, hi⟩ := this
            rw [hn] at hi
            cases hi
          · omega
        · intro h1
          rcases new _ _ h1 with h2 | ⟨h2, _⟩
          · rw [hn] at h2; cases h2
          · exact h2.symm
      · simp only [hu, if_false]
        refine ⟨old u i, fun h1 => ?_⟩
        rcases new _ _ h1 with h2 | ⟨_, h2, _⟩
        · exact h2
        · exact absurd h2 hu
    · simp only [hn, if_false]
      refine ⟨old u i, fun h1 => ?_⟩
      rcases new _ _ h1 with h2 | ⟨_, rfl, h2⟩
      · exact h2
      · exact absurd h2 hn

theorem addAll_spec (hl : FoldLaws lib same) (names : List (List Byte)) {df : FieldIndex} {done : List (List Byte)}
    (h : IndexInv lib df done) : ∃ df', FieldIndex.addAll lib names df = some df' ∧ IndexInv lib df' (done ++ names) := by
  induction names generalizing df done with
  | nil => exact ⟨df, rfl, by simpa using h⟩
  | cons name names ih =>
    obtain ⟨df1, h1, h2⟩ := indexInv_add hl h name
    obtain ⟨df2, h3, h4⟩ := ih h2
    exact ⟨df2, by simp [FieldIndex.addAll, h1, h3], by simpa using h4⟩

theorem build_spec (hl : FoldLaws lib same) (names : List (List Byte)) :
    ∃ df, FieldIndex.build lib names = some df ∧ IndexInv lib df names := by
  have := addAll_spec hl names (df := ⟨fun _ => none, fun _ => none, 0⟩) (done := []) ⟨rfl, by simp, by simp⟩
  simpa [FieldIndex.build] using this

theorem nodup_get {names : List (List Byte)} (hn : names.Nodup) {i j : Nat} {k : List Byte} (hi : names[i]? = some k)
    (hj : names[j]? = some k) : i = j := by
  exact (List.getElem?_inj (List.getElem?_eq_some_iff.mp hi).1 hn).mp (hi.trans hj.symm)

theorem bigFind_spec (hl : FoldLaws lib same) {names : List (List Byte)} (hn : names.Nodup) (key : List Byte) (cs : Bool) :
    ∃ df o, FieldIndex.build lib names = some df ∧ df.find lib key cs = .ok o ∧
      ∀ i, o = some i ↔ Selects same cs names key i := by
  obtain ⟨df, h1, h2⟩ := build_spec hl names
  refine ⟨df, ?_⟩
  have hexact : ∀ i, df.nameIndex key = some i ↔ names[i]? = some key := by
    intro i
    rw [h2.exact_]
    exact ⟨fun h => h.1, fun h => ⟨h, fun j hj hj2 => by have := nodup_get hn h hj2; omega⟩⟩
  have hmem : key ∈ names ↔ ∃ i, df.nameIndex key = some i := by
    rw [List.mem_iff_getElem?]
    exact exists_congr fun i => (hexact i).symm
  cases hk : df.nameIndex key with
  | some i =>
    refine ⟨some i, h1, by simp [FieldIndex.find, hk], fun j => ?_⟩
    have hi := (hexact i).mp hk
    constructor
    · rintro ⟨⟩; exact .inl hi
    · rintro (h | ⟨h, _⟩)
      · rw [nodup_get hn hi h]
      · exact absurd (hmem.mpr ⟨i, hk⟩) h
  | none =>
    have hnot : key ∉ names := by
      rw [hmem]
      rintro ⟨i, hi⟩
      rw [hk] at hi; cases hi
    have hno : ∀ i, names[i]? ≠ some key := fun i h => by have := (hexact i).mpr h; rw [hk] at this; cases this
    cases cs with
    | true =>
      refine ⟨none, h1, by simp [FieldIndex.find, hk], fun j => ?_⟩
      constructor
      · intro h; cases h
      · rintro (h | ⟨_, h, _⟩)
        · exact absurd h (hno j)
        · cases h
    | false =>
      refine ⟨df.nameIndexUpper (upperOf lib key), h1, by simp [FieldIndex.find, hk, toUpper_eq hl], fun j => ?_⟩
      rw [h2.upper]
      simp only [upperOf_iff hl]
      unfold Selects
      constructor
      · rintro ⟨h3, h4⟩
        exact .inr ⟨hnot, rfl, h3, fun j' n hj' hn' hke => h4 j' n hj' hn' ((upperOf_iff hl _ _).mpr hke)⟩
      · rintro (h | ⟨_, _, h3, h4⟩)
        · exact absurd h (hno j)
        · exact ⟨h3, fun j' n hj' hn' hke => h4 j' n hj' hn' ((upperOf_iff hl _ _).mp hke)⟩

theorem smallFind_spec (hl : FoldLaws lib same) {names : List (List Byte)} (hn : names.Nodup) (key : List Byte) (cs : Bool)
    (i : Nat) : smallFind lib names key cs = some i ↔ Selects same cs names key i := by
  unfold smallFind Selects
  have first : ∀ (p : List Byte → Bool) (i : Nat), names.findIdx? p = some i ↔
      (∃ n, names[i]? = some n ∧ p n = true) ∧ ∀ j n, j < i → names[j]? = some n → p n = false := by
    intro p i
    rw [List.findIdx?_eq_some_iff_getElem]
    constructor
    · rintro ⟨h1, h2, h3⟩
      refine ⟨⟨_, List.getElem?_eq_getElem h1, h2⟩, fun j n hj hjn => ?_⟩
      obtain ⟨h4, rfl⟩ := List.getElem?_eq_some_iff.mp hjn
      simpa using h3 j hj
    · rintro ⟨⟨n, h1, h2⟩, h3⟩
      obtain ⟨h4, rfl⟩ := List.getElem?_eq_some_iff.mp h1
      exact ⟨h4, h2, fun j hj => by simpa using h3 j _ hj (List.getElem?_eq_getElem (by omega))⟩
  cases hk : names.findIdx? (fun name => name == key) with
  | some j =>
    obtain ⟨⟨n, h1, h2⟩, _⟩ := (first _ _).mp hk
    have hnk : n = key := by simpa using h2
    subst hnk
    simp only [Option.some.injEq]
    constructor
    · rintro rfl; exact .inl h1
    · rintro (h | ⟨h, _⟩)
      · exact nodup_get hn h1 h
      · exact absurd (List.mem_of_getElem? h1) h
  | none =>
    have hnot : key ∉ names := by
      intro hm
      rw [List.findIdx?_eq_none_iff] at hk
      simpa using hk key hm
    have hno : names[i]? ≠ some key := fun h => hnot (List.mem_of_getElem? h)
    cases cs with
    | true =>
      simp only [if_true]
      constructor
      · intro h; cases h
      · rintro (h | ⟨_, h, _⟩)
        · exact absurd h hno
        · cases h
    | false =>
      simp only [Bool.false_eq_true, if_false, first, foldFunc_iff hl]
      constructor
      · rintro ⟨h3, h4⟩
        exact .inr ⟨hnot, trivial, h3, fun j' n hj' hn' hke => by
          have := h4 j' n hj' hn'
          rw [(foldFunc_iff hl _ _).mpr hke] at this
          cases this⟩
      · rintro (h | ⟨_, _, h3, h4⟩)
        · exact absurd h hno
        · refine ⟨h3, fun j' n hj' hn' => ?_⟩
          cases hf : foldFunc lib n n key with
          | false => rfl
          | true => exact absurd ((foldFunc_iff hl _ _).mp hf) (h4 j' n hj' hn')

theorem findField_spec (hl : FoldLaws lib same) {names : List (List Byte)} (hn : names.Nodup) (h1 : names.length ≠ 1)
    (key : List Byte) (cs : Bool) :
    ∃ o, findField lib cs names key = .ok o ∧ ∀ i, o = some i ↔ Selects same cs names key i := by
  match names, hn, h1 with
  | [], _, _ =>
    refine ⟨none, rfl, fun i => ?_⟩
    simp [Selects]
  | [_], _, h1 => exact absurd rfl h1
  | a :: b :: rest, hn, _ =>
    simp only [findField]
    split
    · exact ⟨_, rfl, smallFind_spec hl hn key cs⟩
    · obtain ⟨df, o, h2, h3, h4⟩ := bigFind_spec hl hn key cs
      exact ⟨o, by simp [h2, h3], h4⟩

/-! ## One field: the arguments are swapped -/

theorem each_symm (hl : FoldLaws lib same) {ns ms : List Nat} (h : Each same ns ms) : Each same ms ns := by
  induction h with
  | nil => exact .nil
  | cons h _ ih => exact .cons (hl.symm _ _ h) ih

theorem keyEq_symm (hl : FoldLaws lib same) {s t : List Byte} : KeyEq same s t ↔ KeyEq same t s := by
  rw [keyEq_iff, keyEq_iff]
  exact ⟨each_symm hl, each_symm hl⟩

theorem asciiLoop_symm {s t : List Byte} : asciiEqualFoldLoop s t = asciiEqualFoldLoop t s := by
  induction s generalizing t with
  | nil => cases t <;> rfl
  | cons a s ih =>
    cases t with
    | nil => rfl
    | cons b t =>
      have letters : ∀ a : Byte, ((0x61 ≤ a ∧ a ≤ 0x7A) ∨ (0x41 ≤ a ∧ a ≤ 0x5A)) ↔
          (0x41 ≤ a &&& caseMask ∧ a &&& caseMask ≤ 0x5A) := by apply forall_byte; decide +kernel
      simp only [asciiEqualFoldLoop, letters]
      by_cases h : a = b
      · subst h; simp [ih]
      · have h' : b ≠ a := fun e => h e.symm
        rw [if_neg h, if_neg h']
        by_cases hm : a &&& caseMask = b &&& caseMask
        · simp only [hm, ih]
        · have hm' : b &&& caseMask ≠ a &&& caseMask := fun e => hm e.symm
          simp [hm, hm']

theorem asciiEqualFold_symm {s t : List Byte} : asciiEqualFold s t = asciiEqualFold t s := by
  unfold asciiEqualFold
  rw [asciiLoop_symm]
  by_cases h : s.length = t.length
  · simp [h]
  · have h' : t.length ≠ s.length := fun e => h e.symm
    simp [h, h']

theorem simpleLetter_symm {s t : List Byte} : simpleLetterEqualFold s t = simpleLetterEqualFold t s := by
  have key : ∀ s t : List Byte, simpleLetterLoop s t = simpleLetterLoop t s := by
    intro s
    induction s with
    | nil => intro t; cases t <;> rfl
    | cons a s ih =>
      intro t
      cases t with
      | nil => rfl
      | cons b t =>
        simp only [simpleLetterLoop, ih t]
        by_cases hm : a &&& caseMask = b &&& caseMask
        · simp [hm]
        · have hm' : b &&& caseMask ≠ a &&& caseMask := fun e => hm e.symm
          simp [hm, hm']
  unfold simpleLetterEqualFold
  rw [key s t]
  by_cases h : s.length = t.length
  · simp [h]
  · have h' : t.length ≠ s.length := fun e => h e.symm
    simp [h, h']

theorem equalFoldRight_ascii {s t : List Byte} (ht : ∀ c ∈ t, c < 0x80) (h : equalFoldRight s t = true) :
    ∀ c ∈ s, c < 0x80 := by
  induction s generalizing t with
  | nil => simp
  | cons a s ih =>
    cases t with
    | nil => simp [equalFoldRight] at h
    | cons b t =>
      have hb : b < 0x80 := ht b (by simp)
      have letters : ∀ a : Byte, (0x41 ≤ a &&& caseMask ∧ a &&& caseMask ≤ 0x5A) → a < 0x80 := by
        apply forall_byte; decide +kernel
      simp only [equalFoldRight, hb, if_true] at h
      by_cases hab : a = b
      · subst hab
        simp at h
        simp
        exact ⟨hb, ih (fun c hc => ht c (by simp [hc])) h⟩
      · rw [if_pos hab] at h
        split at h
        · next hl =>
          split at h
          · cases h
          · simp
            exact ⟨letters a hl, ih (fun c hc => ht c (by simp [hc])) h⟩
        · cases h

/-- With the arguments in the wrong order the comparison never accepts too much, and only misses keys that contain other
than ASCII characters, for names of ASCII characters. -/
theorem foldFunc_swapped (hl : FoldLaws lib same) (name key : List Byte) :
    (foldFunc lib name key name = true → KeyEq same name key) ∧
    (KeyEq same name key → (∀ c ∈ key, c < 0x80) ∨ (∃ c ∈ name, ¬ c < 0x80) → foldFunc lib name key name = true) := by
  have base := foldFunc_iff hl name key
  unfold foldFunc at base ⊢
  have noascii : (∃ c ∈ name, ¬ c < 0x80) → ∀ nl sp, foldFuncLoop lib nl sp name = lib.equalFold := by
    clear base
    induction name with
    | nil => rintro ⟨c, h, _⟩; cases h
    | cons b s ih =>
      rintro ⟨c, h, h2⟩ nl sp
      simp only [foldFuncLoop]
      by_cases hb : b ≥ 0x80
      · rw [if_pos hb]
      · rw [if_neg hb]
        have hc : c ∈ s := by
          rcases List.mem_cons.mp h with rfl | h
          · exact absurd (UInt8.not_le.mp hb) h2
          · exact h
        have hi := ih ⟨c, hc, h2⟩
        split
        · exact hi _ _
        · split
          · exact hi _ _
          · exact hi _ _
  rcases foldFuncLoop_cases lib false false name with ⟨h, _⟩ | ⟨h, h2⟩ | ⟨h, _, h3⟩ | ⟨h, _, _, h3⟩
  · rw [h] at base ⊢
    rw [hl.equalFold, keyEq_symm hl]
    exact ⟨id, fun h _ => h⟩
  · rw [h] at base ⊢
    constructor
    · intro h4
      have := (equalFoldRight_iff hl (equalFoldRight_ascii h2 h4)).mp h4
      rw [← keyEq_iff, keyEq_symm hl] at this
      exact this
    · rintro h4 (h5 | h5)
      · rw [equalFoldRight_iff hl h5, ← keyEq_iff, keyEq_symm hl]; exact h4
      · have := noascii h5 false false
        rw [h] at this
        rw [this]
        exact (hl.equalFold _ _).mpr ((keyEq_symm hl).mp h4)
  · rw [h] at base ⊢
    rw [asciiEqualFold_symm]
    exact ⟨base.mp, fun h _ => base.mpr h⟩
  · rw [h] at base ⊢
    rw [simpleLetter_symm]
    exact ⟨base.mp, fun h _ => base.mpr h⟩

theorem mask_ascii {a b : Byte} (h : a &&& caseMask = b &&& caseMask) (hb : b < 0x80) : a < 0x80 := by
  have h1 : ∀ b : Byte, b < 0x80 → b &&& caseMask < 0x80 := by apply forall_byte; decide +kernel
  have h2 : ∀ b : Byte, b &&& caseMask < 0x80 → b < 0x80 := by apply forall_byte; decide +kernel
  exact h2 a (h ▸ h1 b hb)

theorem asciiLoop_ascii {s t : List Byte} (hlen : s.length = t.length) (ht : ∀ c ∈ t, c < 0x80) (h : asciiEqualFoldLoop s t = true) :
    ∀ c ∈ s, c < 0x80 := by
  induction s generalizing t with
  | nil => simp
  | cons a s ih =>
    cases t with
    | nil => simp at hlen
    | cons b t =>
      have hb : b < 0x80 := ht b (by simp)
      have ht' : ∀ c ∈ t, c < 0x80 := fun c hc => ht c (by simp [hc])
      have hlen' : s.length = t.length := by simpa using hlen
      simp only [asciiEqualFoldLoop] at h
      intro c hc
      by_cases hab : a = b
      · rw [if_pos hab] at h
        rcases List.mem_cons.mp hc with rfl | hc
        · exact hab ▸ hb
        · exact ih hlen' ht' h c hc
      · rw [if_neg hab] at h
        split at h
        · split at h
          · cases h
          · next hm =>
            rcases List.mem_cons.mp hc with rfl | hc
            · exact mask_ascii (Decidable.of_not_not hm) hb
            · exact ih hlen' ht' h c hc
        · cases h

theorem simpleLoop_ascii {s t : List Byte} (hlen : s.length = t.length) (ht : ∀ c ∈ t, c < 0x80) (h : simpleLetterLoop s t = true) :
    ∀ c ∈ s, c < 0x80 := by
  induction s generalizing t with
  | nil => simp
  | cons a s ih =>
    cases t with
    | nil => simp at hlen
    | cons b t =>
      have hb : b < 0x80 := ht b (by simp)
      have ht' : ∀ c ∈ t, c < 0x80 := fun c hc => ht c (by simp [hc])
      have hlen' : s.length = t.length := by simpa using hlen
      simp only [simpleLetterLoop] at h
      intro c hc
      split at h
      · cases h
      · next hm =>
        rcases List.mem_cons.mp hc with rfl | hc
        · exact mask_ascii (Decidable.of_not_not hm) hb
        · exact ih hlen' ht' h c hc

/-- With the arguments in the wrong order and a name of ASCII characters only keys of ASCII characters are found. -/
theorem foldFunc_swapped_ascii {name key : List Byte} (h : foldFunc lib name key name = true) :
    (∀ c ∈ key, c < 0x80) ∨ (∃ c ∈ name, ¬ c < 0x80) := by
  unfold foldFunc at h
  rcases foldFuncLoop_cases lib false false name with ⟨_, h2⟩ | ⟨h1, h2⟩ | ⟨h1, _, h3⟩ | ⟨h1, _, _, h3⟩
  · exact .inr h2
  · rw [h1] at h
    exact .inl (equalFoldRight_ascii h2 h)
  · rw [h1] at h
    unfold asciiEqualFold at h
    split at h
    · cases h
    · next hlen => exact .inl (asciiLoop_ascii (Decidable.of_not_not hlen) (fun c hc => (h3 c hc).1) h)
  · rw [h1] at h
    unfold simpleLetterEqualFold at h
    split at h
    · cases h
    · next hlen => exact .inl (simpleLoop_ascii (Decidable.of_not_not hlen) (fun c hc => (h3 c hc).1) h)

end

/-! ## A table with the laws -/

/-- Simple case folding of the ASCII letters. -/
def asciiFold (a : Nat) : Nat :=
  if a = 0x6B then 0x212A else if a = 0x73 then 0x17F else if a = 0x212A then 0x4B else if a = 0x17F then 0x53
  else if 0x41 ≤ a ∧ a ≤ 0x5A then a + 0x20 else if 0x61 ≤ a ∧ a ≤ 0x7A then a - 0x20 else a

/-- The smallest equivalent character. -/
def asciiMin (a : Nat) : Nat :=
  if a = 0x212A then 0x4B else if a = 0x17F then 0x53 else if 0x61 ≤ a ∧ a ≤ 0x7A then a - 0x20 else a

def asciiLib : FoldLib := ⟨asciiFold, fun s t => (runesOf s).map asciiMin == (runesOf t).map asciiMin⟩

theorem asciiLib_lawful : FoldLaws asciiLib (fun a b => asciiMin a = asciiMin b) where
  refl _ := rfl
  symm _ _ h := h.symm
  trans _ _ _ h1 h2 := h1.trans h2
  scalar a b h1 h2 := by
    unfold Scalar at *
    unfold asciiMin at h2
    repeat' split at h2
    all_goals omega
  ascii a b ha := by
    unfold AsciiSame asciiMin
    constructor
    · intro h
      repeat' split at h
      all_goals omega
    · intro h
      repeat' split
      all_goals omega
  fold_same a := by
    unfold asciiLib asciiFold asciiMin
    simp only
    repeat' split
    all_goals omega
  fold_next a b h1 h2 := by
    unfold asciiLib asciiFold
    unfold asciiMin at h1
    simp only
    repeat' split at h1
    all_goals (repeat' split)
    all_goals omega
  fold_first a h b hb := by
    unfold asciiLib asciiFold at *
    unfold asciiMin at hb
    simp only at *
    repeat' split at hb
    all_goals (repeat' split at h)
    all_goals (repeat' split)
    all_goals omega
  equalFold s t := by
    rw [keyEq_iff]
    simp only [asciiLib, beq_iff_eq]
    generalize runesOf s = ns
    generalize runesOf t = ms
    induction ns generalizing ms with
    | nil => rw [each_nil_left]; simp [eq_comm]
    | cons n ns ih =>
      cases ms with
      | nil => rw [each_nil_right]; simp
      | cons m ms => rw [each_cons, ← ih]; simp

end Jzon
