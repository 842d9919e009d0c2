import Verif.Spec.Stream
import Verif.Proof.EncInt

/-!
# Float texts
-/

set_option linter.unusedSimpArgs false

namespace Jzon

open Spec

theorem useE_eq {f : FloatArg} {small big : Bool} (h : FloatLaws f small big) :
    f.useE = (f.nonZero && (small || big)) := by
  unfold FloatArg.useE
  cases hz : f.nonZero with
  | false => simp
  | true =>
    cases hp : f.pos with
    | true => simp [h.posSmall hz hp, h.posBig hz hp]
    | false => simp [h.negSmall hz (by simp [hp]), h.negBig hz (by simp [hp])]

theorem digits_e : ∀ c : Byte, Digit c → c ≠ 0x65 ∧ c ≠ 0x2D := by apply forall_byte; decide +kernel

/-- The last byte is a digit, and there are at least five. -/
theorem expText_last {t : List Byte} (h : ExpText t) : ∃ u a b c d, t = u ++ [a, b, c, d] ∧ Digit d := by
  obtain ⟨s, f, ds, d, sg, x, y, hs, hd, hf, hsg, hx, hy, hds, hz, rfl⟩ := h
  have : ∀ (ds pre : List Byte) (a b c d : Byte), Digit d → (∀ c ∈ ds, Digit c) → ∃ u a' b' c' d',
      pre ++ a :: b :: c :: d :: ds = u ++ [a', b', c', d'] ∧ Digit d' := by
    intro ds
    induction ds with
    | nil => intro pre a b c d h1 _; exact ⟨pre, a, b, c, d, by simp, h1⟩
    | cons e ds ih =>
      intro pre a b c d _ h2
      obtain ⟨u, a', b', c', d', h3, h4⟩ := ih (pre ++ [a]) b c d e (h2 e (by simp)) fun c hc => h2 c (by simp [hc])
      exact ⟨u, a', b', c', d', by rw [← h3]; simp, h4⟩
  obtain ⟨u, a', b', c', d', h3, h4⟩ := this ds (s ++ d :: f) 0x65 sg x y hy hds
  exact ⟨u, a', b', c', d', by rw [← h3]; simp, h4⟩

theorem append_four {u m : List Byte} {a b c d a' b' c' d' : Byte} (h : u ++ [a, b, c, d] = m ++ [a', b', c', d']) :
    u = m ∧ a = a' ∧ b = b' ∧ c = c' ∧ d = d' := by
  have := List.append_inj' h rfl
  simpa using this

theorem expText_long {t : List Byte} (h : ExpText t) : 4 < t.length := by
  obtain ⟨s, f, ds, d, sg, x, y, hs, hd, hf, hsg, hx, hy, hds, hz, rfl⟩ := h
  simp
  omega

theorem trim_eq {t t' : List Byte} (h : ExpText t) (hs : Shortened t t') (b : List Byte) :
    trimExponent (b ++ t) = b ++ t' := by
  have hl := expText_long h
  obtain ⟨u, x1, x2, x3, x4, rfl, hd⟩ := expText_last h
  have e1 : (b ++ (u ++ [x1, x2, x3, x4])).length = (b ++ u).length + 4 := by simp; omega
  rw [← List.append_assoc] at e1 ⊢
  generalize hv : b ++ u = v at e1 ⊢
  have key : trimExponent (v ++ [x1, x2, x3, x4]) =
      if x1 = 0x65 ∧ x2 = 0x2D ∧ x3 = 0x30 then v ++ [x1, x2, x4] else v ++ [x1, x2, x3, x4] := by
    have hvl : 0 < v.length := by rw [← hv]; simp at hl ⊢; omega
    unfold trimExponent
    simp only [List.length_append, List.length_cons, List.length_nil, Nat.zero_add, Nat.reduceAdd]
    rw [show v.length + 4 - 4 = v.length by omega, show v.length + 4 - 3 = v.length + 1 by omega,
      show v.length + 4 - 2 = v.length + 2 by omega, show v.length + 4 - 1 = v.length + 3 by omega]
    simp only [List.getElem?_append_right (Nat.le_refl _), List.getElem?_append_right (Nat.le_add_right _ _),
      Nat.sub_self, Nat.add_sub_cancel_left, List.getElem?_cons_zero, List.getElem?_cons_succ, Option.some.injEq,
      Option.getD_some, gt_iff_lt, show 4 < v.length + 4 by omega, true_and]
    split
    · rw [List.set_append_right (h := by omega)]
      simp only [Nat.add_sub_cancel_left, List.set_cons_succ, List.set_cons_zero]
      rw [List.take_append]
      simp
      exact List.take_of_length_le (by omega)
    · rfl
  rw [key]
  generalize ht : u ++ [x1, x2, x3, x4] = t at hs
  cases hs with
  | drop m d' hd' =>
    obtain ⟨rfl, rfl, rfl, rfl, rfl⟩ := append_four ht
    rw [if_pos ⟨rfl, rfl, rfl⟩, ← hv]; simp
  | keep _ hk =>
    rw [if_neg, ← hv, ← ht]
    · simp
    · rintro ⟨rfl, rfl, rfl⟩
      exact hk u x4 hd ht.symm

theorem shortened_exists {t : List Byte} (h : ExpText t) : ∃ t', Shortened t t' := by
  obtain ⟨u, a, b, c, d, rfl, hd⟩ := expText_last h
  by_cases hc : a = 0x65 ∧ b = 0x2D ∧ c = 0x30
  · obtain ⟨rfl, rfl, rfl⟩ := hc; exact ⟨_, .drop u d hd⟩
  · refine ⟨_, .keep _ ?_⟩
    intro m d' _ he
    obtain ⟨rfl, rfl, rfl, rfl, rfl⟩ := append_four he
    exact hc ⟨rfl, rfl, rfl⟩

theorem number_sign {s u : List Byte} (hs : s = [] ∨ s = [0x2D]) (hu : Unsigned u) : Number (s ++ u) := by
  rcases hs with rfl | rfl
  · exact .inl hu
  · exact .inr ⟨u, rfl, hu⟩

theorem digit_intPart : ∀ d : Byte, Digit d → d = 0x30 ∨ (0x31 ≤ d ∧ d ≤ 0x39) := by
  apply forall_byte
  decide +kernel

theorem intPart_digit {d : Byte} (h : Digit d) : IntPart [d] := by
  rcases digit_intPart d h with rfl | h
  · exact .zero
  · exact .pos d [] h (by simp)

/-- What is written is the mantissa of `t`, `e`, a sign, and an exponent of the same value. -/
theorem shortened_form {t t' : List Byte} (h : ExpText t) (hs : Shortened t t') :
    ∃ (s f ds ds' : List Byte) (d sg : Byte), (s = [] ∨ s = [0x2D]) ∧ Digit d ∧ FracPart f ∧ (sg = 0x2B ∨ sg = 0x2D) ∧
      Digits ds' ∧ dec ds' = dec ds ∧ t = s ++ d :: (f ++ 0x65 :: sg :: ds) ∧ t' = s ++ d :: (f ++ 0x65 :: sg :: ds') := by
  obtain ⟨s, f, ds, d, sg, x, y, h1, hd, hf, hsg, hx, hy, hds, hz, ht⟩ := h
  cases hs with
  | keep _ _ =>
    exact ⟨s, f, x :: y :: ds, x :: y :: ds, d, sg, h1, hd, hf, hsg,
      ⟨by simp, by simp; exact ⟨hx, hy, hds⟩⟩, rfl, ht, ht⟩
  | drop m z hz' =>
    -- the exponent has exactly two digits: the byte before the last three is `e`, which is not a digit
    have : ds = [] := by
      refine Classical.byContradiction fun hne => ?_
      obtain ⟨ds', e, rfl⟩ : ∃ ds' e, ds = ds' ++ [e] := ⟨_, _, (List.dropLast_concat_getLast hne).symm⟩
      rcases List.eq_nil_or_concat ds' with rfl | ⟨ds'', e', rfl⟩
      · have := append_four (u := s ++ d :: (f ++ [0x65])) (a := sg) (b := x) (c := y) (d := e)
          (by rw [ht]; simp)
        exact (digits_e x hx).2 this.2.2.1
      · have hb : ∃ w p q, p ≠ 0x65 ∧ x :: y :: (ds'' ++ [e'] ++ [e]) = w ++ [p, q, e', e] := by
          rcases List.eq_nil_or_concat ds'' with rfl | ⟨d3, e3, rfl⟩
          · exact ⟨[], x, y, (digits_e x hx).1, by simp⟩
          · rcases List.eq_nil_or_concat d3 with rfl | ⟨d4, e4, rfl⟩
            · exact ⟨[x], y, e3, (digits_e y hy).1, by simp⟩
            · exact ⟨x :: y :: d4, e4, e3, (digits_e e4 (hds e4 (by simp))).1, by simp⟩
        obtain ⟨w, p, q, hp, hw⟩ := hb
        have := append_four (u := s ++ d :: (f ++ 0x65 :: sg :: w)) (a := p) (b := q) (c := e') (d := e)
          (by rw [ht, show ds''.concat e' ++ [e] = ds'' ++ [e'] ++ [e] by simp, hw]; simp)
        exact hp this.2.1
    subst this
    obtain ⟨rfl, _, rfl, rfl, rfl⟩ := append_four (u := s ++ d :: f) (a := 0x65) (b := sg) (c := x) (d := y)
      (by rw [ht]; simp)
    refine ⟨s, f, [0x30, y], [y], d, 0x2D, h1, hd, hf, .inr rfl, ⟨by simp, by simpa using hz'⟩, ?_, by simp, by simp⟩
    simp [dec, decFrom]

theorem floatText_number {f : FloatArg} {small big : Bool} {t : List Byte} (hf : FloatLaws f small big)
    (h : FloatText f small big t) : Number t := by
  unfold FloatText at h
  split at h
  · obtain ⟨s, fr, ds, ds', d, sg, h1, h2, h3, h4, h5, _, _, rfl⟩ := shortened_form hf.exponent h
    refine number_sign h1 ⟨[d], fr, _, by simp, intPart_digit h2, h3, .some 0x65 [sg] ds' (.inl rfl) ?_ h5⟩
    rcases h4 with rfl | rfl <;> simp
  · subst h
    obtain ⟨s, i, fr, h1, h2, h3, h4⟩ := hf.fixed
    rw [h4]
    exact number_sign h1 ⟨i, fr, [], by simp, h2, h3, .none⟩

theorem floatText_exists {f : FloatArg} {small big : Bool} (hf : FloatLaws f small big) : ∃ t, FloatText f small big t := by
  unfold FloatText
  split
  · exact shortened_exists hf.exponent
  · exact ⟨_, rfl⟩

end Jzon
