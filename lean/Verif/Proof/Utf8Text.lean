import Verif.Proof.EncStr

/-!
# Strings in texts that are UTF-8
-/

set_option linter.unusedSimpArgs false

namespace Jzon

open Spec

theorem utf8_low {n : Nat} (h : n < 0x80) : utf8 n = [UInt8.ofNat n] := by simp [utf8, h]

theorem validUtf8_nil : ValidUtf8 [] := ⟨[], by simp, rfl⟩

theorem validUtf8_append {a b : List Byte} (ha : ValidUtf8 a) (hb : ValidUtf8 b) : ValidUtf8 (a ++ b) := by
  obtain ⟨ns, h1, rfl⟩ := ha
  obtain ⟨ms, h2, rfl⟩ := hb
  exact ⟨ns ++ ms, by simpa [or_imp, forall_and] using ⟨h1, h2⟩, by simp⟩

theorem validUtf8_one {n : Nat} (h : Scalar n) : ValidUtf8 (utf8 n) := ⟨[n], by simpa using h, by simp⟩

theorem validUtf8_ascii {c : Byte} (h : c < 0x80) : ValidUtf8 [c] := by
  have hn : c.toNat < 0x80 := UInt8.lt_iff_toNat_lt.mp h
  have := validUtf8_one (n := c.toNat) (.inl (by omega))
  rw [utf8_low hn] at this
  simpa using this

theorem validUtf8_split {a b : List Byte} {c : Byte} (hc : c < 0x80) (h : ValidUtf8 (a ++ c :: b)) : ValidUtf8 a ∧ ValidUtf8 b := by
  obtain ⟨ns, hns, he⟩ := h
  induction ns generalizing a with
  | nil => simp at he
  | cons n ns ih =>
    have hn := hns n (by simp)
    have hns' : ∀ m ∈ ns, Scalar m := fun m hm => hns m (by simp [hm])
    simp only [List.flatMap_cons] at he
    by_cases hl : n < 0x80
    · cases a with
      | nil =>
        rw [utf8_low hl] at he
        simp at he
        exact ⟨validUtf8_nil, ns, hns', he.2⟩
      | cons x a =>
        rw [utf8_low hl] at he
        simp at he
        obtain ⟨h1, h2⟩ := ih hns' he.2
        refine ⟨?_, h2⟩
        have := validUtf8_append (validUtf8_one hn) h1
        rw [utf8_low hl] at this
        rw [he.1]
        simpa using this
    · have hh := utf8_high hn (by omega)
      rcases List.append_eq_append_iff.mp he with ⟨s, h1, h2⟩ | ⟨s, h1, h2⟩
      · cases s with
        | nil =>
          simp at h1 h2
          have := ih (a := []) hns' (by simpa using h2)
          exact ⟨by rw [← h1]; exact validUtf8_one hn, this.2⟩
        | cons x s =>
          have h3 := hh x (by rw [h1]; simp)
          simp at h2
          rw [← h2.1] at h3
          exact absurd hc (by simpa using h3)
      · obtain ⟨h3, h4⟩ := ih (a := s) hns' h2.symm
        exact ⟨by rw [h1]; exact validUtf8_append (validUtf8_one hn) h3, h4⟩

theorem validUtf8_tail {b : List Byte} {c : Byte} (hc : c < 0x80) (h : ValidUtf8 (c :: b)) : ValidUtf8 b :=
  (validUtf8_split (a := []) hc h).2

theorem validUtf8_init {a : List Byte} {c : Byte} (hc : c < 0x80) (h : ValidUtf8 (a ++ [c])) : ValidUtf8 a :=
  (validUtf8_split (b := []) hc h).1

theorem ws_ascii {w : List Byte} (hw : Ws w) : ∀ c ∈ w, c < 0x80 := by
  intro c hc
  rcases hw c hc with rfl | rfl | rfl | rfl <;> decide

theorem validUtf8_drop {a b : List Byte} (ha : ∀ c ∈ a, c < 0x80) (h : ValidUtf8 (a ++ b)) : ValidUtf8 b := by
  induction a with
  | nil => exact h
  | cons c a ih => exact ih (fun x hx => ha x (by simp [hx])) (validUtf8_tail (ha c (by simp)) h)

theorem validUtf8_take {a b : List Byte} (hb : ∀ c ∈ b, c < 0x80) (h : ValidUtf8 (a ++ b)) : ValidUtf8 a := by
  cases b with
  | nil => simpa using h
  | cons c b => exact (validUtf8_split (hb c (by simp)) h).1

/-- High bytes stand for themselves. -/
theorem high_raws {hs r : List Byte} {cs : List Chr} (hh : ∀ c ∈ hs, (0x80 : Byte) ≤ c) (h : hs ++ r = cs.flatMap Chr.text) :
    ∃ cs', cs = hs.map Chr.raw ++ cs' ∧ r = cs'.flatMap Chr.text := by
  induction hs generalizing cs with
  | nil => exact ⟨cs, rfl, h⟩
  | cons c hs ih =>
    have hc := hh c (by simp)
    cases cs with
    | nil => simp at h
    | cons x cs =>
      cases x with
      | raw d =>
        simp [Chr.text] at h
        obtain ⟨rfl, h⟩ := h
        obtain ⟨cs', rfl, h2⟩ := ih (fun x hx => hh x (by simp [hx])) h
        exact ⟨cs', rfl, h2⟩
      | esc d =>
        simp [Chr.text] at h
        rw [h.1] at hc
        exact absurd hc (by decide)
      | uni a b c' d =>
        simp [Chr.text] at h
        rw [h.1] at hc
        exact absurd hc (by decide)

theorem decodeChrs_highs (hs : List Byte) (cs : List Chr) : decodeChrs (hs.map Chr.raw ++ cs) = hs ++ decodeChrs cs := by
  induction hs with
  | nil => rfl
  | cons c hs ih => simp [decodeChrs, ih]

theorem replacement_valid : ValidUtf8 replacement := validUtf8_one (n := 0xFFFD) (.inr (by decide))

theorem hexDigit_small {c : Byte} : (hexDigit c).getD 0 < 16 := by
  have : ∀ c : Byte, (hexDigit c).getD 0 < 16 := by apply forall_byte; decide +kernel
  exact this c

theorem codeUnit_small {a b c d : Byte} : codeUnit a b c d < 0x10000 := by
  have h1 := @hexDigit_small a
  have h2 := @hexDigit_small b
  have h3 := @hexDigit_small c
  have h4 := @hexDigit_small d
  unfold codeUnit
  omega

theorem hexDigit_ascii {c : Byte} (h : (hexDigit c).isSome) : c < 0x80 := by
  have : ∀ c : Byte, (hexDigit c).isSome → c < 0x80 := by apply forall_byte; decide +kernel
  exact this c h

theorem shortEscape_ascii {c : Byte} (h : (shortEscape c).isSome) : c < 0x80 ∧ (shortEscape c).getD 0 < 0x80 := by
  have : ∀ c : Byte, (shortEscape c).isSome → c < 0x80 ∧ (shortEscape c).getD 0 < 0x80 := by apply forall_byte; decide +kernel
  exact this c h

theorem decodeChrs_valid (n : Nat) : ∀ cs : List Chr, cs.length ≤ n → (∀ c ∈ cs, c.Ok) → ValidUtf8 (cs.flatMap Chr.text) → ValidUtf8 (decodeChrs cs) := by
  induction n with
  | zero =>
    intro cs hn _ _
    obtain rfl : cs = [] := List.length_eq_zero_iff.mp (by omega)
    exact validUtf8_nil
  | succ n ih =>
    intro cs hn hok hv
    cases cs with
    | nil => exact validUtf8_nil
    | cons x cs =>
      have hx := hok x (by simp)
      have hcs : ∀ c ∈ cs, c.Ok := fun c hc => hok c (by simp [hc])
      simp at hn
      cases x with
      | raw c =>
        by_cases hc : c < 0x80
        · simp [Chr.text] at hv
          exact validUtf8_append (a := [c]) (validUtf8_ascii hc) (ih cs hn hcs (validUtf8_tail hc hv))
        · obtain ⟨ns, hns, he⟩ := hv
          cases ns with
          | nil => simp [Chr.text] at he
          | cons m ns =>
            have hm := hns m (by simp)
            have hm80 : ¬ m < 0x80 := by
              intro hl
              rw [List.flatMap_cons, List.flatMap_cons, utf8_low hl] at he
              simp [Chr.text] at he
              apply hc
              rw [he.1, UInt8.lt_iff_toNat_lt]
              simp
              omega
            have hh := utf8_high hm (by omega)
            rw [List.flatMap_cons (xs := ns)] at he
            obtain ⟨cs', h1, h2⟩ := high_raws hh he.symm
            rw [h1, decodeChrs_highs]
            refine validUtf8_append (validUtf8_one hm) (ih cs' ?_ ?_ ⟨ns, fun k hk => hns k (by simp [hk]), h2.symm⟩)
            · have := congrArg List.length h1
              have := (utf8_length m).1
              simp at *
              omega
            · intro c hc
              exact hok c (by rw [h1]; simp [hc])
      | esc c =>
        have he := shortEscape_ascii hx
        simp [Chr.text] at hv
        exact validUtf8_append (a := [(shortEscape c).getD 0]) (validUtf8_ascii he.2)
          (ih cs hn hcs (validUtf8_tail he.1 (validUtf8_tail (by decide) hv)))
      | uni a b c d =>
        obtain ⟨ha, hb, hc, hd⟩ := hx
        simp [Chr.text] at hv
        have hr : ValidUtf8 (cs.flatMap Chr.text) := validUtf8_tail (hexDigit_ascii hd) (validUtf8_tail (hexDigit_ascii hc)
          (validUtf8_tail (hexDigit_ascii hb) (validUtf8_tail (hexDigit_ascii ha) (validUtf8_tail (by decide) (validUtf8_tail (by decide) hv)))))
        have ihr := ih cs hn hcs hr
        have hcu := @codeUnit_small a b c d
        have single : ValidUtf8 (if isHigh (codeUnit a b c d) || isLow (codeUnit a b c d) then replacement ++ decodeChrs cs
            else utf8 (codeUnit a b c d) ++ decodeChrs cs) := by
          split
          · exact validUtf8_append replacement_valid ihr
          · rename_i hs
            refine validUtf8_append (validUtf8_one ?_) ihr
            simp [isHigh, isLow] at hs
            unfold Scalar
            omega
        cases cs with
        | nil => simpa [decodeChrs] using single
        | cons y cs =>
          cases y with
          | raw _ => simpa [decodeChrs] using single
          | esc _ => simpa [decodeChrs] using single
          | uni a' b' c' d' =>
            simp only [decodeChrs]
            split
            · rename_i hs
              simp [isHigh, isLow] at hs
              obtain ⟨ha', hb', hc', hd'⟩ := hcs (.uni a' b' c' d') (by simp)
              simp [Chr.text] at hr
              have hr' : ValidUtf8 (cs.flatMap Chr.text) := validUtf8_tail (hexDigit_ascii hd') (validUtf8_tail (hexDigit_ascii hc')
                (validUtf8_tail (hexDigit_ascii hb') (validUtf8_tail (hexDigit_ascii ha') (validUtf8_tail (by decide) (validUtf8_tail (by decide) hr)))))
              simp at hn
              refine validUtf8_append (validUtf8_one ?_) (ih cs (by omega) (fun c hc => hcs c (by simp [hc])) hr')
              unfold Scalar
              omega
            · simpa using single

theorem strBody_valid {l s : List Byte} (h : StrBody l s) (hv : ValidUtf8 l) : ValidUtf8 s := by
  obtain ⟨cs, hok, rfl, rfl⟩ := h
  exact decodeChrs_valid _ cs (Nat.le_refl _) hok hv

theorem str_valid {l s : List Byte} (h : Str l s) (hv : ValidUtf8 l) : ValidUtf8 s := by
  obtain ⟨b, hb, rfl⟩ := h
  exact strBody_valid hb (validUtf8_init (by decide) (validUtf8_tail (by decide) hv))

/-- All strings in a value are UTF-8. -/
inductive Utf8J : JVal → Prop
  | null : Utf8J .null
  | bool (b : Bool) : Utf8J (.bool b)
  | num (t : List Byte) (h : Number t) : Utf8J (.num t)
  | str (s : List Byte) (h : ValidUtf8 s) : Utf8J (.str s)
  | arr (vs : List JVal) (h : ∀ v ∈ vs, Utf8J v) : Utf8J (.arr vs)
  | obj (ms : List (List Byte × JVal)) (hk : ∀ m ∈ ms, ValidUtf8 m.1) (h : ∀ m ∈ ms, Utf8J m.2) : Utf8J (.obj ms)

theorem validUtf8_between {w t w2 : List Byte} (hw : Ws w) (hw2 : Ws w2) (h : ValidUtf8 (w ++ (t ++ w2))) : ValidUtf8 t :=
  validUtf8_take (ws_ascii hw2) (validUtf8_drop (ws_ascii hw) h)

mutual
theorem value_utf8 {t : List Byte} {j : JVal} (h : Value t j) (hv : ValidUtf8 t) : Utf8J j := by
  cases h with
  | null => exact .null
  | true => exact .bool _
  | false => exact .bool _
  | num _ h => exact .num _ h
  | str _ s h => exact .str _ (str_valid h hv)
  | arrEmpty w hw => exact .arr _ (by simp)
  | arr b vs h => exact .arr _ (elems_utf8 h (validUtf8_init (by decide) (validUtf8_tail (by decide) hv)))
  | objEmpty w hw => exact .obj _ (by simp) (by simp)
  | obj b ms h =>
    have := members_utf8 h (validUtf8_init (by decide) (validUtf8_tail (by decide) hv))
    exact .obj _ (fun m hm => (this m hm).1) (fun m hm => (this m hm).2)
termination_by 2 * t.length
decreasing_by all_goals simp_all; omega
theorem elems_utf8 {t : List Byte} {vs : List JVal} (h : Elems t vs) (hv : ValidUtf8 t) : ∀ v ∈ vs, Utf8J v := by
  cases h with
  | one w t w2 v hw h hw2 =>
    intro x hx
    simp at hx
    subst hx
    exact value_utf8 h (validUtf8_between hw hw2 hv)
  | cons w t w2 r v vs hw h hw2 hr =>
    obtain ⟨h1, h2⟩ := validUtf8_split (a := w ++ (t ++ w2)) (b := r) (c := 0x2C) (by decide) (by simpa using hv)
    have e1 := value_utf8 h (validUtf8_between hw hw2 h1)
    have e2 := elems_utf8 hr h2
    intro x hx
    rcases List.mem_cons.mp hx with rfl | hx
    · exact e1
    · exact e2 x hx
termination_by 2 * t.length + 1
decreasing_by all_goals (simp_all; try omega)
theorem members_utf8 {t : List Byte} {ms : List (List Byte × JVal)} (h : Members t ms) (hv : ValidUtf8 t) : ∀ m ∈ ms, ValidUtf8 m.1 ∧ Utf8J m.2 := by
  cases h with
  | single w k w2 w3 t w4 key v hw hk hw2 hw3 h hw4 =>
    obtain ⟨h1, h2⟩ := validUtf8_split (a := w ++ (k ++ w2)) (b := w3 ++ (t ++ w4)) (c := 0x3A) (by decide) (by simpa using hv)
    intro x hx
    simp at hx
    subst hx
    exact ⟨str_valid hk (validUtf8_between hw hw2 h1), value_utf8 h (validUtf8_between hw3 hw4 h2)⟩
  | more w k w2 w3 t w4 r key v ms hw hk hw2 hw3 h hw4 hr =>
    obtain ⟨h1, h2⟩ := validUtf8_split (a := w ++ (k ++ w2)) (b := w3 ++ (t ++ (w4 ++ 0x2C :: r))) (c := 0x3A) (by decide) (by simpa using hv)
    obtain ⟨h3, h4⟩ := validUtf8_split (a := w3 ++ (t ++ w4)) (b := r) (c := 0x2C) (by decide) (by simpa using h2)
    have e1 := value_utf8 h (validUtf8_between hw3 hw4 h3)
    have e2 := members_utf8 hr h4
    intro x hx
    rcases List.mem_cons.mp hx with rfl | hx
    · exact ⟨str_valid hk (validUtf8_between hw hw2 h1), e1⟩
    · exact e2 x hx
termination_by 2 * t.length + 1
decreasing_by all_goals (simp_all; try omega)
end

end Jzon
