import Verif.Model.Encode
import Verif.Spec.Encode

/-!
# Integers are written in decimal
-/

set_option linter.unusedSimpArgs false

namespace Jzon

open Spec

def dg (n : Nat) : Byte := UInt8.ofNat (0x30 + n)

/-- Three digits. -/
def three (n : Nat) : List Byte := [dg (n / 100), dg (n / 10 % 10), dg (n % 10)]

def small (n : Nat) : List Byte :=
  if n < 10 then [dg n] else if n < 100 then [dg (n / 10), dg (n % 10)] else three n

theorem decimal_small {n : Nat} (h : n < 1000) : decimal n = small n := by
  unfold small three
  by_cases h1 : n < 10
  · rw [decimal]; simp [h1, dg]
  · by_cases h2 : n < 100
    · have : n / 10 < 10 := by omega
      rw [decimal, decimal]; simp [h1, h2, this, dg]
    · have h3 : n / 10 / 10 < 10 := by omega
      have h4 : ¬ n / 10 < 10 := by omega
      have h5 : n / 10 / 10 = n / 100 := by omega
      rw [decimal, decimal, decimal]; simp [h1, h2, h5 ▸ h3, h4, h5, dg]

theorem decimal_three {q r : Nat} (hq : q ≠ 0) (hr : r < 1000) : decimal (q * 1000 + r) = decimal q ++ three r := by
  have e1 : (q * 1000 + r) / 10 = q * 100 + r / 10 := by omega
  have e2 : (q * 100 + r / 10) / 10 = q * 10 + r / 100 := by omega
  have e3 : (q * 10 + r / 100) / 10 = q := by omega
  have m1 : (q * 1000 + r) % 10 = r % 10 := by omega
  have m2 : (q * 100 + r / 10) % 10 = r / 10 % 10 := by omega
  have m3 : (q * 10 + r / 100) % 10 = r / 100 := by omega
  have n1 : ¬ q * 1000 + r < 10 := by omega
  have n2 : ¬ q * 100 + r / 10 < 10 := by omega
  have n3 : ¬ q * 10 + r / 100 < 10 := by omega
  rw [decimal, if_neg n1, e1, decimal, if_neg n2, e2, decimal, if_neg n3, e3, m1, m2, m3]
  simp [three, dg]

/-- The table has 1000 entries; all of them are checked. -/
theorem digitsAt_table : ∀ i : _root_.Fin 1000, ∃ v, digitsAt i.val = some v ∧
    appendDigit [] v = three i.val ∧ appendLeadingDigit [] v = small i.val := by
  have : ∀ i : _root_.Fin 1000, (match digitsAt i.val with
      | some v => decide (appendDigit [] v = three i.val) && decide (appendLeadingDigit [] v = small i.val)
      | none => false) = true := by decide +kernel
  intro i
  have h := this i
  split at h
  · rename_i v hv
    simp at h
    exact ⟨v, hv, h⟩
  · cases h

theorem appendDigit_append (b : List Byte) (v : BitVec 32) : appendDigit b v = b ++ appendDigit [] v := by
  simp [appendDigit]

theorem appendLeadingDigit_append (b : List Byte) (v : BitVec 32) :
    appendLeadingDigit b v = b ++ appendLeadingDigit [] v := by
  unfold appendLeadingDigit
  simp only
  split
  · rfl
  · split <;> rfl

theorem leading {i : Nat} (h : i < 1000) (b : List Byte) :
    (do pure (appendLeadingDigit b (← digitsAt i)) : Option (List Byte)) = some (b ++ decimal i) := by
  obtain ⟨v, h1, _, h3⟩ := digitsAt_table ⟨i, h⟩
  simp only at h1 h3
  rw [h1]
  show some (appendLeadingDigit b v) = _
  rw [appendLeadingDigit_append, h3, decimal_small h]

theorem following {i : Nat} (h : i < 1000) (b : List Byte) :
    (do pure (appendDigit b (← digitsAt i)) : Option (List Byte)) = some (b ++ three i) := by
  obtain ⟨v, h1, h2, _⟩ := digitsAt_table ⟨i, h⟩
  simp only at h1 h2
  rw [h1]
  show some (appendDigit b v) = _
  rw [appendDigit_append, h2]

section
variable {w : Nat}

theorem toNat_div1000 (hw : 10 ≤ w) (v : BitVec w) : (v / 1000).toNat = v.toNat / 1000 := by
  have : (1000 : BitVec w).toNat = 1000 := by
    show 1000 % 2 ^ w = 1000
    apply Nat.mod_eq_of_lt
    have := Nat.pow_le_pow_right (n := 2) (by omega) hw
    omega
  rw [BitVec.toNat_udiv, this]

theorem toNat_rem1000 (hw : 10 ≤ w) (v : BitVec w) : (v - v / 1000 * 1000).toNat = v.toNat % 1000 := by
  have e1 : (1000 : BitVec w).toNat = 1000 := by
    show 1000 % 2 ^ w = 1000
    apply Nat.mod_eq_of_lt
    have := Nat.pow_le_pow_right (n := 2) (by omega) hw
    omega
  have h := v.isLt
  have e2 : (v / 1000 * 1000).toNat = v.toNat / 1000 * 1000 := by
    rw [BitVec.toNat_mul, toNat_div1000 hw, e1]
    apply Nat.mod_eq_of_lt
    omega
  rw [BitVec.toNat_sub_of_le (by rw [BitVec.le_def, e2]; omega), e2]
  omega

theorem div1000_eq_zero (hw : 10 ≤ w) (v : BitVec w) : v / 1000 = 0 ↔ v.toNat < 1000 := by
  rw [← BitVec.toNat_inj, toNat_div1000 hw]
  simp

/-- One step: the quotient has been written, the three digits of the remainder follow. -/
theorem step (hw : 10 ≤ w) {v : BitVec w} (hv : v / 1000 ≠ 0) (b : List Byte) :
    (do pure (appendDigit (b ++ decimal (v / 1000).toNat) (← digitsAt (v - v / 1000 * 1000).toNat)) : Option (List Byte)) =
      some (b ++ decimal v.toNat) := by
  rw [toNat_rem1000 hw, following (Nat.mod_lt _ (by omega)), toNat_div1000 hw]
  have h0 : v.toNat / 1000 ≠ 0 := by
    have := mt (div1000_eq_zero hw v).mpr hv
    omega
  have := decimal_three (q := v.toNat / 1000) (r := v.toNat % 1000) h0 (Nat.mod_lt _ (by omega))
  rw [show v.toNat / 1000 * 1000 + v.toNat % 1000 = v.toNat by omega] at this
  rw [this, List.append_assoc]

theorem first (hw : 10 ≤ w) {v : BitVec w} (hv : v / 1000 = 0) (b : List Byte) :
    (do pure (appendLeadingDigit b (← digitsAt v.toNat)) : Option (List Byte)) = some (b ++ decimal v.toNat) :=
  leading ((div1000_eq_zero hw v).mp hv) b

end

theorem appendUint8_eq (b : List Byte) (v : BitVec 8) : appendUint8 b v = some (b ++ decimal v.toNat) :=
  leading (by have := v.isLt; omega) b

theorem digitsAt_some {i : Nat} (h : i < 1000) : ∃ v, digitsAt i = some v ∧ (∀ b, appendDigit b v = b ++ three i) ∧
    ∀ b, appendLeadingDigit b v = b ++ decimal i := by
  obtain ⟨v, h1, h2, h3⟩ := digitsAt_table ⟨i, h⟩
  simp only at h1 h2 h3
  exact ⟨v, h1, fun b => by rw [appendDigit_append, h2], fun b => by rw [appendLeadingDigit_append, h3, decimal_small h]⟩

theorem appendUint16_eq (b : List Byte) (v : BitVec 16) : appendUint16 b v = some (b ++ decimal v.toNat) := by
  unfold appendUint16
  simp only
  split
  · rename_i h; exact first (by decide) h b
  · rename_i h
    obtain ⟨x, h2, _, h3⟩ := digitsAt_some (i := (v / 1000).toNat) (by
      have := v.isLt
      rw [toNat_div1000 (by decide)]; omega)
    rw [h2, Option.bind_eq_bind, Option.bind_some, h3]
    exact step (by decide) h b

theorem byteOf_digit : ∀ i : _root_.Fin 10, byteOf (BitVec.ofNat 32 i.val + 0x30) = dg i.val := by decide +kernel

theorem appendUint32_eq (b : List Byte) (v : BitVec 32) : appendUint32 b v = some (b ++ decimal v.toNat) := by
  unfold appendUint32
  simp only
  split
  · rename_i h; exact first (by decide) h b
  · rename_i h
    obtain ⟨x1, e1, d1, _⟩ := digitsAt_some (i := (v - v / 1000 * 1000).toNat) (by
      rw [toNat_rem1000 (by decide)]; omega)
    have s1 := step (w := 32) (by decide) h b
    rw [e1, Option.bind_eq_bind, Option.bind_some] at s1
    simp only [Option.pure_def] at s1
    split
    · rename_i h2
      have := first (w := 32) (by decide) h2 b
      obtain ⟨x2, e2, _, d2⟩ := digitsAt_some ((div1000_eq_zero (by decide) _).mp h2)
      simp only [e1, e2, Option.bind_eq_bind, Option.bind_some, d2, Option.pure_def]
      exact s1
    · rename_i h2
      have s2 := step (w := 32) (by decide) h2 b
      obtain ⟨x2, e2, _, _⟩ := digitsAt_some (i := (v / 1000 - v / 1000 / 1000 * 1000).toNat) (by
        rw [toNat_rem1000 (by decide)]; omega)
      rw [e2, Option.bind_eq_bind, Option.bind_some] at s2
      simp only [Option.pure_def] at s2
      split
      · rename_i h3
        obtain ⟨x3, e3, _, d3⟩ := digitsAt_some ((div1000_eq_zero (by decide) _).mp h3)
        simp only [e1, e2, e3, Option.bind_eq_bind, Option.bind_some, d3, Option.pure_def]
        rw [Option.some.inj s2, s1]
      · rename_i h3
        have s3 := step (w := 32) (by decide) h3 b
        obtain ⟨x3, e3, _, _⟩ := digitsAt_some (i := (v / 1000 / 1000 - v / 1000 / 1000 / 1000 * 1000).toNat) (by
          rw [toNat_rem1000 (by decide)]; omega)
        rw [e3, Option.bind_eq_bind, Option.bind_some] at s3
        have h4 : (v / 1000 / 1000 / 1000).toNat < 10 := by
          have := v.isLt
          simp only [toNat_div1000 (w := 32) (by decide)]
          omega
        have := byteOf_digit ⟨_, h4⟩
        simp only [BitVec.ofNat_toNat, BitVec.setWidth_eq] at this
        have d4 : decimal (v / 1000 / 1000 / 1000).toNat = [byteOf (v / 1000 / 1000 / 1000 + 0x30)] := by
          rw [this, decimal, if_pos h4]; rfl
        simp only [Option.pure_def, d4] at s3
        simp only [e1, e2, e3, Option.bind_eq_bind, Option.bind_some, Option.pure_def]
        rw [Option.some.inj s3, Option.some.inj s2, s1]

/-- The nesting of `appendUint64`: each level writes its quotient with the next level. -/
theorem level {inner : List Byte → BitVec 64 → Option (List Byte)} {v : BitVec 64}
    (hi : ∀ b, inner b (v / 1000) = some (b ++ decimal (v / 1000).toNat)) (b : List Byte) :
    (if v / 1000 = 0 then (do pure (appendLeadingDigit b (← digitsAt v.toNat)) : Option (List Byte))
     else do
      let b ← inner b (v / 1000)
      pure (appendDigit b (← digitsAt (v - v / 1000 * 1000).toNat))) = some (b ++ decimal v.toNat) := by
  split
  · rename_i h; exact first (by decide) h b
  · rename_i h
    rw [hi, Option.bind_eq_bind, Option.bind_some]
    exact step (by decide) h b

theorem appendUint64_eq (b : List Byte) (v : BitVec 64) : appendUint64 b v = some (b ++ decimal v.toNat) := by
  refine level (inner := appendUint64q1) (fun b => ?_) b
  refine level (inner := appendUint64q2) (fun b => ?_) b
  refine level (inner := appendUint64q3) (fun b => ?_) b
  refine level (inner := appendUint64q4) (fun b => ?_) b
  refine level (inner := appendUint64q5) (fun b => ?_) b
  generalize hq : v / 1000 / 1000 / 1000 / 1000 / 1000 = q
  have hlt : (q / 1000).toNat < 1000 := by
    subst hq
    have := v.isLt
    simp only [toNat_div1000 (w := 64) (by decide)]
    omega
  have := level (v := q) (inner := fun b q6 => do pure (appendLeadingDigit b (← digitsAt q6.toNat))) (fun b => leading hlt b) b
  rw [← this]
  unfold appendUint64q5
  simp only
  split
  · rfl
  · obtain ⟨x, hx, _, _⟩ := digitsAt_some hlt
    rw [hx]
    rfl

theorem appendInt_eq {w : Nat} (hw : 1 ≤ w) {f : List Byte → BitVec w → Option (List Byte)}
    (hf : ∀ b v, f b v = some (b ++ decimal v.toNat)) (b : List Byte) (v : BitVec w) :
    appendInt f b v = some (b ++ decimalInt v.toInt) := by
  unfold appendInt decimalInt
  have key : v.slt 0 = true ↔ v.toInt < 0 := by
    rw [BitVec.slt_iff_toInt_lt]; simp
  by_cases h : v.toInt < 0
  · rw [if_pos (key.mpr h), if_pos h, hf]
    have : (-v).toNat = v.toInt.natAbs := by
      have h1 := BitVec.toInt_eq_toNat_cond v
      have h2 := v.isLt
      rw [BitVec.toNat_neg]
      split at h1
      · omega
      · have : 0 < v.toNat := by
          have := Nat.pow_pos (n := w) (show 0 < 2 by decide)
          omega
        rw [Nat.mod_eq_of_lt (by omega)]
        omega
    rw [this]
    simp
  · rw [if_neg (by rw [key]; exact h), if_neg h, hf]
    have : v.toNat = v.toInt.natAbs := by
      have h1 := BitVec.toInt_eq_toNat_cond v
      have h2 := v.isLt
      split at h1 <;> omega
    rw [this]

/-! ## The decimal representation is the canonical literal -/

theorem decFrom_append (n : Nat) (a b : List Byte) : decFrom n (a ++ b) = decFrom (decFrom n a) b := by
  simp [decFrom, List.foldl_append]

theorem dg_digit {n : Nat} (h : n < 10) : Digit (dg n) ∧ (dg n).toNat - 0x30 = n := by
  have : ∀ i : _root_.Fin 10, Digit (dg i.val) ∧ (dg i.val).toNat - 0x30 = i.val := by decide +kernel
  exact this ⟨n, h⟩

theorem decimal_spec (n : Nat) : IntPart (decimal n) ∧ dec (decimal n) = n ∧ (n ≠ 0 → ∀ d ds, decimal n = d :: ds → 0x31 ≤ d) := by
  induction n using Nat.strongRecOn with
  | ind n ih =>
    by_cases h : n < 10
    · rw [decimal, if_pos h]
      have : ∀ i : _root_.Fin 10, IntPart [dg i.val] ∧ dec [dg i.val] = i.val ∧ (i.val ≠ 0 → 0x31 ≤ dg i.val) := by
        intro i
        have h1 := dg_digit i.isLt
        refine ⟨?_, by simp [dec, decFrom, h1.2], ?_⟩
        · by_cases h0 : i.val = 0
          · rw [h0]; exact .zero
          · refine .pos _ [] ⟨?_, h1.1.2⟩ (by intro c hc; cases hc)
            have : ∀ i : _root_.Fin 10, i.val ≠ 0 → 0x31 ≤ dg i.val := by decide +kernel
            exact this i h0
        · have : ∀ i : _root_.Fin 10, i.val ≠ 0 → 0x31 ≤ dg i.val := by decide +kernel
          exact this i
      obtain ⟨a, b, c⟩ := this ⟨n, h⟩
      exact ⟨a, b, fun h0 d ds hd => by cases hd; exact c h0⟩
    · obtain ⟨h1, h2, h3⟩ := ih (n / 10) (by omega)
      have hd := dg_digit (Nat.mod_lt n (show 0 < 10 by omega))
      rw [decimal, if_neg h]
      refine ⟨?_, ?_, ?_⟩
      · cases hq : decimal (n / 10) with
        | nil => rw [hq] at h1; cases h1
        | cons d ds =>
          have h4 := h3 (by omega) d ds hq
          rw [hq] at h1
          cases h1 with
          | zero => exact absurd h4 (by decide)
          | pos d ds hd' hds =>
            refine .pos d _ hd' ?_
            intro c hc
            rcases List.mem_append.mp hc with hc | hc
            · exact hds c hc
            · rw [List.mem_singleton.mp hc]; exact hd.1
      · have : dec (decimal (n / 10) ++ [UInt8.ofNat (0x30 + n % 10)]) = dec (decimal (n / 10)) * 10 + ((dg (n % 10)).toNat - 0x30) := by
          unfold dec
          rw [decFrom_append]; rfl
        rw [this, h2, hd.2]
        omega
      · intro _ d ds hd'
        cases hq : decimal (n / 10) with
        | nil => rw [hq] at h1; cases h1
        | cons d' ds' =>
          rw [hq] at hd'
          cases hd'
          exact h3 (by omega) _ _ hq

end Jzon
