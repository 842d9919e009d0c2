import Verif.Model.Stack

/-!
# The packed stack is a stack
-/

namespace Jzon

/-- Bit `i` of the packed words. -/
def bitAt (words : List UInt64) (i : Nat) : Bool := (words.getD (i / 64) 0).toNat.testBit (i % 64)

/-- The stack object holds the container kinds `bits`, innermost first; `true` is an array. -/
structure Stack.Abs (s : Stack) (bits : List Bool) : Prop where
  depth : s.depth = bits.length
  room : s.depth ≤ 64 * s.words.length
  bit : ∀ i, i < bits.length → bitAt s.words i = bits.getD (bits.length - 1 - i) false

def elemOf (b : Bool) : StackElem := if b then .array else .object

theorem and63 (n : Nat) : n &&& 63 = n % 64 := Nat.and_two_pow_sub_one_eq_mod n 6
theorem shr6 (n : Nat) : n >>> 6 = n / 64 := Nat.shiftRight_eq_div_pow n 6

theorem u64_bit {w : UInt64} {m : Nat} (hm : m < 64) :
    ((w >>> UInt64.ofNat m) &&& 1 = 0) ↔ w.toNat.testBit m = false := by
  rw [← UInt64.toNat_inj]
  simp only [UInt64.toNat_and, UInt64.toNat_shiftRight, UInt64.toNat_ofNat', UInt64.toNat_one, UInt64.toNat_zero]
  have h1 : m % 2 ^ 64 % 64 = m := by omega
  rw [h1, Nat.and_one_is_mod, Nat.shiftRight_eq_div_pow, Nat.testBit_eq_decide_div_mod_eq]
  simp

theorem u64_lowbits {w : UInt64} {m j : Nat} (hm : m < 64) :
    (w &&& (((1 : UInt64) <<< UInt64.ofNat m) - 1)).toNat.testBit j = (w.toNat.testBit j && decide (j < m)) := by
  have h1 : (((1 : UInt64) <<< UInt64.ofNat m) - 1).toNat = 2 ^ m - 1 := by
    have hlt : 2 ^ m < 2 ^ 64 := Nat.pow_lt_pow_right (by omega) hm
    have hle : (1 : UInt64) ≤ (1 : UInt64) <<< UInt64.ofNat m := by
      rw [UInt64.le_iff_toNat_le]
      simp only [UInt64.toNat_shiftLeft, UInt64.toNat_ofNat', UInt64.toNat_one]
      have : m % 2 ^ 64 % 64 = m := by omega
      rw [this, Nat.shiftLeft_eq, Nat.one_mul, Nat.mod_eq_of_lt hlt]
      exact Nat.one_le_two_pow
    rw [UInt64.toNat_sub_of_le _ _ hle]
    simp only [UInt64.toNat_shiftLeft, UInt64.toNat_ofNat', UInt64.toNat_one]
    have : m % 2 ^ 64 % 64 = m := by omega
    rw [this, Nat.shiftLeft_eq, Nat.one_mul, Nat.mod_eq_of_lt hlt]
  rw [UInt64.toNat_and, Nat.testBit_and, h1, Nat.testBit_two_pow_sub_one]

theorem u64_setbit {w : UInt64} {m j : Nat} (hm : m < 64) :
    (w ||| ((1 : UInt64) <<< UInt64.ofNat m)).toNat.testBit j = (w.toNat.testBit j || decide (m = j)) := by
  have hlt : 2 ^ m < 2 ^ 64 := Nat.pow_lt_pow_right (by omega) hm
  have h1 : ((1 : UInt64) <<< UInt64.ofNat m).toNat = 2 ^ m := by
    simp only [UInt64.toNat_shiftLeft, UInt64.toNat_ofNat', UInt64.toNat_one]
    have : m % 2 ^ 64 % 64 = m := by omega
    rw [this, Nat.shiftLeft_eq, Nat.one_mul, Nat.mod_eq_of_lt hlt]
  rw [UInt64.toNat_or, Nat.testBit_or, h1, Nat.testBit_two_pow]

theorem pop_nil {s : Stack} (h : s.Abs []) : s.pop = .ok (.none, s) := by
  have := h.depth
  simp at this
  simp [Stack.pop, this]

theorem pop_cons {s : Stack} {b : Bool} {bits : List Bool} (h : s.Abs (b :: bits)) :
    ∃ s', s.pop = .ok (elemOf b, s') ∧ s'.Abs bits := by
  have hd := h.depth
  have hr := h.room
  simp at hd
  have hlt : bits.length / 64 < s.words.length := by omega
  have hb := h.bit bits.length (by simp)
  refine ⟨{ s with depth := bits.length }, ?_, ?_⟩
  · unfold Stack.pop
    rw [if_neg (by omega)]
    simp only [hd, Nat.add_sub_cancel, and63, shr6, List.getElem?_eq_getElem hlt]
    simp only [bitAt, List.getD_eq_getElem?_getD, List.getElem?_eq_getElem hlt, Option.getD_some] at hb
    simp at hb
    have := @u64_bit (s.words[bits.length / 64]) (bits.length % 64) (by omega)
    cases b
    · rw [if_pos (this.mpr hb)]; rfl
    · rw [if_neg (by rw [this, hb]; simp)]; rfl
  · refine ⟨rfl, by simp only; omega, ?_⟩
    intro i hi
    have := h.bit i (by simp; omega)
    simp only at this ⊢
    rw [this]
    have e : (b :: bits).length - 1 - i = (bits.length - 1 - i) + 1 := by simp; omega
    rw [e]
    simp

theorem abs_push {s s' : Stack} {b : Bool} {bits : List Bool} (h : s.Abs bits) (hd : s'.depth = s.depth + 1)
    (hr : s.depth < 64 * s'.words.length)
    (hb : ∀ i, i ≤ s.depth → bitAt s'.words i = if i = s.depth then b else bitAt s.words i) : s'.Abs (b :: bits) := by
  have hdep := h.depth
  refine ⟨by simp [hd, hdep], by omega, ?_⟩
  intro i hi
  simp at hi
  rw [hb i (by omega)]
  split
  · rename_i e
    simp [e, hdep]
  · rw [h.bit i (by omega)]
    have e : (b :: bits).length - 1 - i = (bits.length - 1 - i) + 1 := by simp; omega
    rw [e]
    simp

theorem bitAt_append {ws : List UInt64} {w : UInt64} {i : Nat} (h : i ≤ 64 * ws.length) :
    bitAt (ws ++ [w]) i = if i = 64 * ws.length then w.toNat.testBit 0 else bitAt ws i := by
  unfold bitAt
  split
  · rename_i e
    subst e
    simp
  · have : i / 64 < ws.length := by omega
    simp [List.getD_eq_getElem?_getD, List.getElem?_append_left this]

theorem bitAt_set {ws : List UInt64} {d : Nat} {w : UInt64} {i : Nat} (h : d < ws.length) :
    bitAt (ws.set d w) i = if i / 64 = d then w.toNat.testBit (i % 64) else bitAt ws i := by
  unfold bitAt
  split
  · rename_i e
    simp [e, List.getD_eq_getElem?_getD, h]
  · rename_i e
    simp [List.getD_eq_getElem?_getD, Ne.symm e]

theorem pushObject_abs {s : Stack} {bits : List Bool} (h : s.Abs bits) :
    ∃ s', s.pushObject = .ok s' ∧ s'.Abs (false :: bits) := by
  have hr := h.room
  unfold Stack.pushObject
  simp only [and63, shr6]
  split
  · rename_i e
    refine ⟨_, rfl, abs_push h rfl (by simp; omega) ?_⟩
    intro i hi
    rw [bitAt_append (by omega)]
    have : s.depth = 64 * s.words.length := by omega
    rw [this]
    simp
  · rename_i e
    have hlt : s.depth / 64 < s.words.length := by omega
    rw [List.getElem?_eq_getElem hlt]
    refine ⟨_, rfl, abs_push h rfl (by simp; omega) ?_⟩
    intro i hi
    rw [bitAt_set hlt]
    split
    · rename_i e2
      rw [u64_lowbits (by omega)]
      split
      · rename_i e3; subst e3; simp
      · have : i % 64 < s.depth % 64 := by omega
        simp [this, bitAt, List.getD_eq_getElem?_getD, e2, hlt]
    · rw [if_neg (by rintro rfl; omega)]

theorem pushArray_abs {s : Stack} {bits : List Bool} (h : s.Abs bits) :
    ∃ s', s.pushArray = .ok s' ∧ s'.Abs (true :: bits) := by
  have hr := h.room
  unfold Stack.pushArray
  simp only [and63, shr6]
  split
  · rename_i e
    refine ⟨_, rfl, abs_push h rfl (by simp; omega) ?_⟩
    intro i hi
    rw [bitAt_append (by omega)]
    have : s.depth = 64 * s.words.length := by omega
    rw [this]
    simp
  · rename_i e
    have hlt : s.depth / 64 < s.words.length := by omega
    rw [List.getElem?_eq_getElem hlt]
    refine ⟨_, rfl, abs_push h rfl (by simp; omega) ?_⟩
    intro i hi
    rw [bitAt_set hlt]
    split
    · rename_i e2
      rw [u64_setbit (by omega)]
      split
      · rename_i e3; subst e3; simp
      · have : i % 64 < s.depth % 64 := by omega
        simp [bitAt, List.getD_eq_getElem?_getD, e2, hlt]
        omega
    · rw [if_neg (by rintro rfl; omega)]

theorem initObject_abs (s : Stack) : s.initObject.Abs [false] := by
  unfold Stack.initObject
  split
  · exact ⟨rfl, by simp, by intro i hi; simp at hi; subst hi; rfl⟩
  · rename_i h
    refine ⟨rfl, by simp; omega, ?_⟩
    intro i hi; simp at hi; subst hi
    rw [bitAt_set (by omega)]
    rfl

theorem initArray_abs (s : Stack) : s.initArray.Abs [true] := by
  unfold Stack.initArray
  split
  · exact ⟨rfl, by simp, by intro i hi; simp at hi; subst hi; rfl⟩
  · rename_i h
    refine ⟨rfl, by simp; omega, ?_⟩
    intro i hi; simp at hi; subst hi
    rw [bitAt_set (by omega)]
    rfl

end Jzon
