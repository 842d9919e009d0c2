import Verif.Model.Int
import Verif.Spec.Int
import Verif.Proof.Top

/-!
# Integer readers
-/

set_option linter.unusedSimpArgs false

namespace Jzon

open Spec

theorem intDigit_iff (c : Byte) : (Digit c ∧ intDigit c = some (c.toNat - 0x30) ∧ c.toNat - 0x30 < 10) ∨
    (¬ Digit c ∧ intDigit c = none) := by
  by_cases h : Digit c
  · refine .inl ⟨h, by simp only [intDigit]; rw [if_pos (show (48 : Byte) ≤ c ∧ c ≤ 57 from h)], ?_⟩
    have h1 : c.toNat ≤ 57 := h.2
    omega
  · exact .inr ⟨h, by simp only [intDigit]; rw [if_neg (show ¬ ((48 : Byte) ≤ c ∧ c ≤ 57) from h)]⟩

theorem decFrom_cons (n : Nat) (d : Byte) (ds : List Byte) :
    decFrom n (d :: ds) = decFrom (n * 10 + (d.toNat - 0x30)) ds := by simp only [decFrom, List.foldl_cons]

theorem decFrom_ge (n : Nat) (ds : List Byte) : n ≤ decFrom n ds := by
  induction ds generalizing n with
  | nil => exact Nat.le_refl _
  | cons d ds ih => have := ih (n * 10 + (d.toNat - 0x30)); rw [decFrom_cons]; omega

theorem shift10 {w : Nat} (a b : BitVec w) : ((a <<< 3) + (a <<< 1) + b).toNat = (a.toNat * 10 + b.toNat) % 2 ^ w := by
  simp only [BitVec.toNat_add, BitVec.toNat_shiftLeft, Nat.shiftLeft_eq]
  simp only [Nat.add_mod, Nat.mod_mod]
  rw [show a.toNat * 10 = a.toNat * 2 ^ 3 + a.toNat * 2 ^ 1 by omega]
  simp only [Nat.add_mod, Nat.mod_mod]

/-- The digits at the front of `l`, and what follows. -/
def digitsOf (l : List Byte) : List Byte := l.takeWhile fun c => decide (Digit c)
def afterDigits (l : List Byte) : List Byte := l.dropWhile fun c => decide (Digit c)

theorem uint_scan {w k : Nat} (hk : 10 ^ k ≤ 2 ^ w) (hw : 4 ≤ w) {e : Err} {l : List Byte} {s : BitVec w × Nat}
    (hs : s.2 < k → s.1.toNat < 10 ^ s.2) :
    scanF (uintBody w k) (fun s => (.ok s.1 : Except Err (BitVec w))) e s l =
      if 2 ^ w ≤ decFrom s.1.toNat (digitsOf l) then .error (.intOverflow [] none)
      else if afterDigits l = [] ∧ e ≠ .eof then .error e
      else .ok (BitVec.ofNat w (decFrom s.1.toNat (digitsOf l)), afterDigits l) := by
  induction l generalizing s with
  | nil =>
    have := s.1.isLt
    simp only [scanF, digitsOf, afterDigits, List.takeWhile_nil, List.dropWhile_nil, decFrom, List.foldl_nil,
      BitVec.ofNat_toNat, BitVec.setWidth_eq]
    have h' : ¬ 2 ^ w ≤ s.1.toNat := by omega
    by_cases he : e = .eof <;> simp [he, h']
  | cons c l ih =>
    rcases intDigit_iff c with ⟨h1, h2, h3⟩ | ⟨h1, h2⟩
    · have hd : digitsOf (c :: l) = c :: digitsOf l := by simp [digitsOf, h1]
      have ha : afterDigits (c :: l) = afterDigits l := by simp [afterDigits, h1]
      rw [hd, ha, decFrom_cons]
      have hbase : 16 ≤ 2 ^ w := by
        have : 2 ^ 4 ≤ 2 ^ w := Nat.pow_le_pow_right (by omega) hw
        omega
      have hdiv : (maxDiv10 w).toNat = (2 ^ w - 1) / 10 := by
        simp only [maxDiv10, BitVec.toNat_ofNat]
        exact Nat.mod_eq_of_lt (by omega)
      simp only [scanF, uintBody, h2]
      by_cases hov : s.2 ≥ k ∧ (s.1.toNat > (maxDiv10 w).toNat ∨ (s.1 = maxDiv10 w ∧ c.toNat - 0x30 > maxMod10 w))
      · rw [if_pos hov]
        have hge : 2 ^ w ≤ s.1.toNat * 10 + (c.toNat - 0x30) := by
          rcases hov.2 with h | ⟨h, h'⟩
          · rw [hdiv] at h; omega
          · rw [h, hdiv]
            unfold maxMod10 at h'
            omega
        have := decFrom_ge (s.1.toNat * 10 + (c.toNat - 0x30)) (digitsOf l)
        rw [if_pos (by omega)]
      · rw [if_neg hov]
        have hlt : s.1.toNat * 10 + (c.toNat - 0x30) < 2 ^ w := by
          by_cases hk' : s.2 < k
          · have h4 := hs hk'
            have h5 : 10 ^ (s.2 + 1) ≤ 10 ^ k := Nat.pow_le_pow_right (by omega) hk'
            rw [Nat.pow_succ] at h5
            omega
          · have h4 : ¬ (s.1.toNat > (maxDiv10 w).toNat ∨ (s.1 = maxDiv10 w ∧ c.toNat - 0x30 > maxMod10 w)) := by
              intro h; exact hov ⟨by omega, h⟩
            rw [hdiv] at h4
            by_cases h6 : s.1.toNat = (2 ^ w - 1) / 10
            · have h7 : s.1 = maxDiv10 w := by apply BitVec.eq_of_toNat_eq; rw [hdiv, h6]
              have h8 : ¬ (c.toNat - 0x30 > maxMod10 w) := fun h => h4 (.inr ⟨h7, h⟩)
              unfold maxMod10 at h8
              omega
            · have : ¬ s.1.toNat > (2 ^ w - 1) / 10 := fun h => h4 (.inl h)
              omega
        have hval : ((s.1 <<< 3) + (s.1 <<< 1) + BitVec.ofNat w (c.toNat - 0x30)).toNat =
            s.1.toNat * 10 + (c.toNat - 0x30) := by
          rw [shift10, BitVec.toNat_ofNat, Nat.mod_eq_of_lt (show c.toNat - 48 < 2 ^ w by omega), Nat.mod_eq_of_lt hlt]
        simp only
        rw [ih]
        · rw [hval]
        · intro hk'
          simp only at hk' ⊢
          rw [hval]
          have := hs (by omega)
          rw [Nat.pow_succ]
          omega
    · have hd : digitsOf (c :: l) = [] := by simp [digitsOf, h1]
      have ha : afterDigits (c :: l) = c :: l := by simp [afterDigits, h1]
      have := s.1.isLt
      rw [hd, ha]
      simp only [scanF, uintBody, h2, decFrom, List.foldl_nil, BitVec.ofNat_toNat, BitVec.setWidth_eq]
      rw [if_neg (by omega)]
      simp

theorem digits_split (l : List Byte) : l = digitsOf l ++ afterDigits l := by simp [digitsOf, afterDigits]

theorem digitsOf_all (l : List Byte) : ∀ c ∈ digitsOf l, Digit c := by
  induction l with
  | nil => simp [digitsOf]
  | cons d l ih =>
    intro c hc
    by_cases h : Digit d
    · simp [digitsOf, h] at hc
      rcases hc with rfl | hc
      · exact h
      · exact ih c (by simpa [digitsOf] using hc)
    · simp [digitsOf, h] at hc

theorem afterDigits_head (l : List Byte) : ∀ c r, afterDigits l = c :: r → ¬ Digit c := by
  induction l with
  | nil => simp [afterDigits]
  | cons d l ih =>
    intro c r h
    by_cases hd : Digit d
    · simp [afterDigits, hd] at h
      exact ih c r (by simpa [afterDigits] using h)
    · simp [afterDigits, hd] at h
      rw [← h.1]; exact hd

theorem digitsOf_append {ds r : List Byte} (h1 : ∀ c ∈ ds, Digit c) (h2 : ∀ c r', r = c :: r' → ¬ Digit c) :
    digitsOf (ds ++ r) = ds ∧ afterDigits (ds ++ r) = r := by
  induction ds with
  | nil =>
    cases r with
    | nil => simp [digitsOf, afterDigits]
    | cons c r => have := h2 c r rfl; simp [digitsOf, afterDigits, this]
  | cons d ds ih =>
    have hd := h1 d (by simp)
    have := ih (fun c hc => h1 c (by simp [hc]))
    simp only [digitsOf, afterDigits] at this
    simp [digitsOf, afterDigits, hd, this]

/-- `c :: l` begins with an integer part `t`. -/
theorem intAt_cases {e : Err} {c : Byte} {l t r : List Byte} (h : c :: l = t ++ r) (ht : IntAt e t r) :
    (c = 0x30 ∧ t = [0x30] ∧ r = l) ∨
    (c ≠ 0x30 ∧ Digit c ∧ t = c :: digitsOf l ∧ r = afterDigits l ∧ (afterDigits l = [] → e = .eof)) := by
  obtain ⟨h1, h2⟩ := ht
  cases h1 with
  | zero => simp at h; exact .inl ⟨h.1, rfl, h.2.symm⟩
  | pos d ds hd hds =>
    simp at h
    obtain ⟨rfl, rfl⟩ := h
    have hne : c ≠ 0x30 := by rintro rfl; exact absurd hd.1 (by decide)
    obtain ⟨a, b⟩ := h2 (by simp [hne])
    obtain ⟨x, y⟩ := digitsOf_append hds a
    exact .inr ⟨hne, ⟨UInt8.le_trans (by decide) hd.1, hd.2⟩, by rw [x], y.symm, by rw [y]; exact b⟩

theorem digit_pos {c : Byte} (h : Digit c) (h0 : c ≠ 0x30) : 0x31 ≤ c ∧ c ≤ 0x39 := by
  revert c; intro c; revert c; apply forall_byte; decide +kernel

theorem intAt_digits {e : Err} {c : Byte} {l : List Byte} (h : Digit c) (h0 : c ≠ 0x30)
    (he : afterDigits l = [] → e = .eof) : IntAt e (c :: digitsOf l) (afterDigits l) :=
  ⟨.pos c _ (digit_pos h h0) (digitsOf_all l), fun _ => ⟨afterDigits_head l, he⟩⟩

theorem digit_val_pos {c : Byte} (h : Digit c) (h0 : c ≠ 0x30) : ∃ n, c.toNat - 0x30 = n + 1 := by
  revert c; intro c h h0
  have : 0x31 ≤ c.toNat := by
    have := (digit_pos h h0).1
    exact this
  exact ⟨c.toNat - 0x31, by omega⟩

/-- What an unsigned reader for `w` bits does on `c :: l`, as far as decimal integers are concerned. -/
structure UintOk (w : Nat) (p : Byte → Prog (BitVec w)) : Prop where
  ok : ∀ env c l v r, Runs (p c) env l v r ↔
    ∃ t, c :: l = t ++ r ∧ IntAt env.endErr t r ∧ dec t < 2 ^ w ∧ v = BitVec.ofNat w (dec t)
  overflow : ∀ env c l t r, c :: l = t ++ r → IntAt env.endErr t r → 2 ^ w ≤ dec t →
    (p c).runF env l = .error (.intOverflow [] none)

theorem readUint_ok {w k : Nat} (hk : 10 ^ k ≤ 2 ^ w) (hw : 4 ≤ w) : UintOk w (readUint w k) := by
  have hbase : 16 ≤ 2 ^ w := by
    have : 2 ^ 4 ≤ 2 ^ w := Nat.pow_le_pow_right (by omega) hw
    omega
  have hinv : ∀ n, n < 10 → ((BitVec.ofNat w n, 1) : BitVec w × Nat).2 < k →
      ((BitVec.ofNat w n, 1) : BitVec w × Nat).1.toNat < 10 ^ ((BitVec.ofNat w n, 1) : BitVec w × Nat).2 := by
    intro n hn _
    simp only [BitVec.toNat_ofNat]
    rw [Nat.mod_eq_of_lt (by omega)]
    omega
  have run : ∀ env c l, Digit c → c ≠ 0x30 → (readUint w k c).runF env l =
      if 2 ^ w ≤ dec (c :: digitsOf l) then .error (.intOverflow [] none)
      else if afterDigits l = [] ∧ env.endErr ≠ .eof then .error env.endErr
      else .ok (BitVec.ofNat w (dec (c :: digitsOf l)), afterDigits l) := by
    intro env c l h h0
    obtain ⟨n, hn⟩ := digit_val_pos h h0
    rcases intDigit_iff c with ⟨_, h2, h3⟩ | ⟨h1, _⟩
    · simp only [readUint, h2, hn]
      rw [runF_op, Op.runF, uint_scan hk hw (hinv _ (by omega))]
      have : (BitVec.ofNat w (n + 1)).toNat = 0 * 10 + (c.toNat - 0x30) := by
        rw [BitVec.toNat_ofNat, Nat.mod_eq_of_lt (by omega), hn]; omega
      simp only [this, dec, decFrom_cons]
    · exact absurd h h1
  constructor
  · intro env c l v r
    rcases intDigit_iff c with ⟨h1, h2, h3⟩ | ⟨h1, h2⟩
    · by_cases h0 : c = 0x30
      · subst h0
        have hp : readUint w k 0x30 = pure 0 := by rfl
        rw [hp, runs_pure]
        constructor
        · rintro ⟨rfl, rfl⟩
          refine ⟨[0x30], rfl, ⟨.zero, by simp⟩, ?_, ?_⟩
          · simp [dec, decFrom]; omega
          · rfl
        · rintro ⟨t, ht, hI, _, rfl⟩
          rcases intAt_cases ht hI with ⟨_, rfl, rfl⟩ | ⟨h, _⟩
          · exact ⟨rfl, rfl⟩
          · exact absurd rfl h
      · unfold Runs
        rw [run env c l h1 h0]
        constructor
        · intro h
          split at h
          · cases h
          · split at h
            · cases h
            · rename_i hlt hne
              simp at h
              obtain ⟨rfl, rfl⟩ := h
              refine ⟨c :: digitsOf l, by simp [← digits_split], intAt_digits h1 h0 ?_, by omega, rfl⟩
              intro ha
              exact Classical.not_not.mp fun he => hne ⟨ha, he⟩
        · rintro ⟨t, ht, hI, hlt, rfl⟩
          rcases intAt_cases ht hI with ⟨h, _⟩ | ⟨_, _, rfl, rfl, he⟩
          · exact absurd h h0
          · rw [if_neg (by omega), if_neg (by rintro ⟨a, b⟩; exact b (he a))]
    · have hp : readUint w k c = .fail (.invalidDigit c) := by simp [readUint, h2]
      rw [hp]
      constructor
      · intro h; simp [Runs, Prog.runF] at h
      · rintro ⟨t, ht, hI, _, _⟩
        rcases intAt_cases ht hI with ⟨rfl, _⟩ | ⟨_, h, _⟩
        · exact absurd (by decide) h1
        · exact absurd h h1
  · intro env c l t r ht hI hge
    rcases intAt_cases ht hI with ⟨_, rfl, _⟩ | ⟨h0, hd, rfl, rfl, _⟩
    · simp [dec, decFrom] at hge
    · rw [run env c l hd h0, if_pos hge]

theorem readUint16_ok : UintOk 16 (readUint 16 4) := readUint_ok (by decide) (by decide)
theorem readUint32_ok : UintOk 32 (readUint 32 9) := readUint_ok (by decide) (by decide)
theorem readUint64_ok : UintOk 64 (readUint 64 19) := readUint_ok (by decide) (by decide)

/-- The completeness part of `UintOk`, restricted to some literals. -/
structure UintGood (w : Nat) (P : List Byte → Prop) (p : Byte → Prog (BitVec w)) : Prop where
  ok : ∀ env c l t r, c :: l = t ++ r → IntAt env.endErr t r → P t → dec t < 2 ^ w →
    Runs (p c) env l (BitVec.ofNat w (dec t)) r
  overflow : ∀ env c l t r, c :: l = t ++ r → IntAt env.endErr t r → P t → 2 ^ w ≤ dec t →
    (p c).runF env l = .error (.intOverflow [] none)

theorem UintOk.good {w : Nat} {p : Byte → Prog (BitVec w)} (h : UintOk w p) : UintGood w (fun _ => True) p :=
  ⟨fun env c l t r h1 h2 _ h3 => (h.ok env c l _ r).mpr ⟨t, h1, h2, h3, rfl⟩,
   fun env c l t r h1 h2 _ h3 => h.overflow env c l t r h1 h2 h3⟩

theorem intAt_ne_minus {e : Err} {t r : List Byte} (h : IntAt e t r) : ∃ d u, t = d :: u ∧ d ≠ 0x2D := by
  cases h.1 with
  | zero => exact ⟨_, _, rfl, by decide⟩
  | pos d ds hd _ => exact ⟨_, _, rfl, by rintro rfl; exact absurd hd.1 (by decide)⟩

theorem neg_ofNat {w n : Nat} : -(BitVec.ofNat w n) = BitVec.ofInt w (-(n : Int)) := by
  rw [BitVec.ofInt_neg, BitVec.ofInt_natCast]

theorem readInt_good {w : Nat} (hw : 1 ≤ w) {P : List Byte → Prop} {typ : List Byte} {p : Byte → Prog (BitVec w)}
    (h : UintGood w P p) {env : Env} {c : Byte} {l s t r : List Byte} {z : Int} (h1 : c :: l = s ++ r) (hs : Signed s t z)
    (h2 : IntAt env.endErr t r) (hP : P t) :
    (Fits w z → Runs (readInt w typ p c) env l (BitVec.ofInt w z) r) ∧
    (¬ Fits w z → (readInt w typ p c).runF env l =
      .error (if z.natAbs < 2 ^ w then .intOverflow typ (some z) else .intOverflow [] none)) := by
  have hpow : 2 ^ w = 2 * 2 ^ (w - 1) := by
    rw [← Nat.pow_succ', Nat.succ_eq_add_one, Nat.sub_add_cancel hw]
  have hpos : 0 < 2 ^ (w - 1) := Nat.two_pow_pos _
  have hcast : ((2 ^ (w - 1) : Nat) : Int) = (2 : Int) ^ (w - 1) := by simp
  unfold Fits
  rw [← hcast]
  cases hs with
  | pos =>
    obtain ⟨d, u, rfl, hd⟩ := intAt_ne_minus h2
    obtain rfl : c = d := by simp at h1; exact h1.1
    have ov := h.overflow env c l _ r h1 h2 hP
    have ok := h.ok env c l _ r h1 h2 hP
    generalize dec (c :: u) = n at ov ok ⊢
    unfold readInt
    rw [if_neg hd]
    constructor
    · rintro ⟨_, h4⟩
      rw [runs_bind]
      refine ⟨_, r, ok (by omega), ?_⟩
      rw [BitVec.toNat_ofNat, Nat.mod_eq_of_lt (by omega), if_neg (by omega)]
      exact runs_pure.mpr ⟨by rw [BitVec.ofInt_natCast], rfl⟩
    · intro h4
      rw [runF_bind]
      by_cases h5 : n < 2 ^ w
      · rw [show (p c).runF env l = _ from ok h5]
        simp only [BitVec.toNat_ofNat, Nat.mod_eq_of_lt h5]
        rw [if_pos (by omega), if_pos (by omega)]
        rfl
      · rw [ov (by omega), if_neg (by omega)]
  | neg =>
    simp at h1
    obtain ⟨rfl, rfl⟩ := h1
    obtain ⟨d, u, rfl, hd⟩ := intAt_ne_minus h2
    have ov := h.overflow env d (u ++ r) _ r rfl h2 hP
    have ok := h.ok env d (u ++ r) _ r rfl h2 hP
    generalize dec (d :: u) = n at ov ok ⊢
    unfold readInt
    rw [if_pos rfl]
    have first : (nextByteTake).runF env (d :: u ++ r) = .ok (d, u ++ r) := runs_nextByteTake.mpr rfl
    constructor
    · rintro ⟨h4, _⟩
      rw [runs_bind]
      refine ⟨d, u ++ r, first, ?_⟩
      rw [runs_bind]
      refine ⟨_, r, ok (by omega), ?_⟩
      rw [BitVec.toNat_ofNat, Nat.mod_eq_of_lt (by omega), if_neg (by omega)]
      exact runs_pure.mpr ⟨neg_ofNat.symm, rfl⟩
    · intro h4
      rw [runF_bind, first]
      simp only
      rw [runF_bind]
      by_cases h5 : n < 2 ^ w
      · rw [show (p d).runF env (u ++ r) = _ from ok h5]
        simp only [BitVec.toNat_ofNat, Nat.mod_eq_of_lt h5]
        rw [if_pos (by omega), if_pos (by omega)]
        rfl
      · rw [ov (by omega), if_neg (by omega)]

theorem readInt_sound {w : Nat} (hw : 1 ≤ w) {typ : List Byte} {p : Byte → Prog (BitVec w)}
    (h : UintOk w p) {env : Env} {c : Byte} {l r : List Byte} {v : BitVec w} (hr : Runs (readInt w typ p c) env l v r) :
    ∃ s t z, c :: l = s ++ r ∧ Signed s t z ∧ IntAt env.endErr t r ∧ Fits w z ∧ v = BitVec.ofInt w z := by
  have hpow : 2 ^ w = 2 * 2 ^ (w - 1) := by
    rw [← Nat.pow_succ', Nat.succ_eq_add_one, Nat.sub_add_cancel hw]
  have hpos : 0 < 2 ^ (w - 1) := Nat.two_pow_pos _
  have hcast : ((2 ^ (w - 1) : Nat) : Int) = (2 : Int) ^ (w - 1) := by simp
  unfold Fits
  rw [← hcast]
  unfold readInt at hr
  split at hr
  · rename_i hc
    subst hc
    simp only [runs_bind, runs_nextByteTake] at hr
    obtain ⟨d, l1, rfl, v1, l2, h1, h2⟩ := hr
    obtain ⟨t, a, b, hlt, rfl⟩ := (h.ok env d l1 v1 l2).mp h1
    split at h2
    · simp [Runs, Prog.runF] at h2
    · rename_i h3
      obtain ⟨rfl, rfl⟩ := runs_pure.mp h2
      rw [BitVec.toNat_ofNat, Nat.mod_eq_of_lt hlt] at h3
      exact ⟨0x2D :: t, t, _, by rw [a]; rfl, .neg t, b, by omega, neg_ofNat⟩
  · simp only [runs_bind] at hr
    obtain ⟨v1, l2, h1, h2⟩ := hr
    obtain ⟨t, a, b, hlt, rfl⟩ := (h.ok env c l v1 l2).mp h1
    split at h2
    · simp [Runs, Prog.runF] at h2
    · rename_i h3
      obtain ⟨rfl, rfl⟩ := runs_pure.mp h2
      rw [BitVec.toNat_ofNat, Nat.mod_eq_of_lt hlt] at h3
      exact ⟨t, t, _, a, .pos t, b, by omega, by rw [BitVec.ofInt_natCast]⟩

/-! ## Eight bits -/

theorem byteEOF_nil {p : Byte → Bool} {env : Env} :
    (byteEOF p).runF env [] = if env.endErr = .eof then .ok (none, []) else .error env.endErr := by
  unfold byteEOF
  rw [runF_op, Op.runF, scanF]

theorem byteEOF_cons {p : Byte → Bool} {env : Env} {c : Byte} {l : List Byte} :
    (byteEOF p).runF env (c :: l) = .ok (some c, if p c then l else c :: l) := by
  unfold byteEOF
  rw [runF_op, Op.runF, scanF]
  cases h : p c <;> simp

theorem shift10_8 {a : Nat} {b : Nat} (ha : a * 10 + b < 256) (hb : b < 10) :
    ((BitVec.ofNat 8 a <<< 3) + (BitVec.ofNat 8 a <<< 1) + BitVec.ofNat 8 b) = BitVec.ofNat 8 (a * 10 + b) := by
  apply BitVec.eq_of_toNat_eq
  rw [shift10]
  simp only [BitVec.toNat_ofNat]
  omega

/-- Literals of at most three digits. -/
def Short (t : List Byte) : Prop := t.length ≤ 3

theorem dec_one (a : Byte) : dec [a] = a.toNat - 0x30 := by simp [dec, decFrom]
theorem dec_two (a b : Byte) : dec [a, b] = (a.toNat - 0x30) * 10 + (b.toNat - 0x30) := by simp [dec, decFrom]
theorem dec_three (a b c : Byte) : dec [a, b, c] = ((a.toNat - 0x30) * 10 + (b.toNat - 0x30)) * 10 + (c.toNat - 0x30) := by
  simp [dec, decFrom]

theorem uint8Overflow_iff {n u : Nat} (hn : n < 100) (hu : u < 10) :
    uint8Overflow (BitVec.ofNat 8 n) u = decide (256 ≤ n * 10 + u) := by
  unfold uint8Overflow
  have h1 : (BitVec.ofNat 8 n).toNat = n := by simp; omega
  have h2 : (BitVec.ofNat 8 n == 25) = decide (n = 25) := by
    rw [Bool.eq_iff_iff]
    simp only [beq_iff_eq, decide_eq_true_eq]
    constructor
    · intro h
      have := congrArg BitVec.toNat h
      rw [h1] at this
      simpa using this
    · rintro rfl; rfl
  rw [h1, h2, Bool.eq_iff_iff]
  simp
  omega

/-- `readUint8` on input beginning with a nonzero digit. -/
theorem readUint8_run (env : Env) (c : Byte) (l : List Byte) (h : Digit c) (h0 : c ≠ 0x30) :
    (readUint8 c).runF env l =
      match l with
      | [] => if env.endErr = .eof then .ok (BitVec.ofNat 8 (dec [c]), []) else .error env.endErr
      | a :: l1 =>
        if Digit a then
          match l1 with
          | [] => if env.endErr = .eof then .ok (BitVec.ofNat 8 (dec [c, a]), []) else .error env.endErr
          | b :: l2 =>
            if Digit b then
              if 256 ≤ dec [c, a, b] then .error (.intOverflow [] none) else .ok (BitVec.ofNat 8 (dec [c, a, b]), l2)
            else .ok (BitVec.ofNat 8 (dec [c, a]), b :: l2)
        else .ok (BitVec.ofNat 8 (dec [c]), a :: l1) := by
  obtain ⟨n, hn⟩ := digit_val_pos h h0
  rcases intDigit_iff c with ⟨_, h2, h3⟩ | ⟨h1, _⟩
  · simp only [readUint8, h2, hn]
    rw [runF_bind]
    cases l with
    | nil =>
      rw [byteEOF_nil]
      by_cases he : env.endErr = .eof <;> simp [he, dec_one, hn]
    | cons a l1 =>
      rw [byteEOF_cons]
      rcases intDigit_iff a with ⟨a1, a2, a3⟩ | ⟨a1, a2⟩
      · have e2 : ((BitVec.ofNat 8 (n + 1) <<< 3) + (BitVec.ofNat 8 (n + 1) <<< 1) + BitVec.ofNat 8 (a.toNat - 0x30)) =
            BitVec.ofNat 8 (dec [c, a]) := by
          rw [shift10_8 (by omega) a3, dec_two, hn]
        have d2 : dec [c, a] = (n + 1) * 10 + (a.toNat - 0x30) := by rw [dec_two, hn]
        simp only [a2, a1, if_true, ne_eq, reduceCtorEq, not_false_eq_true, decide_true]
        rw [runF_bind]
        cases l1 with
        | nil =>
          rw [byteEOF_nil]
          by_cases he : env.endErr = .eof <;> simp [he]
          exact e2
        | cons b l2 =>
          rw [byteEOF_cons]
          rcases intDigit_iff b with ⟨b1, b2, b3⟩ | ⟨b1, b2⟩
          · have d3 : dec [c, a, b] = dec [c, a] * 10 + (b.toNat - 0x30) := by rw [dec_three, dec_two]
            simp only [b2, b1, if_true, ne_eq, reduceCtorEq, not_false_eq_true, decide_true]
            rw [e2, uint8Overflow_iff (by omega) b3, ← d3]
            by_cases hov : 256 ≤ dec [c, a, b]
            · simp [hov]
            · simp only [hov, decide_false, if_false, Bool.false_eq_true, Prog.runF, pure]
              rw [shift10_8 (by omega) b3, ← d3]
          · simp only [b2, b1, if_false, ne_eq, not_true_eq_false, decide_false, Bool.false_eq_true]
            rw [e2]
            rfl
      · simp only [a2, a1, if_false, ne_eq, not_true_eq_false, decide_false, Bool.false_eq_true, dec_one, hn]
        rfl
  · exact absurd h h1

theorem readUint8_good : UintGood 8 Short readUint8 := by
  have key : ∀ env c l, Digit c → c ≠ 0x30 → (digitsOf l).length ≤ 2 → (afterDigits l = [] → env.endErr = .eof) →
      (readUint8 c).runF env l =
        if 256 ≤ dec (c :: digitsOf l) then .error (.intOverflow [] none)
        else .ok (BitVec.ofNat 8 (dec (c :: digitsOf l)), afterDigits l) := by
    intro env c l h h0 hlen he
    obtain ⟨n, hn⟩ := digit_val_pos h h0
    have hc9 : c.toNat - 0x30 < 10 := by
      rcases intDigit_iff c with ⟨_, _, h3⟩ | ⟨h1, _⟩
      · exact h3
      · exact absurd h h1
    rw [readUint8_run env c l h h0]
    cases l with
    | nil =>
      have hd := dec_one c
      exact (if_pos (he rfl)).trans (if_neg (show ¬ 256 ≤ dec [c] by omega)).symm
    | cons a l1 =>
      by_cases ha : Digit a
      · have a9 : a.toNat - 0x30 < 10 := by
          rcases intDigit_iff a with ⟨_, _, h3⟩ | ⟨h1, _⟩
          · exact h3
          · exact absurd ha h1
        have x1 : digitsOf (a :: l1) = a :: digitsOf l1 := by simp [digitsOf, ha]
        have x2 : afterDigits (a :: l1) = afterDigits l1 := by simp [afterDigits, ha]
        rw [x1] at hlen ⊢
        rw [x2] at he ⊢
        simp only [ha, if_true]
        cases l1 with
        | nil =>
          have hd := dec_two c a
          exact (if_pos (he rfl)).trans (if_neg (show ¬ 256 ≤ dec [c, a] by omega)).symm
        | cons b l2 =>
          by_cases hb : Digit b
          · have y1 : digitsOf (b :: l2) = b :: digitsOf l2 := by simp [digitsOf, hb]
            have y2 : afterDigits (b :: l2) = afterDigits l2 := by simp [afterDigits, hb]
            rw [y1] at hlen ⊢
            rw [y2] at he ⊢
            simp at hlen
            have hsp := digits_split l2
            rw [hlen] at hsp ⊢
            simp at hsp
            simp only [hb, if_true]
            rw [← hsp]
          · have y1 : digitsOf (b :: l2) = [] := by simp [digitsOf, hb]
            have y2 : afterDigits (b :: l2) = b :: l2 := by simp [afterDigits, hb]
            rw [y1, y2]
            simp only [hb, if_false]
            rw [if_neg (by rw [dec_two]; omega)]
      · have y1 : digitsOf (a :: l1) = [] := by simp [digitsOf, ha]
        have y2 : afterDigits (a :: l1) = a :: l1 := by simp [afterDigits, ha]
        rw [y1, y2]
        simp only [ha, if_false]
        rw [if_neg (by rw [dec_one]; omega)]
  constructor
  · intro env c l t r h1 h2 hP hlt
    rcases intAt_cases h1 h2 with ⟨rfl, rfl, rfl⟩ | ⟨h0, hd, rfl, rfl, he⟩
    · exact runs_pure.mpr ⟨rfl, rfl⟩
    · unfold Runs
      rw [key env c l hd h0 (by simp [Short] at hP; omega) he, if_neg (by omega)]
  · intro env c l t r h1 h2 hP hge
    rcases intAt_cases h1 h2 with ⟨rfl, rfl, rfl⟩ | ⟨h0, hd, rfl, rfl, he⟩
    · simp [dec, decFrom] at hge
    · rw [key env c l hd h0 (by simp [Short] at hP; omega) he, if_pos (by omega)]

/-- Whatever `readUint8` returns is the number denoted by the digits it consumed. -/
theorem readUint8_sound {env : Env} {c : Byte} {l r : List Byte} {v : BitVec 8} (h : Runs (readUint8 c) env l v r) :
    ∃ t, c :: l = t ++ r ∧ IntPart t ∧ t.length ≤ 3 ∧ v.toNat = dec t := by
  rcases intDigit_iff c with ⟨hd, h2, h3⟩ | ⟨_, h2⟩
  · by_cases h0 : c = 0x30
    · subst h0
      obtain ⟨rfl, rfl⟩ := runs_pure.mp (show Runs (pure 0) env l v r from h)
      exact ⟨[0x30], rfl, .zero, by simp, rfl⟩
    · have nine : ∀ a : Byte, Digit a → a.toNat - 0x30 < 10 := by
        intro a ha
        rcases intDigit_iff a with ⟨_, _, h3⟩ | ⟨h1, _⟩
        · exact h3
        · exact absurd ha h1
      unfold Runs at h
      rw [readUint8_run env c l hd h0] at h
      split at h
      · split at h <;> simp at h
        obtain ⟨rfl, rfl⟩ := h
        refine ⟨[c], rfl, .pos c [] (digit_pos hd h0) (by simp), by simp, ?_⟩
        rw [dec_one, BitVec.toNat_ofNat]; omega
      · rename_i a l1
        split at h
        · rename_i ha
          have := nine a ha
          split at h
          · split at h <;> simp at h
            obtain ⟨rfl, rfl⟩ := h
            refine ⟨[c, a], rfl, .pos c [a] (digit_pos hd h0) (by simpa using ha), by simp, ?_⟩
            rw [dec_two, BitVec.toNat_ofNat]; omega
          · rename_i b l2
            split at h
            · rename_i hb
              split at h <;> simp at h
              obtain ⟨rfl, rfl⟩ := h
              refine ⟨[c, a, b], rfl, .pos c [a, b] (digit_pos hd h0) (by simpa using ⟨ha, hb⟩), by simp, ?_⟩
              rw [BitVec.toNat_ofNat]; omega
            · simp at h
              obtain ⟨rfl, rfl⟩ := h
              refine ⟨[c, a], rfl, .pos c [a] (digit_pos hd h0) (by simpa using ha), by simp, ?_⟩
              rw [dec_two, BitVec.toNat_ofNat]; omega
        · simp at h
          obtain ⟨rfl, rfl⟩ := h
          refine ⟨[c], rfl, .pos c [] (digit_pos hd h0) (by simp), by simp, ?_⟩
          rw [dec_one, BitVec.toNat_ofNat]; omega
  · simp [readUint8, h2, Runs, Prog.runF] at h

end Jzon
