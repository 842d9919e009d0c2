import Verif.Proof.Flat
import Verif.Model.Num

/-!
# Numbers: the flat runs of the number functions against the grammar
-/

set_option linter.unusedSimpArgs false

namespace Jzon

open Spec (Digit Digits IntPart FracPart ExpPart Unsigned Number Final)

theorem intDigit_none {c : Byte} : intDigit c = none ↔ ¬ Digit c := by
  unfold intDigit Digit
  split <;> simp_all

theorem intDigit_digit {c : Byte} (h : Digit c) : intDigit c = some (c.toNat - 48) := by
  unfold intDigit
  exact if_pos h

theorem floatDigit_digit {c : Byte} (h : Digit c) : floatDigit c = .digit (c.toNat - 48) := by
  unfold floatDigit
  exact if_pos h

theorem floatDigit_cases : ∀ c : Byte,
    (Digit c ∧ ∃ n, floatDigit c = .digit n) ∨ (c = 0x2E ∧ floatDigit c = .dot) ∨
    ((c = 0x65 ∨ c = 0x45) ∧ floatDigit c = .exp) ∨
    (¬ Digit c ∧ c ≠ 0x2E ∧ c ≠ 0x65 ∧ c ≠ 0x45 ∧ floatDigit c = .invalid) := by
  intro c
  by_cases h : Digit c
  · exact .inl ⟨h, _, floatDigit_digit h⟩
  · have h0 : ¬ (48 ≤ c ∧ c ≤ 57) := h
    unfold floatDigit
    rw [if_neg h0]
    by_cases h1 : c = 46
    · simp [h1]
    · by_cases h2 : c = 101 ∨ c = 69
      · simp [h1, h2]
      · simp [h1, h2, h]
        simpa using h2

theorem digit_ne {c : Byte} (h : Digit c) : c ≠ 0x2E ∧ c ≠ 0x65 ∧ c ≠ 0x45 ∧ c ≠ 0x2B ∧ c ≠ 0x2D := by
  revert h; revert c; unfold Digit; apply forall_byte; decide +kernel

/-- The input does not go on with a byte satisfying `p`. -/
def NotNext (p : Byte → Prop) (r : List Byte) : Prop := ∀ c t, r = c :: t → ¬ p c

theorem notNext_nil (p : Byte → Prop) : NotNext p [] := by intro c t h; cases h
theorem notNext_cons {p : Byte → Prop} {c : Byte} {t : List Byte} : NotNext p (c :: t) ↔ ¬ p c := by
  constructor
  · intro h; exact h c t rfl
  · rintro h c' t' h2; injection h2 with h2 _; exact h2 ▸ h

/-- A number may end at the end of the input only if that is `io.EOF`. -/
def EndOk (env : Env) (r : List Byte) : Prop := r = [] → env.endErr = .eof

theorem endOk_cons {env : Env} {c : Byte} {t : List Byte} : EndOk env (c :: t) := by intro h; cases h

abbrev IsExp (c : Byte) : Prop := c = 0x65 ∨ c = 0x45

/-! ## Exponent -/

theorem conts_exp {l : List Byte} : Conts expBody () l () ↔ ∀ c ∈ l, Digit c := by
  induction l with
  | nil => simp [Conts]
  | cons c l ih =>
    simp only [Conts, List.forall_mem_cons]
    unfold expBody
    by_cases h : Digit c
    · rw [if_neg (by rw [intDigit_none]; simpa using h)]
      constructor
      · rintro ⟨_, _, h2⟩; exact ⟨h, ih.mp h2⟩
      · rintro ⟨_, h2⟩; exact ⟨(), rfl, ih.mpr h2⟩
    · rw [if_pos (intDigit_none.mpr h)]; simp [h]

theorem scan_exp {env : Env} {l r : List Byte} {u : Unit} :
    Runs (scan expBody (fun _ => .ok ()) ()) env l u r ↔
      ∃ ds, (∀ c ∈ ds, Digit c) ∧ l = ds ++ r ∧ NotNext Digit r ∧ EndOk env r := by
  rw [runs_scan, scanF_iff]
  constructor
  · rintro ⟨pre, _, hc, ⟨c, t, rfl, h⟩ | ⟨rfl, h1, h2, rfl⟩⟩
    · refine ⟨pre, conts_exp.mp hc, ?_⟩
      unfold expBody at h
      split at h
      · rename_i hd
        simp at h
        subst h
        exact ⟨rfl, notNext_cons.mpr (intDigit_none.mp hd), endOk_cons⟩
      · simp at h
    · exact ⟨l, conts_exp.mp hc, by simp, notNext_nil _, fun _ => h1⟩
  · rintro ⟨ds, hd, rfl, hn, he⟩
    refine ⟨ds, (), conts_exp.mpr hd, ?_⟩
    cases r with
    | nil => exact .inr ⟨by simp, he rfl, rfl, rfl⟩
    | cons c t =>
      refine .inl ⟨c, t, rfl, .inl ⟨?_, rfl⟩⟩
      unfold expBody
      rw [if_pos (intDigit_none.mpr (notNext_cons.mp hn))]

theorem runs_expDigits {env : Env} {c : Byte} {l r : List Byte} {u : Unit} :
    Runs (skipExponentDigits c) env l u r ↔
      ∃ ds, Digits (c :: ds) ∧ l = ds ++ r ∧ NotNext Digit r ∧ EndOk env r := by
  unfold skipExponentDigits
  by_cases hd : Digit c
  · rw [if_neg (by rw [intDigit_none]; simpa using hd), scan_exp]
    constructor
    · rintro ⟨ds, hds, h⟩
      refine ⟨ds, ⟨by simp, ?_⟩, h⟩
      intro x hx; rcases List.mem_cons.mp hx with rfl | hx
      · exact hd
      · exact hds x hx
    · rintro ⟨ds, hds, h⟩
      exact ⟨ds, fun x hx => hds.2 x (by simp [hx]), h⟩
  · rw [if_pos (intDigit_none.mpr hd)]
    simp
    intro ds h
    exact absurd (h.2 c (by simp)) hd

theorem runs_exponent {env : Env} {l r : List Byte} {u : Unit} :
    Runs skipExponentPart env l u r ↔
      ∃ sign ds, (sign = [] ∨ sign = [0x2B] ∨ sign = [0x2D]) ∧ Digits ds ∧ l = sign ++ (ds ++ r) ∧
        NotNext Digit r ∧ EndOk env r := by
  unfold skipExponentPart
  simp only [runs_bind, runs_nextByteTake]
  constructor
  · rintro ⟨c, l1, rfl, h⟩
    split at h
    · rename_i hs
      simp only [runs_bind, runs_nextByteTake, runs_expDigits] at h
      obtain ⟨d, l2, rfl, ds, hD, rfl, hn, he⟩ := h
      rcases hs with rfl | rfl
      · exact ⟨[43], d :: ds, by simp, hD, by simp, hn, he⟩
      · exact ⟨[45], d :: ds, by simp, hD, by simp, hn, he⟩
    · obtain ⟨ds, hD, rfl, hn, he⟩ := runs_expDigits.mp h
      exact ⟨[], c :: ds, by simp, hD, by simp, hn, he⟩
  · rintro ⟨sign, ds, hs, hD, rfl, hn, he⟩
    obtain ⟨d, ds, rfl⟩ := List.exists_cons_of_ne_nil hD.1
    have hd := hD.2 d (by simp)
    rcases hs with rfl | rfl | rfl
    · refine ⟨d, ds ++ r, by simp, ?_⟩
      rw [if_neg (by have := digit_ne hd; simp [this])]
      exact runs_expDigits.mpr ⟨ds, hD, rfl, hn, he⟩
    · refine ⟨43, d :: ds ++ r, by simp, ?_⟩
      rw [if_pos (.inl rfl)]
      simp only [runs_bind, runs_nextByteTake]
      exact ⟨d, ds ++ r, by simp, runs_expDigits.mpr ⟨ds, hD, rfl, hn, he⟩⟩
    · refine ⟨45, d :: ds ++ r, by simp, ?_⟩
      rw [if_pos (.inr rfl)]
      simp only [runs_bind, runs_nextByteTake]
      exact ⟨d, ds ++ r, by simp, runs_expDigits.mpr ⟨ds, hD, rfl, hn, he⟩⟩

/-- An exponent part and how the input may go on behind it. -/
def ExpTail (env : Env) (l r : List Byte) : Prop :=
  ∃ e, ExpPart e ∧ l = e ++ r ∧ NotNext (fun c => (Digit c ∧ e ≠ []) ∨ (IsExp c ∧ e = [])) r ∧ EndOk env r

theorem expTail_some {env : Env} {c : Byte} {l r : List Byte} (hc : IsExp c) {u : Unit} :
    Runs skipExponentPart env l u r ↔ ExpTail env (c :: l) r := by
  rw [runs_exponent]
  constructor
  · rintro ⟨sign, ds, hs, hd, rfl, hn, he⟩
    refine ⟨c :: (sign ++ ds), .some c sign ds hc hs hd, by simp, ?_, he⟩
    intro x t hx
    have := hn x t hx
    simp [this]
  · rintro ⟨e, hE, hl, hn, he⟩
    cases hE with
    | none => simp at hl; subst hl; simp [notNext_cons, hc] at hn
    | some e sign ds he' hs h =>
      simp at hl
      obtain ⟨rfl, rfl⟩ := hl
      refine ⟨sign, ds, hs, h, rfl, ?_, he⟩
      intro x t hx
      have := hn x t hx
      simp at this
      exact this

/-! ## Fraction -/

theorem conts_frac {l : List Byte} : Conts fracBody () l () ↔ ∀ c ∈ l, Digit c := by
  induction l with
  | nil => simp [Conts]
  | cons c l ih =>
    simp only [Conts, List.forall_mem_cons]
    have e : fracBody () c = fracBody () c := rfl
    conv at e => rhs; unfold fracBody
    rw [e]
    rcases floatDigit_cases c with ⟨h, n, h2⟩ | ⟨rfl, h2⟩ | ⟨h, h2⟩ | ⟨h, _, _, _, h2⟩ <;> rw [h2]
    · simp [h]
      exact ⟨fun ⟨_, h⟩ => ih.mp h, fun h => ⟨(), ih.mpr h⟩⟩
    · simp; intro h; simp [Digit] at h
    · simp; intro h; have := digit_ne h; simp_all
    · simp [h]

theorem scan_frac {env : Env} {l r : List Byte} {st : NumStop} :
    Runs (scan fracBody (fun _ => .ok .fin) ()) env l st r ↔
      ∃ ds, (∀ c ∈ ds, Digit c) ∧
        ((st = .fin ∧ l = ds ++ r ∧ NotNext (fun c => Digit c ∨ IsExp c) r ∧ EndOk env r) ∨
         (st = .exp ∧ ∃ c, IsExp c ∧ l = ds ++ c :: r)) := by
  rw [runs_scan, scanF_iff]
  constructor
  · rintro ⟨pre, _, hc, ⟨c, t, rfl, h⟩ | ⟨rfl, h1, h2, rfl⟩⟩
    · refine ⟨pre, conts_frac.mp hc, ?_⟩
      unfold fracBody at h
      rcases floatDigit_cases c with ⟨h0, n, h2⟩ | ⟨rfl, h2⟩ | ⟨h0, h2⟩ | ⟨h0, h3, h4, h5, h2⟩ <;> rw [h2] at h <;>
        simp at h <;> obtain ⟨rfl, rfl⟩ := h
      · exact .inl ⟨rfl, rfl, by rw [notNext_cons]; simp [Digit], endOk_cons⟩
      · exact .inr ⟨rfl, c, h0, rfl⟩
      · exact .inl ⟨rfl, rfl, by rw [notNext_cons]; simp [h0, h4, h5], endOk_cons⟩
    · simp at h2
      exact ⟨l, conts_frac.mp hc, .inl ⟨h2.symm, by simp, notNext_nil _, fun _ => h1⟩⟩
  · rintro ⟨ds, hd, ⟨rfl, rfl, hn, he⟩ | ⟨rfl, c, hc, rfl⟩⟩
    · refine ⟨ds, (), conts_frac.mpr hd, ?_⟩
      cases r with
      | nil => exact .inr ⟨by simp, he rfl, rfl, rfl⟩
      | cons c t =>
        refine .inl ⟨c, t, rfl, .inl ⟨?_, rfl⟩⟩
        unfold fracBody
        have hn := notNext_cons.mp hn
        rcases floatDigit_cases c with ⟨h0, n, h2⟩ | ⟨rfl, h2⟩ | ⟨h0, h2⟩ | ⟨h0, h3, h4, h5, h2⟩ <;> rw [h2] <;> simp_all
    · refine ⟨ds, (), conts_frac.mpr hd, .inl ⟨c, r, rfl, .inr ⟨?_, rfl⟩⟩⟩
      unfold fracBody
      rcases hc with rfl | rfl <;> rfl

/-- Fraction digits, optional exponent, and how the input may go on. -/
theorem runs_fraction {env : Env} {l r : List Byte} {u : Unit} :
    Runs skipFractionPart env l u r ↔
      ∃ ds e, Digits ds ∧ ExpPart e ∧ l = ds ++ (e ++ r) ∧
        NotNext (fun c => Digit c ∨ (IsExp c ∧ e = [])) r ∧ EndOk env r := by
  unfold skipFractionPart
  simp only [runs_bind, runs_byte]
  constructor
  · rintro ⟨c, l1, ⟨l2, rfl, h1⟩, st, l3, h2, h3⟩
    by_cases hd : Digit c
    · simp [intDigit_digit hd] at h1
      subst h1
      obtain ⟨ds, hds, h⟩ := scan_frac.mp h2
      have hD : Digits (c :: ds) := ⟨by simp, by
        intro x hx; rcases List.mem_cons.mp hx with rfl | hx
        · exact hd
        · exact hds x hx⟩
      rcases h with ⟨rfl, rfl, hn, he⟩ | ⟨rfl, c', hc', rfl⟩
      · simp at h3
        subst h3
        refine ⟨c :: ds, [], hD, .none, by simp, ?_, he⟩
        intro x t hx; have := hn x t hx; simpa using this
      · obtain ⟨e, hE, hl, hn, he⟩ := (expTail_some hc').mp h3
        cases hE with
        | none => simp at hl; subst hl; simp [notNext_cons, hc'] at hn
        | some e sign ds' he' hs h =>
          refine ⟨c :: ds, _, hD, .some e sign ds' he' hs h, by rw [hl]; simp, ?_, he⟩
          intro x t hx; have := hn x t hx; simpa using this
    · simp [intDigit_none.mpr hd] at h1
  · rintro ⟨ds, e, ⟨hne, hds⟩, hE, rfl, hn, he⟩
    obtain ⟨d, ds, rfl⟩ := List.exists_cons_of_ne_nil hne
    have hd := hds d (by simp)
    have hds' : ∀ c ∈ ds, Digit c := fun x hx => hds x (by simp [hx])
    refine ⟨d, ds ++ (e ++ r), ⟨ds ++ (e ++ r), by simp, .inl ⟨by simp [intDigit_digit hd], rfl⟩⟩, ?_⟩
    cases hE with
    | none =>
      refine ⟨.fin, r, scan_frac.mpr ⟨ds, hds', .inl ⟨rfl, by simp, ?_, he⟩⟩, by simp⟩
      intro x t hx; have := hn x t hx; simpa using this
    | some e sign ds' he' hs h =>
      refine ⟨.exp, sign ++ ds' ++ r, scan_frac.mpr ⟨ds, hds', .inr ⟨rfl, e, he', by simp⟩⟩, ?_⟩
      simp only []
      refine (expTail_some he').mpr ⟨_, .some e sign ds' he' hs h, by simp, ?_, he⟩
      intro x t hx; have := hn x t hx; simpa using this

/-! ## The whole number -/

theorem conts_int {l : List Byte} : Conts intBody () l () ↔ ∀ c ∈ l, Digit c := by
  induction l with
  | nil => simp [Conts]
  | cons c l ih =>
    simp only [Conts, List.forall_mem_cons]
    have e : intBody () c = intBody () c := rfl
    conv at e => rhs; unfold intBody
    rw [e]
    rcases floatDigit_cases c with ⟨h, n, h2⟩ | ⟨rfl, h2⟩ | ⟨h, h2⟩ | ⟨h, _, _, _, h2⟩ <;> rw [h2]
    · simp [h]
      exact ⟨fun ⟨_, h⟩ => ih.mp h, fun h => ⟨(), ih.mpr h⟩⟩
    · simp; intro h; simp [Digit] at h
    · simp; intro h; have := digit_ne h; simp_all
    · simp [h]

theorem scan_int {env : Env} {l r : List Byte} {st : NumStop} :
    Runs (scan intBody (fun _ => .ok .fin) ()) env l st r ↔
      ∃ ds, (∀ c ∈ ds, Digit c) ∧
        ((st = .fin ∧ l = ds ++ r ∧ NotNext (fun c => Digit c ∨ c = 0x2E ∨ IsExp c) r ∧ EndOk env r) ∨
         (st = .dot ∧ l = ds ++ 0x2E :: r) ∨
         (st = .exp ∧ ∃ c, IsExp c ∧ l = ds ++ c :: r)) := by
  rw [runs_scan, scanF_iff]
  constructor
  · rintro ⟨pre, _, hc, ⟨c, t, rfl, h⟩ | ⟨rfl, h1, h2, rfl⟩⟩
    · refine ⟨pre, conts_int.mp hc, ?_⟩
      unfold intBody at h
      rcases floatDigit_cases c with ⟨h0, n, h2⟩ | ⟨rfl, h2⟩ | ⟨h0, h2⟩ | ⟨h0, h3, h4, h5, h2⟩ <;> rw [h2] at h <;>
        simp at h <;> obtain ⟨rfl, rfl⟩ := h
      · exact .inr (.inl ⟨rfl, rfl⟩)
      · exact .inr (.inr ⟨rfl, c, h0, rfl⟩)
      · exact .inl ⟨rfl, rfl, by rw [notNext_cons]; simp [h0, h3, h4, h5], endOk_cons⟩
    · simp at h2
      exact ⟨l, conts_int.mp hc, .inl ⟨h2.symm, by simp, notNext_nil _, fun _ => h1⟩⟩
  · rintro ⟨ds, hd, ⟨rfl, rfl, hn, he⟩ | ⟨rfl, rfl⟩ | ⟨rfl, c, hc, rfl⟩⟩
    · refine ⟨ds, (), conts_int.mpr hd, ?_⟩
      cases r with
      | nil => exact .inr ⟨by simp, he rfl, rfl, rfl⟩
      | cons c t =>
        refine .inl ⟨c, t, rfl, .inl ⟨?_, rfl⟩⟩
        unfold intBody
        have hn := notNext_cons.mp hn
        rcases floatDigit_cases c with ⟨h0, n, h2⟩ | ⟨rfl, h2⟩ | ⟨h0, h2⟩ | ⟨h0, h3, h4, h5, h2⟩ <;> rw [h2] <;> simp_all
    · exact ⟨ds, (), conts_int.mpr hd, .inl ⟨_, r, rfl, .inr ⟨rfl, rfl⟩⟩⟩
    · refine ⟨ds, (), conts_int.mpr hd, .inl ⟨c, r, rfl, .inr ⟨?_, rfl⟩⟩⟩
      unfold intBody
      rcases hc with rfl | rfl <;> rfl

theorem runs_byteEOF {env : Env} {p : Byte → Bool} {l r : List Byte} {o : Option Byte} :
    Runs (byteEOF p) env l o r ↔
      (o = none ∧ l = [] ∧ r = [] ∧ env.endErr = .eof) ∨
      (∃ c t, o = some c ∧ l = c :: t ∧ ((p c = true ∧ r = t) ∨ (p c = false ∧ r = c :: t))) := by
  unfold byteEOF
  rw [runs_scan]
  cases l with
  | nil =>
    simp only [scanF]
    split
    · rename_i h
      constructor
      · intro h2; simp at h2; exact .inl ⟨h2.1.symm, by first | rfl | trivial, h2.2, h⟩
      · rintro (⟨rfl, _, rfl, _⟩ | ⟨c, t, _, h2, _⟩)
        · rfl
        · cases h2
    · rename_i h
      constructor
      · intro h2; cases h2
      · rintro (⟨rfl, _, rfl, h2⟩ | ⟨c, t, _, h2, _⟩)
        · exact absurd h2 h
        · cases h2
  | cons c t =>
    simp only [scanF]
    constructor
    · intro h
      cases hp : p c <;> simp [hp] at h
      · exact .inr ⟨c, t, h.1.symm, rfl, .inr ⟨hp, h.2.symm⟩⟩
      · exact .inr ⟨c, t, h.1.symm, rfl, .inl ⟨hp, h.2.symm⟩⟩
    · rintro (⟨_, h, _⟩ | ⟨c', t', rfl, h, h2⟩)
      · cases h
      · injection h with h h'
        subst h; subst h'
        rcases h2 with ⟨h2, rfl⟩ | ⟨h2, rfl⟩ <;> simp [h2]

/-- The byte `c` would be read on as part of the number with parts `i`, `f`, `e`. -/
def Continues (i f e : List Byte) (c : Byte) : Prop :=
  (Digit c ∧ ¬ (i = [0x30] ∧ f = [] ∧ e = [])) ∨ (c = 0x2E ∧ f = [] ∧ e = []) ∨ (IsExp c ∧ e = [])

/-- An unsigned number split into its parts at the front of `l`, leaving `r`, which does not continue it. -/
def USplit (env : Env) (l r : List Byte) : Prop :=
  ∃ i f e, IntPart i ∧ FracPart f ∧ ExpPart e ∧ l = i ++ (f ++ (e ++ r)) ∧ NotNext (Continues i f e) r ∧ EndOk env r

theorem frac_split {env : Env} {i l r : List Byte} {u : Unit} :
    Runs skipFractionPart env l u r ↔
      ∃ ds e, Digits ds ∧ ExpPart e ∧ l = ds ++ (e ++ r) ∧ NotNext (Continues i (0x2E :: ds) e) r ∧ EndOk env r := by
  rw [runs_fraction]
  have : ∀ ds e, Continues i (0x2E :: ds) e = fun c => Digit c ∨ (IsExp c ∧ e = []) := by
    intro ds e; funext c; simp [Continues]
  simp only [this]

theorem exp_split {env : Env} {i l r : List Byte} {u : Unit} {c : Byte} :
    Runs skipExponentPart env l u r ↔
      ∃ sign ds, (sign = [] ∨ sign = [0x2B] ∨ sign = [0x2D]) ∧ Digits ds ∧ l = sign ++ (ds ++ r) ∧
        NotNext (Continues i [] (c :: (sign ++ ds))) r ∧ EndOk env r := by
  rw [runs_exponent]
  have : ∀ t, Continues i [] (c :: t) = Digit := by
    intro t; funext c; simp [Continues]
  simp only [this]

theorem digit_of_pos {d : Byte} (h : 0x31 ≤ d ∧ d ≤ 0x39) : Digit d ∧ d ≠ 0x30 := by
  revert h; revert d; unfold Digit; apply forall_byte; decide +kernel

theorem pos_of_digit {d : Byte} (h : Digit d) (h0 : d ≠ 0x30) : 0x31 ≤ d ∧ d ≤ 0x39 := by
  revert h h0; revert d; unfold Digit; apply forall_byte; decide +kernel

theorem runs_skipUnsigned {env : Env} {c : Byte} (hc : Digit c) {l r : List Byte} {u : Unit} :
    Runs (skipUnsigned c) env l u r ↔ USplit env (c :: l) r := by
  unfold skipUnsigned
  by_cases h0 : c = 0x30
  · subst h0
    simp only [if_true, runs_bind, runs_byteEOF]
    constructor
    · rintro ⟨o, l1, ⟨rfl, rfl, rfl, he⟩ | ⟨x, t, rfl, rfl, h⟩, h2⟩
      · simp at h2
        subst h2
        exact ⟨[0x30], [], [], .zero, .none, .none, rfl, notNext_nil _, fun _ => he⟩
      · rcases floatDigit_cases x with ⟨h3, n, h4⟩ | ⟨rfl, h4⟩ | ⟨h3, h4⟩ | ⟨h3, h5, h6, h7, h4⟩ <;>
          simp only [h4, decide_false, decide_true, reduceCtorEq, or_false, or_true, false_and, true_and, false_or,
            Bool.true_eq_false, Bool.false_eq_true] at h h2 <;> subst h
        · simp at h2
          subst h2
          refine ⟨[0x30], [], [], .zero, .none, .none, rfl, ?_, endOk_cons⟩
          rw [notNext_cons]
          have := digit_ne h3
          simp [Continues, this]
        · obtain ⟨ds, e, hd, hE, rfl, hn, he⟩ := (frac_split (i := [0x30])).mp h2
          exact ⟨[0x30], 0x2E :: ds, e, .zero, .some ds hd, hE, by simp, hn, he⟩
        · obtain ⟨sign, ds, hs, hd, rfl, hn, he⟩ := (exp_split (i := [0x30]) (c := x)).mp h2
          exact ⟨[0x30], [], _, .zero, .none, .some x sign ds h3 hs hd, by simp, hn, he⟩
        · simp at h2
          subst h2
          refine ⟨[0x30], [], [], .zero, .none, .none, rfl, ?_, endOk_cons⟩
          rw [notNext_cons]
          simp [Continues, h3, h5, h6, h7]
    · rintro ⟨i, f, e, hi, hf, hE, hl, hn, he⟩
      have hi' : i = [0x30] := by
        cases hi with
        | zero => rfl
        | pos d ds hd hds =>
          simp at hl
          exact absurd hl.1.symm (digit_of_pos hd).2
      subst hi'
      simp at hl
      subst hl
      cases hf with
      | none =>
        cases hE with
        | none =>
          cases r with
          | nil => exact ⟨none, [], .inl ⟨rfl, rfl, rfl, he rfl⟩, by simp⟩
          | cons x t =>
            have hn := notNext_cons.mp hn
            refine ⟨some x, x :: t, .inr ⟨x, t, rfl, rfl, .inr ?_⟩, ?_⟩
            · rcases floatDigit_cases x with ⟨h3, n, h4⟩ | ⟨rfl, h4⟩ | ⟨h3, h4⟩ | ⟨h3, h5, h6, h7, h4⟩ <;> simp [h4]
              · simp [Continues] at hn
              · simp [Continues, h3] at hn
            · rcases floatDigit_cases x with ⟨h3, n, h4⟩ | ⟨rfl, h4⟩ | ⟨h3, h4⟩ | ⟨h3, h5, h6, h7, h4⟩ <;> simp [h4]
              · simp [Continues] at hn
              · simp [Continues, h3] at hn
        | some x sign ds hx hs hd =>
          refine ⟨some x, sign ++ (ds ++ r), .inr ⟨x, _, rfl, rfl, .inl ⟨?_, by simp⟩⟩, ?_⟩
          · rcases hx with rfl | rfl <;> rfl
          · have : floatDigit x = .exp := by rcases hx with rfl | rfl <;> rfl
            simp only [this]
            exact (exp_split (i := [0x30]) (c := x)).mpr ⟨sign, ds, hs, hd, rfl, hn, he⟩
      | some ds hd =>
        refine ⟨some 0x2E, ds ++ (e ++ r), .inr ⟨_, _, rfl, rfl, .inl ⟨rfl, by simp⟩⟩, ?_⟩
        exact (frac_split (i := [0x30])).mpr ⟨ds, e, hd, hE, rfl, hn, he⟩
  · rw [if_neg h0]
    simp only [runs_bind]
    have hpos := pos_of_digit hc h0
    constructor
    · rintro ⟨st, l1, h1, h2⟩
      obtain ⟨ds, hds, h⟩ := scan_int.mp h1
      have hi : IntPart (c :: ds) := .pos c ds hpos hds
      rcases h with ⟨rfl, rfl, hn, he⟩ | ⟨rfl, rfl⟩ | ⟨rfl, x, hx, rfl⟩
      · simp at h2
        subst h2
        refine ⟨c :: ds, [], [], hi, .none, .none, by simp, ?_, he⟩
        intro y t hy
        have := hn y t hy
        simp [Continues] at this ⊢
        simp [this]
      · obtain ⟨ds', e, hd, hE, rfl, hn, he⟩ := (frac_split (i := c :: ds)).mp h2
        exact ⟨c :: ds, 0x2E :: ds', e, hi, .some ds' hd, hE, by simp, hn, he⟩
      · obtain ⟨sign, ds', hs, hd, rfl, hn, he⟩ := (exp_split (i := c :: ds) (c := x)).mp h2
        exact ⟨c :: ds, [], _, hi, .none, .some x sign ds' hx hs hd, by simp, hn, he⟩
    · rintro ⟨i, f, e, hi, hf, hE, hl, hn, he⟩
      cases hi with
      | zero => simp at hl; exact absurd hl.1 h0
      | pos d ds hd' hds =>
        simp at hl
        obtain ⟨rfl, rfl⟩ := hl
        cases hf with
        | none =>
          cases hE with
          | none =>
            refine ⟨.fin, r, scan_int.mpr ⟨ds, hds, .inl ⟨rfl, by simp, ?_, he⟩⟩, by simp⟩
            intro y t hy
            have := hn y t hy
            simp [Continues, h0] at this ⊢
            simp [this]
          | some x sign ds' hx hs hd =>
            refine ⟨.exp, sign ++ (ds' ++ r), scan_int.mpr ⟨ds, hds, .inr (.inr ⟨rfl, x, hx, by simp⟩)⟩, ?_⟩
            exact (exp_split (i := c :: ds) (c := x)).mpr ⟨sign, ds', hs, hd, rfl, hn, he⟩
        | some ds' hd =>
          refine ⟨.dot, ds' ++ (e ++ r), scan_int.mpr ⟨ds, hds, .inr (.inl ⟨rfl, by simp⟩)⟩, ?_⟩
          exact (frac_split (i := c :: ds)).mpr ⟨ds', e, hd, hE, rfl, hn, he⟩

/-- A number literal split at the front of `l`, leaving `r`, which does not continue it. -/
def NSplit (env : Env) (l r : List Byte) : Prop :=
  USplit env l r ∨ ∃ l', l = 0x2D :: l' ∧ USplit env l' r

theorem intPart_cons {i : List Byte} (h : IntPart i) : ∃ d t, i = d :: t ∧ Digit d := by
  cases h with
  | zero => exact ⟨0x30, [], rfl, by decide⟩
  | pos d ds hd _ => exact ⟨d, ds, rfl, (digit_of_pos hd).1⟩

theorem uSplit_cons {env : Env} {l r : List Byte} (h : USplit env l r) : ∃ d t, l = d :: t ∧ Digit d := by
  obtain ⟨i, f, e, hi, _, _, rfl, _⟩ := h
  obtain ⟨d, t, rfl, hd⟩ := intPart_cons hi
  exact ⟨d, _, rfl, hd⟩

theorem runs_skipNumber_split {env : Env} {c : Byte} (hc : isNumberStart c = true) {l r : List Byte} {u : Unit} :
    Runs (skipNumber c) env l u r ↔ NSplit env (c :: l) r := by
  unfold skipNumber
  by_cases hm : c = 0x2D
  · subst hm
    simp only [if_true, runs_bind, runs_byte]
    constructor
    · rintro ⟨d, l1, ⟨l2, rfl, h1⟩, h2⟩
      by_cases hd : Digit d
      · simp [intDigit_digit hd] at h1
        subst h1
        exact .inr ⟨_, rfl, (runs_skipUnsigned hd).mp h2⟩
      · simp [intDigit_none.mpr hd] at h1
    · rintro (h | ⟨l', hl, h⟩)
      · obtain ⟨d, t, hl, hd⟩ := uSplit_cons h
        injection hl with hl _
        exact absurd hl.symm (digit_ne hd).2.2.2.2
      · simp at hl
        subst hl
        obtain ⟨d, t, rfl, hd⟩ := uSplit_cons h
        exact ⟨d, t, ⟨t, rfl, .inl ⟨by simp [intDigit_digit hd], rfl⟩⟩, (runs_skipUnsigned hd).mpr h⟩
  · have hd : Digit c := by
      simp [isNumberStart, hm] at hc; exact hc
    rw [if_neg hm]
    constructor
    · intro h2
      exact .inl ((runs_skipUnsigned hd).mp h2)
    · rintro (h | ⟨l', hl, h⟩)
      · exact (runs_skipUnsigned hd).mpr h
      · injection hl with hl _
        exact absurd hl hm

/-! ## Longest match -/

def eofEnv : Env := ⟨.eof, 0⟩

theorem number_start {t : List Byte} (h : Number t) : ∃ c t', t = c :: t' ∧ isNumberStart c = true := by
  rcases h with ⟨i, f, e, rfl, hi, _, _⟩ | ⟨u, rfl, _⟩
  · obtain ⟨d, t, rfl, hd⟩ := intPart_cons hi
    exact ⟨d, _, rfl, by simp [isNumberStart]; right; exact hd⟩
  · exact ⟨_, _, rfl, rfl⟩

theorem number_split_all {t : List Byte} (h : Number t) : NSplit eofEnv t [] := by
  rcases h with ⟨i, f, e, rfl, hi, hf, he⟩ | ⟨_, rfl, i, f, e, rfl, hi, hf, he⟩
  · exact .inl ⟨i, f, e, hi, hf, he, by simp, notNext_nil _, fun _ => rfl⟩
  · exact .inr ⟨_, rfl, i, f, e, hi, hf, he, by simp, notNext_nil _, fun _ => rfl⟩

theorem nSplit_det {l r1 r2 : List Byte} (h1 : NSplit eofEnv l r1) (h2 : NSplit eofEnv l r2) : r1 = r2 := by
  have : ∃ c l', l = c :: l' ∧ isNumberStart c = true := by
    rcases h1 with h | ⟨l', rfl, _⟩
    · obtain ⟨d, t, rfl, hd⟩ := uSplit_cons h
      exact ⟨d, t, rfl, by simp [isNumberStart]; right; exact hd⟩
    · exact ⟨_, _, rfl, rfl⟩
  obtain ⟨c, l', rfl, hc⟩ := this
  have h1 := (runs_skipNumber_split hc (u := ())).mpr h1
  have h2 := (runs_skipNumber_split hc (u := ())).mpr h2
  unfold Runs at h1 h2
  rw [h1] at h2
  simp at h2
  exact h2

theorem not_final_of_continues {i f e : List Byte} {c : Byte} (hi : IntPart i) (hf : FracPart f) (he : ExpPart e)
    (hc : Continues i f e c) : ∃ s, Unsigned (i ++ (f ++ e) ++ c :: s) := by
  rcases hc with ⟨hd, h⟩ | ⟨rfl, rfl, rfl⟩ | ⟨hx, rfl⟩
  · cases he with
    | some x sign ds hx hs hds =>
      refine ⟨[], i, f, x :: (sign ++ (ds ++ [c])), by simp, hi, hf, .some x sign _ hx hs ⟨by simp, ?_⟩⟩
      intro y hy
      rcases List.mem_append.mp hy with hy | hy
      · exact hds.2 y hy
      · simp at hy; exact hy ▸ hd
    | none =>
      cases hf with
      | some ds hds =>
        refine ⟨[], i, 0x2E :: (ds ++ [c]), [], by simp, hi, .some _ ⟨by simp, ?_⟩, .none⟩
        intro y hy
        rcases List.mem_append.mp hy with hy | hy
        · exact hds.2 y hy
        · simp at hy; exact hy ▸ hd
      | none =>
        cases hi with
        | zero => simp at h
        | pos d ds hd' hds =>
          refine ⟨[], d :: (ds ++ [c]), [], [], by simp, .pos d _ hd' ?_, .none, .none⟩
          intro y hy
          rcases List.mem_append.mp hy with hy | hy
          · exact hds y hy
          · simp at hy; exact hy ▸ hd
  · exact ⟨[0x30], i, [0x2E, 0x30], [], by simp, hi, .some [0x30] ⟨by simp, by decide⟩, .none⟩
  · exact ⟨[0x30], i, f, [c, 0x30], by simp, hi, hf, .some c [] [0x30] hx (.inl rfl) ⟨by simp, by decide⟩⟩

/-- `skipNumber` consumes exactly the longest number literal. -/
theorem runs_skipNumber {env : Env} {c : Byte} (hc : isNumberStart c = true) {l r : List Byte} {u : Unit} :
    Runs (skipNumber c) env l u r ↔ ∃ t, l = t ++ r ∧ Number (c :: t) ∧ Final (c :: t) r ∧ EndOk env r := by
  rw [runs_skipNumber_split hc]
  constructor
  · intro h
    have : ∃ t, c :: l = t ++ r ∧ Number t ∧ EndOk env r ∧ NSplit eofEnv (c :: l) r := by
      rcases h with ⟨i, f, e, hi, hf, he, hl, hn, hE⟩ | ⟨l', hl0, i, f, e, hi, hf, he, hl, hn, hE⟩
      · exact ⟨i ++ (f ++ e), by simp [hl], .inl ⟨i, f, e, rfl, hi, hf, he⟩, hE,
          .inl ⟨i, f, e, hi, hf, he, hl, hn, fun _ => rfl⟩⟩
      · exact ⟨0x2D :: (i ++ (f ++ e)), by simp [hl0, hl], .inr ⟨_, rfl, i, f, e, rfl, hi, hf, he⟩, hE,
          .inr ⟨l', hl0, i, f, e, hi, hf, he, hl, hn, fun _ => rfl⟩⟩
    obtain ⟨t, hl, hN, hE, -⟩ := this
    obtain ⟨c', t, rfl, hc'⟩ := number_start hN
    simp at hl
    obtain ⟨rfl, rfl⟩ := hl
    refine ⟨t, rfl, hN, ?_, hE⟩
    rintro x r' rfl s hlong
    have hs : NSplit eofEnv (c :: t ++ x :: s) (x :: s) := by
      rcases h with ⟨i, f, e, hi, hf, he, hl, hn, hE⟩ | ⟨l', hl0, i, f, e, hi, hf, he, hl, hn, hE⟩
      · refine .inl ⟨i, f, e, hi, hf, he, ?_, notNext_cons.mpr (notNext_cons.mp hn), fun _ => rfl⟩
        have : (c :: t) ++ x :: r' = (i ++ (f ++ e)) ++ x :: r' := by simp [hl]
        rw [List.append_cancel_right this]; simp
      · refine .inr ⟨i ++ (f ++ (e ++ x :: s)), ?_, i, f, e, hi, hf, he, rfl, notNext_cons.mpr (notNext_cons.mp hn), fun _ => rfl⟩
        have : (c :: t) ++ x :: r' = (0x2D :: (i ++ (f ++ e))) ++ x :: r' := by
          rw [List.cons_append, hl0, hl]; simp
        rw [List.append_cancel_right this]; simp
    have := nSplit_det hs (number_split_all hlong)
    cases this
  · rintro ⟨t, rfl, hN, hF, hE⟩
    rcases hN with ⟨i, f, e, ht, hi, hf, he⟩ | ⟨u, ht, i, f, e, rfl, hi, hf, he⟩
    · refine .inl ⟨i, f, e, hi, hf, he, ?_, ?_, hE⟩
      · rw [← List.cons_append, ht]; simp
      · rintro x r' rfl hcon
        obtain ⟨s, hs⟩ := not_final_of_continues hi hf he hcon
        exact hF x r' rfl s (.inl (by rw [ht]; exact hs))
    · refine .inr ⟨i ++ (f ++ (e ++ r)), ?_, i, f, e, hi, hf, he, rfl, ?_, hE⟩
      · rw [← List.cons_append, ht]; simp
      · rintro x r' rfl hcon
        obtain ⟨s, hs⟩ := not_final_of_continues hi hf he hcon
        exact hF x r' rfl s (.inr ⟨_, by rw [ht]; rfl, hs⟩)

/-- Bytes that can occur behind a digit in a number literal. -/
def NumByte (c : Byte) : Prop := Digit c ∨ c = 0x2E ∨ IsExp c

/-- A literal followed by a byte that is no digit, point or exponent mark is complete. -/
theorem final_of_notNext {t r : List Byte} (h : Number t) (hr : NotNext NumByte r) : Final t r := by
  rintro c r' rfl s hlong
  have hc := notNext_cons.mp hr
  have hs : NSplit eofEnv (t ++ c :: s) (c :: s) := by
    have hn : ∀ i f e, NotNext (Continues i f e) (c :: s) := by
      intro i f e
      rw [notNext_cons]
      rintro (⟨h1, _⟩ | ⟨h1, _⟩ | ⟨h1, _⟩)
      · exact hc (.inl h1)
      · exact hc (.inr (.inl h1))
      · exact hc (.inr (.inr h1))
    rcases h with ⟨i, f, e, rfl, hi, hf, he⟩ | ⟨_, rfl, i, f, e, rfl, hi, hf, he⟩
    · exact .inl ⟨i, f, e, hi, hf, he, by simp, hn _ _ _, fun _ => rfl⟩
    · exact .inr ⟨_, rfl, i, f, e, hi, hf, he, by simp, hn _ _ _, fun _ => rfl⟩
  have := nSplit_det hs (number_split_all hlong)
  cases this

theorem take_length_sub {α : Type} (t r : List α) : (t ++ r).take ((t ++ r).length - r.length) = t := by
  simp

theorem runs_readNumberAsString {env : Env} {c : Byte} (hc : isNumberStart c = true) {l r text : List Byte} :
    Runs (readNumberAsString c) env l text r ↔
      c :: l = text ++ r ∧ Number text ∧ Final text r ∧ EndOk env r := by
  unfold readNumberAsString
  simp only [runs_bind, runs_captured, runs_pure]
  constructor
  · rintro ⟨⟨_, text'⟩, l1, ⟨h2, h3⟩, rfl, rfl⟩
    obtain ⟨t, rfl, hN, hF, hE⟩ := (runs_skipNumber hc).mp h2
    rw [take_length_sub] at h3
    simp only at h3
    subst h3
    exact ⟨rfl, hN, hF, hE⟩
  · rintro ⟨hl, hN, hF, hE⟩
    obtain ⟨c', t, rfl, hc'⟩ := number_start hN
    simp at hl
    obtain ⟨rfl, rfl⟩ := hl
    exact ⟨((), t), r, ⟨(runs_skipNumber hc).mpr ⟨t, rfl, hN, hF, hE⟩, (take_length_sub _ _).symm⟩, rfl, rfl⟩

end Jzon
