import Verif.Proof.Num
import Verif.Spec.Float

/-!
# Reading floating point numbers

Every reading function consumes what the skipping function consumes and parses the bytes it has seen.
-/

set_option linter.unusedSimpArgs false

namespace Jzon

open Spec

section
variable {F : Type} {ops : FloatOps F} {env : Env}

theorem scan_buf {β γ : Type} {fb : List Byte → Byte → Act (List Byte) β} {gb : Unit → Byte → Act Unit γ}
    {eF : List Byte → Except Err β} {eG : Unit → Except Err γ} (out : List Byte → γ → β)
    (h : ∀ buf c, fb buf c = match gb () c with
      | .cont _ => .cont (buf ++ [c])
      | .stop x => .stop (out buf x)
      | .stopNext x => .stopNext (out (buf ++ [c]) x)
      | .err e => .err e)
    (hE : ∀ buf, eF buf = match eG () with
      | .ok x => .ok (out buf x)
      | .error e => .error e)
    {e : Err} {buf : List Byte} {l : List Byte} {b : β} {r : List Byte} :
    scanF fb eF e buf l = .ok (b, r) ↔
      ∃ x pre, scanF gb eG e () l = .ok (x, r) ∧ l = pre ++ r ∧ b = out (buf ++ pre) x := by
  induction l generalizing buf with
  | nil =>
    simp only [scanF, hE]
    by_cases he : e = .eof
    · rw [if_pos he, if_pos he]
      cases eG () with
      | ok x =>
        simp only [Except.ok.injEq, Prod.mk.injEq]
        constructor
        · rintro ⟨rfl, rfl⟩; exact ⟨x, [], ⟨rfl, rfl⟩, rfl, by simp⟩
        · rintro ⟨_, pre, ⟨rfl, rfl⟩, h1, rfl⟩
          simp at h1
          subst h1
          simp
      | error e => simp
    · rw [if_neg he, if_neg he]; simp
  | cons c l ih =>
    simp only [scanF, h]
    cases gb () c with
    | cont _ =>
      simp only []
      rw [ih]
      constructor
      · rintro ⟨x, pre, h1, rfl, rfl⟩; exact ⟨x, c :: pre, h1, rfl, by simp⟩
      · rintro ⟨x, pre, h1, h2, rfl⟩
        cases pre with
        | nil =>
          exfalso
          have := scanF_suffix h1
          have := this.length_le
          simp at h2
          rw [← h2] at this
          simp at this
          omega
        | cons y pre =>
          injection h2 with h2 h3
          subst h2; subst h3
          exact ⟨x, pre, h1, rfl, by simp⟩
    | stop x =>
      simp only [Except.ok.injEq, Prod.mk.injEq]
      constructor
      · rintro ⟨rfl, rfl⟩; exact ⟨x, [], ⟨rfl, rfl⟩, rfl, by simp⟩
      · rintro ⟨_, pre, ⟨rfl, rfl⟩, h1, rfl⟩
        have : pre = [] := by simpa using h1
        subst this; simp
    | stopNext x =>
      simp only [Except.ok.injEq, Prod.mk.injEq]
      constructor
      · rintro ⟨rfl, rfl⟩; exact ⟨x, [c], ⟨rfl, rfl⟩, rfl, rfl⟩
      · rintro ⟨_, pre, ⟨rfl, rfl⟩, h1, rfl⟩
        have : pre = [c] := by
          have : [c] ++ l = pre ++ l := h1
          exact (List.append_cancel_right this).symm
        subst this; simp
    | err e => simp

theorem runs_parseFloat {buf : List Byte} {l : List Byte} {f : F} {r : List Byte} :
    Runs (parseFloat ops buf) env l f r ↔ ops.parse buf = .ok f ∧ r = l := by
  unfold parseFloat
  cases ops.parse buf with
  | ok x => simp [eq_comm]
  | error e => simp

theorem fexpDigits_iff {buf : List Byte} {c : Byte} {l : List Byte} {f : F} {r : List Byte} :
    Runs (readFloatExponentDigits ops buf c) env l f r ↔
      ∃ pre, l = pre ++ r ∧ Runs (skipExponentDigits c) env l () r ∧ ops.parse (buf ++ c :: pre) = .ok f := by
  unfold readFloatExponentDigits skipExponentDigits
  split
  · simp
  · simp only [runs_bind, runs_scan, runs_parseFloat]
    rw [show (∃ a l', scanF fexpBody (fun buf => Except.ok buf) env.endErr (buf ++ [c]) l = Except.ok (a, l') ∧
        ops.parse a = Except.ok f ∧ r = l') ↔
      (∃ a, scanF fexpBody (fun buf => Except.ok buf) env.endErr (buf ++ [c]) l = Except.ok (a, r) ∧
        ops.parse a = Except.ok f) from by
      constructor
      · rintro ⟨a, _, h1, h2, rfl⟩; exact ⟨a, h1, h2⟩
      · rintro ⟨a, h1, h2⟩; exact ⟨a, r, h1, h2, rfl⟩]
    have hb := fun (buf : List Byte) (l : List Byte) (b : List Byte) (r : List Byte) =>
      scan_buf (e := env.endErr) (fb := fexpBody) (gb := expBody) (eF := fun buf => .ok buf)
        (eG := fun _ => .ok ()) (fun b (_ : Unit) => b) (buf := buf) (l := l) (b := b) (r := r)
        (fun buf c => by unfold fexpBody expBody; split <;> rfl) (fun buf => rfl)
    simp only [hb]
    constructor
    · rintro ⟨a, ⟨_, pre, h1, h2, rfl⟩, h3⟩; exact ⟨pre, h2, h1, by simpa using h3⟩
    · rintro ⟨pre, h2, h1, h3⟩; exact ⟨_, ⟨(), pre, h1, h2, rfl⟩, by simpa using h3⟩

theorem fexp_iff {buf : List Byte} {l : List Byte} {f : F} {r : List Byte} :
    Runs (readFloatExponentPart ops buf) env l f r ↔
      ∃ pre, l = pre ++ r ∧ Runs skipExponentPart env l () r ∧ ops.parse (buf ++ pre) = .ok f := by
  unfold readFloatExponentPart skipExponentPart
  simp only [runs_bind, runs_nextByteTake]
  constructor
  · rintro ⟨c, l1, rfl, h⟩
    split at h
    · rename_i hc
      simp only [runs_bind, runs_nextByteTake] at h
      obtain ⟨c', l2, rfl, h⟩ := h
      obtain ⟨pre, rfl, h1, h2⟩ := fexpDigits_iff.mp h
      refine ⟨c :: c' :: pre, rfl, ⟨c, _, rfl, ?_⟩, by simpa using h2⟩
      rw [if_pos hc]
      simp only [runs_bind, runs_nextByteTake]
      exact ⟨c', _, rfl, h1⟩
    · rename_i hc
      obtain ⟨pre, rfl, h1, h2⟩ := fexpDigits_iff.mp h
      refine ⟨c :: pre, rfl, ⟨c, _, rfl, ?_⟩, by simpa using h2⟩
      rw [if_neg hc]
      exact h1
  · rintro ⟨pre, hl, ⟨c, l1, rfl, h⟩, hp⟩
    refine ⟨c, l1, rfl, ?_⟩
    have hlen := Runs.length_le h
    obtain ⟨pre, rfl⟩ : ∃ p, pre = c :: p := by
      cases pre with
      | nil => simp at hl; rw [← hl] at hlen; simp at hlen; omega
      | cons y p => injection hl with h1 _; exact ⟨p, by rw [h1]⟩
    simp at hl
    split at h
    · rename_i hc
      rw [if_pos hc]
      simp only [runs_bind, runs_nextByteTake] at h ⊢
      obtain ⟨c', l2, rfl, h⟩ := h
      have hlen := Runs.length_le h
      obtain ⟨pre, rfl⟩ : ∃ p, pre = c' :: p := by
        cases pre with
        | nil => simp at hl; rw [← hl] at hlen; simp at hlen; omega
        | cons y p => injection hl with h1 _; exact ⟨p, by rw [h1]⟩
      simp at hl
      exact ⟨c', l2, rfl, fexpDigits_iff.mpr ⟨pre, hl, h, by simpa using hp⟩⟩
    · rename_i hc
      rw [if_neg hc]
      exact fexpDigits_iff.mpr ⟨pre, hl, h, by simpa using hp⟩

/-- The bytes consumed in two steps. -/
theorem append_split {a b l : List Byte} {l1 r : List Byte} (h1 : l = a ++ l1) (h2 : l1 = b ++ r) {p : List Byte}
    (h : l = p ++ r) : p = a ++ b := by
  subst h1; subst h2
  rw [← List.append_assoc] at h
  exact (List.append_cancel_right h).symm

theorem ffrac_iff {buf : List Byte} {l : List Byte} {f : F} {r : List Byte} :
    Runs (readFloatFractionPart ops buf) env l f r ↔
      ∃ pre, l = pre ++ r ∧ Runs skipFractionPart env l () r ∧ ops.parse (buf ++ pre) = .ok f := by
  have hb := fun (buf : List Byte) (l : List Byte) (b : List Byte × NumStop) (r : List Byte) =>
    scan_buf (e := env.endErr) (fb := ffracBody) (gb := fracBody) (eF := fun buf => .ok (buf, .fin))
      (eG := fun _ => .ok .fin) (fun b x => (b, x)) (buf := buf) (l := l) (b := b) (r := r)
      (fun buf c => by
        unfold ffracBody fracBody
        rcases floatDigit_cases c with ⟨_, n, h⟩ | ⟨_, h⟩ | ⟨_, h⟩ | ⟨_, _, _, _, h⟩ <;> rw [h]) (fun buf => rfl)
  unfold readFloatFractionPart skipFractionPart
  simp only [runs_bind, runs_byte, runs_scan, hb]
  constructor
  · rintro ⟨c, l1, ⟨l2, rfl, hd⟩, x, l3, ⟨y, pre, h1, rfl, rfl⟩, h⟩
    by_cases hc : intDigit c = none
    · simp [hc] at hd
    · simp [hc] at hd
      subst hd
      have hb : Runs (byte fun c => if intDigit c = none then .fail (.invalidDigit c) else .take) env (c :: (pre ++ l3)) c
        (pre ++ l3) := runs_byte.mpr ⟨_, rfl, .inl ⟨by simp [hc], rfl⟩⟩
      cases y with
      | exp =>
        obtain ⟨pre2, rfl, h2, h3⟩ := fexp_iff.mp h
        exact ⟨c :: pre ++ pre2, by simp, ⟨c, _, ⟨_, rfl, .inl ⟨by simp [hc], rfl⟩⟩, .exp, _, h1, h2⟩, by simpa using h3⟩
      | fin =>
        obtain ⟨h3, rfl⟩ := runs_parseFloat.mp h
        exact ⟨c :: pre, rfl, ⟨c, _, ⟨_, rfl, .inl ⟨by simp [hc], rfl⟩⟩, .fin, _, h1, by simp⟩, by simpa using h3⟩
      | dot =>
        obtain ⟨h3, rfl⟩ := runs_parseFloat.mp h
        exact ⟨c :: pre, rfl, ⟨c, _, ⟨_, rfl, .inl ⟨by simp [hc], rfl⟩⟩, .dot, _, h1, by simp⟩, by simpa using h3⟩
  · rintro ⟨pre, hl, ⟨c, l1, ⟨l2, rfl, hd⟩, y, l3, h1, h⟩, hp⟩
    by_cases hc : intDigit c = none
    · simp [hc] at hd
    · simp [hc] at hd
      subst hd
      have hs := scanF_suffix h1
      obtain ⟨p1, rfl⟩ := hs
      refine ⟨c, _, ⟨_, rfl, .inl ⟨by simp [hc], rfl⟩⟩, (buf ++ [c] ++ p1, y), l3, ⟨y, p1, h1, rfl, rfl⟩, ?_⟩
      cases y with
      | exp =>
        obtain ⟨p2, rfl⟩ := Runs.suffix h
        have : pre = c :: p1 ++ p2 := append_split (a := c :: p1) (by simp) rfl hl
        subst this
        exact fexp_iff.mpr ⟨p2, rfl, h, by simpa using hp⟩
      | fin =>
        simp at h
        subst h
        have : pre = c :: p1 := by simpa using append_split (a := c :: p1) (b := []) (by simp) rfl hl
        subst this
        exact runs_parseFloat.mpr ⟨by simpa using hp, rfl⟩
      | dot =>
        simp at h
        subst h
        have : pre = c :: p1 := by simpa using append_split (a := c :: p1) (b := []) (by simp) rfl hl
        subst this
        exact runs_parseFloat.mpr ⟨by simpa using hp, rfl⟩

theorem parse_exp (hl : Lawful ops) {c : Byte} (hc : IsExp c) (t : List Byte) :
    ops.parse (0x30 :: c :: t) = ops.parse (0x30 :: 0x65 :: t) := by
  rcases hc with rfl | rfl
  · rfl
  · exact hl.exp t

theorem fpos_iff (hlaw : Lawful ops) {c : Byte} (hc : Digit c) {l : List Byte} {f : F} {r : List Byte} :
    Runs (readPositiveFloat ops c) env l f r ↔
      ∃ pre, l = pre ++ r ∧ Runs (skipUnsigned c) env l () r ∧ ops.parse (c :: pre) = .ok f := by
  unfold readPositiveFloat skipUnsigned
  rw [intDigit_digit hc]
  by_cases h0 : c = 0x30
  · subst h0
    simp only [show (48 : UInt8).toNat - 48 = 0 from rfl, if_true, runs_bind]
    constructor
    · rintro ⟨o, l1, h1, h⟩
      have h1' := h1
      rcases runs_byteEOF.mp h1 with ⟨rfl, rfl, rfl, he⟩ | ⟨x, t, rfl, rfl, hx⟩
      · simp at h
        obtain ⟨rfl, rfl⟩ := h
        exact ⟨[], rfl, ⟨none, [], h1, by simp⟩, hlaw.zero⟩
      · rcases floatDigit_cases x with ⟨hd, n, hf⟩ | ⟨rfl, hf⟩ | ⟨hd, hf⟩ | ⟨_, _, _, _, hf⟩
        · simp [hf] at h hx
          obtain ⟨rfl, rfl⟩ := h
          exact ⟨[], by simp [hx], ⟨some x, _, h1, by simp [hf]⟩, hlaw.zero⟩
        · simp only [hf] at h
          simp [hf] at hx
          subst hx
          obtain ⟨pre, rfl, h2, h3⟩ := ffrac_iff.mp h
          exact ⟨46 :: pre, rfl, ⟨some _, _, h1, by simpa [hf] using h2⟩, by simpa using h3⟩
        · simp only [hf] at h
          simp [hf] at hx
          subst hx
          obtain ⟨pre, rfl, h2, h3⟩ := fexp_iff.mp h
          exact ⟨x :: pre, rfl, ⟨some _, _, h1, by simpa [hf] using h2⟩, by rw [parse_exp hlaw hd]; simpa using h3⟩
        · simp [hf] at h hx
          obtain ⟨rfl, rfl⟩ := h
          exact ⟨[], by simp [hx], ⟨some x, _, h1, by simp [hf]⟩, hlaw.zero⟩
    · rintro ⟨pre, hl, ⟨o, l1, h1, h⟩, hp⟩
      refine ⟨o, l1, h1, ?_⟩
      rcases runs_byteEOF.mp h1 with ⟨rfl, rfl, rfl, he⟩ | ⟨x, t, rfl, rfl, hx⟩
      · simp at h
        subst h
        simp at hl
        subst hl
        rw [hlaw.zero] at hp
        injection hp with hp
        simp [hp]
      · rcases floatDigit_cases x with ⟨hd, n, hf⟩ | ⟨rfl, hf⟩ | ⟨hd, hf⟩ | ⟨_, _, _, _, hf⟩
        · simp [hf] at h hx
          subst h; subst hx
          have : pre = [] := by simpa using hl
          subst this
          rw [hlaw.zero] at hp
          injection hp with hp
          simp [hf, hp]
        · simp only [hf] at h ⊢
          simp [hf] at hx
          subst hx
          obtain ⟨p2, rfl⟩ := Runs.suffix h
          have : pre = 46 :: p2 := append_split (a := [46]) (by simp) rfl hl
          subst this
          exact ffrac_iff.mpr ⟨p2, rfl, h, by simpa using hp⟩
        · simp only [hf] at h ⊢
          simp [hf] at hx
          subst hx
          obtain ⟨p2, rfl⟩ := Runs.suffix h
          have : pre = x :: p2 := append_split (a := [x]) (by simp) rfl hl
          subst this
          exact fexp_iff.mpr ⟨p2, rfl, h, by rw [parse_exp hlaw hd] at hp; simpa using hp⟩
        · simp [hf] at h hx
          subst h; subst hx
          have : pre = [] := by simpa using hl
          subst this
          rw [hlaw.zero] at hp
          injection hp with hp
          simp [hf, hp]
  · have hn : c.toNat - 48 ≠ 0 := by
      have := (pos_of_digit hc h0).1
      have h2 : (49 : UInt8).toNat ≤ c.toNat := this
      simp at h2
      omega
    have hb := fun (buf : List Byte) (l : List Byte) (b : List Byte × NumStop) (r : List Byte) =>
      scan_buf (e := env.endErr) (fb := fintBody) (gb := intBody) (eF := fun buf => .ok (buf, .fin))
        (eG := fun _ => .ok .fin) (fun b x => (b, x)) (buf := buf) (l := l) (b := b) (r := r)
        (fun buf c => by
          unfold fintBody intBody
          rcases floatDigit_cases c with ⟨_, n, h⟩ | ⟨_, h⟩ | ⟨_, h⟩ | ⟨_, _, _, _, h⟩ <;> rw [h]) (fun buf => rfl)
    rw [if_neg h0]
    obtain ⟨m, hm⟩ : ∃ m, c.toNat - 48 = m + 1 := ⟨c.toNat - 49, by omega⟩
    rw [hm]
    simp only [runs_bind, runs_scan, hb]
    constructor
    · rintro ⟨x, l3, ⟨y, pre, h1, rfl, rfl⟩, h⟩
      cases y with
      | exp =>
        obtain ⟨pre2, rfl, h2, h3⟩ := fexp_iff.mp h
        exact ⟨pre ++ pre2, by simp, ⟨.exp, _, h1, h2⟩, by simpa using h3⟩
      | fin =>
        obtain ⟨h3, rfl⟩ := runs_parseFloat.mp h
        exact ⟨pre, rfl, ⟨.fin, _, h1, by simp⟩, by simpa using h3⟩
      | dot =>
        obtain ⟨pre2, rfl, h2, h3⟩ := ffrac_iff.mp h
        exact ⟨pre ++ pre2, by simp, ⟨.dot, _, h1, h2⟩, by simpa using h3⟩
    · rintro ⟨pre, hl, ⟨y, l3, h1, h⟩, hp⟩
      obtain ⟨p1, rfl⟩ := scanF_suffix h1
      refine ⟨([c] ++ p1, y), l3, ⟨y, p1, h1, rfl, rfl⟩, ?_⟩
      cases y with
      | exp =>
        obtain ⟨p2, rfl⟩ := Runs.suffix h
        have : pre = p1 ++ p2 := append_split rfl rfl hl
        subst this
        exact fexp_iff.mpr ⟨p2, rfl, h, by simpa using hp⟩
      | dot =>
        obtain ⟨p2, rfl⟩ := Runs.suffix h
        have : pre = p1 ++ p2 := append_split rfl rfl hl
        subst this
        exact ffrac_iff.mpr ⟨p2, rfl, h, by simpa using hp⟩
      | fin =>
        simp at h
        subst h
        have : pre = p1 := (List.append_cancel_right hl).symm
        subst this
        exact runs_parseFloat.mpr ⟨by simpa using hp, rfl⟩

theorem literal_digit {c : Byte} (hc : Digit c) (t : List Byte) : literal ops (c :: t) = ops.parse (c :: t) := by
  unfold literal
  split
  · rename_i u h
    injection h with h _
    exact absurd h (digit_ne hc).2.2.2.2
  · rfl

/-- `readFloat` reads the longest number literal and returns its value. -/
theorem runs_readFloat (hlaw : Lawful ops) {c : Byte} (hc : isNumberStart c = true) {l : List Byte} {f : F} {r : List Byte} :
    Runs (readFloat ops c) env l f r ↔
      ∃ t, c :: l = t ++ r ∧ Number t ∧ Final t r ∧ EndOk env r ∧ literal ops t = .ok f := by
  have step : Runs (readFloat ops c) env l f r ↔
      ∃ pre, l = pre ++ r ∧ Runs (skipNumber c) env l () r ∧ literal ops (c :: pre) = .ok f := by
    unfold readFloat skipNumber
    by_cases hm : c = 0x2D
    · subst hm
      simp only [if_true, runs_bind, runs_byte, runs_pure]
      constructor
      · rintro ⟨d, l1, ⟨_, rfl, h0⟩, x, l2, h, rfl, rfl⟩
        simp at h0
        subst h0
        by_cases hd : Digit d
        · obtain ⟨pre, rfl, h1, h2⟩ := (fpos_iff hlaw hd).mp h
          exact ⟨d :: pre, rfl, ⟨d, _, ⟨_, rfl, .inl ⟨by simp [intDigit_digit hd], rfl⟩⟩, h1⟩, by simp [literal, h2, Except.map]⟩
        · unfold readPositiveFloat at h
          rw [intDigit_none.mpr hd] at h
          simp at h
      · rintro ⟨pre, hl, ⟨d, l1, ⟨l2, rfl, h1⟩, h2⟩, hp⟩
        by_cases hd : Digit d
        · simp [intDigit_digit hd] at h1
          subst h1
          have hlen := Runs.length_le h2
          obtain ⟨pre, rfl⟩ : ∃ p, pre = d :: p := by
            cases pre with
            | nil => simp at hl; rw [← hl] at hlen; simp at hlen; omega
            | cons y p => injection hl with h1 _; exact ⟨p, by rw [h1]⟩
          simp at hl
          simp only [literal] at hp
          cases hq : ops.parse (d :: pre) with
          | error e => rw [hq] at hp; cases hp
          | ok x =>
            rw [hq] at hp
            injection hp with hp
            exact ⟨d, l1, ⟨_, rfl, .inl ⟨trivial, rfl⟩⟩, x, r, (fpos_iff hlaw hd).mpr ⟨pre, hl, h2, hq⟩, hp.symm, rfl⟩
        · simp [intDigit_none.mpr hd] at h1
    · have hd : Digit c := by
        simp [isNumberStart, hm] at hc; exact hc
      rw [if_neg hm, if_neg hm]
      simp only [literal_digit hd]
      exact fpos_iff hlaw hd
  rw [step]
  constructor
  · rintro ⟨pre, rfl, h, hp⟩
    obtain ⟨t, h1, h2, h3, h4⟩ := (runs_skipNumber hc).mp h
    have := List.append_cancel_right h1
    subst this
    exact ⟨c :: pre, rfl, h2, h3, h4, hp⟩
  · rintro ⟨t, h1, h2, h3, h4, h5⟩
    obtain ⟨c', t', rfl, _⟩ := number_start h2
    injection h1 with e1 e2
    subst e1
    exact ⟨t', e2, (runs_skipNumber hc).mpr ⟨t', e2, h2, h3, h4⟩, h5⟩

end

end Jzon
