import Verif.Spec.Reader
import Verif.Proof.Grammar
import Verif.Proof.Float
import Verif.Proof.Sim

/-!
# From flat runs to runs on the iterator
-/

set_option linter.unusedSimpArgs false

namespace Jzon

open Spec

theorem delivers_facts {script : List RdRes} {data : List Byte} {e : Err} (h : Delivers script data e) :
    Sticky script ∧ flatScript script = data ∧ endScript script = e := by
  induction h with
  | done => exact ⟨trivial, rfl, rfl⟩
  | chunk d rest data e h ih =>
    refine ⟨⟨by simp, ih.1⟩, ?_, ?_⟩
    · simp [flatScript, ih.2.1]
    · simp [endScript, ih.2.2]
  | last d rest h =>
    refine ⟨⟨fun _ => h, sticky_eofs h⟩, ?_, ?_⟩
    · simp [flatScript, flatScript_eofs h]
    · simp [endScript]
  | broken d e rest data e' he h ih =>
    refine ⟨⟨?_, ih.1⟩, ?_, ?_⟩
    · intro h'; simp at h'; exact absurd h' he
    · simp [flatScript, he]
    · simp [endScript, he]

theorem delivers_of_sticky {script : List RdRes} (h : Sticky script) :
    Delivers script (flatScript script) (endScript script) := by
  induction script with
  | nil => exact .done
  | cons r rest ih =>
    obtain ⟨d, err⟩ := r
    obtain ⟨h1, h2⟩ := h
    cases err with
    | none => simpa [flatScript, endScript] using Delivers.chunk d rest _ _ (ih h2)
    | some e =>
      by_cases he : e = .eof
      · subst he
        have := h1 rfl
        simpa [flatScript, endScript, flatScript_eofs this] using Delivers.last d rest this
      · simpa [flatScript, endScript, he] using Delivers.broken d e rest _ _ he (ih h2)

theorem unread_iff {it : It} {l : List Byte} {e : Err} :
    Unread it l e ↔ it.Inv ∧ it.rem = l ∧ it.endErr = e := by
  constructor
  · rintro ⟨h1, data, h2, rfl⟩
    obtain ⟨a, b, c⟩ := delivers_facts h2
    exact ⟨⟨h1, a⟩, by simp [It.rem, flatReader, b], c⟩
  · rintro ⟨h, rfl, rfl⟩
    exact ⟨h.head_le, _, delivers_of_sticky h.sticky, rfl⟩

theorem unread_bytes (it : It) (data : List Byte) : Unread (it.resetBytes data) data .eof :=
  ⟨by simp [It.resetBytes], [], .done, by simp [It.resetBytes]⟩

theorem unread_reader (it : It) {script : List RdRes} {data : List Byte} {e : Err} (h : Delivers script data e) :
    Unread (it.resetReader script) data e :=
  ⟨by simp [It.resetReader], data, h, by simp [It.resetReader]⟩

theorem runM_ok {α : Type} {p : Prog α} {it it' : It} {l : List Byte} {e : Err} {a : α} (h : Unread it l e)
    (hr : p.runM it = (.ok a, it')) :
    ∃ r, Unread it' r e ∧ Runs p it.env l a r ∧ Step it it' := by
  obtain ⟨hi, rfl, rfl⟩ := unread_iff.mp h
  have := p.agree it hi
  rw [hr] at this
  cases hf : p.runF it.env it.rem with
  | error e => rw [hf] at this; exact this.elim
  | ok x =>
    obtain ⟨a', l'⟩ := x
    rw [hf] at this
    obtain ⟨rfl, h1, h2⟩ := this
    exact ⟨l', unread_iff.mpr ⟨h2.inv, h1, h2.endErr⟩, hf, h2⟩

theorem runM_error {α : Type} {p : Prog α} {it it' : It} {l : List Byte} {e : Err} {x : Err} (h : Unread it l e)
    (hr : p.runM it = (.error x, it')) : p.runF it.env l = .error x ∧ it'.head ≤ it'.buf.length := by
  obtain ⟨hi, rfl, rfl⟩ := unread_iff.mp h
  have := p.agree it hi
  rw [hr] at this
  cases hf : p.runF it.env it.rem with
  | error e => rw [hf] at this; exact ⟨by rw [this.1], this.2.2⟩
  | ok x => rw [hf] at this; exact this.elim

theorem runM_of_runs {α : Type} {p : Prog α} {it : It} {l r : List Byte} {e : Err} {a : α} (h : Unread it l e)
    (hr : Runs p it.env l a r) : ∃ it', p.runM it = (.ok a, it') ∧ Unread it' r e := by
  obtain ⟨hi, rfl, rfl⟩ := unread_iff.mp h
  have := p.agree it hi
  rw [show p.runF it.env it.rem = _ from hr] at this
  cases hm : p.runM it with
  | mk x it' =>
    rw [hm] at this
    cases x with
    | error e => exact this.elim
    | ok b =>
      obtain ⟨rfl, h1, h2⟩ := this
      exact ⟨it', rfl, unread_iff.mpr ⟨h2.inv, h1, h2.endErr⟩⟩

theorem runM_of_error {α : Type} {p : Prog α} {it : It} {l : List Byte} {e x : Err} (h : Unread it l e)
    (hr : p.runF it.env l = .error x) : ∃ it', p.runM it = (.error x, it') := by
  cases hm : p.runM it with
  | mk y it' =>
    cases y with
    | error y =>
      have := (runM_error h hm).1
      rw [hr] at this
      cases this
      exact ⟨it', rfl⟩
    | ok a =>
      obtain ⟨_, _, h2, _⟩ := runM_ok h hm
      rw [Runs, hr] at h2
      cases h2

/-- Running on the iterator and leaving the rest `r` unread. -/
theorem runM_iff {α : Type} {p : Prog α} {it : It} {l r : List Byte} {e : Err} {a : α} (h : Unread it l e) :
    (∃ it', p.runM it = (.ok a, it') ∧ Unread it' r e) ↔ Runs p it.env l a r := by
  constructor
  · rintro ⟨it', h1, h2⟩
    obtain ⟨r', h3, h4, _⟩ := runM_ok h h1
    have e1 := (unread_iff.mp h2).2.1
    have e2 := (unread_iff.mp h3).2.1
    rw [← e1, e2]; exact h4
  · exact runM_of_runs h

theorem env_endErr {it : It} {l : List Byte} {e : Err} (h : Unread it l e) : it.env.endErr = e := (unread_iff.mp h).2.2

/-! ## `EndsAt` -/

theorem number_head {t : List Byte} (h : Number t) : ∃ c u, t = c :: u ∧ (c = 0x2D ∨ Digit c) := by
  rcases h with ⟨i, f, e, rfl, hi, _, _⟩ | ⟨u, rfl, _⟩
  · cases hi with
    | zero => exact ⟨0x30, _, rfl, .inr (by decide)⟩
    | pos d ds hd _ => exact ⟨d, _, rfl, .inr ⟨UInt8.le_trans (by decide) hd.1, hd.2⟩⟩
  · exact ⟨_, _, rfl, .inl rfl⟩

theorem isNumberStart_of : ∀ c : Byte, c = 0x2D ∨ Digit c → isNumberStart c = true := by
  apply forall_byte; decide +kernel

theorem not_isNumberStart : ∀ c : Byte, isNumberStart c = false → c ≠ 0x2D ∧ intDigit c = none := by
  apply forall_byte; decide +kernel

theorem numberStart_head {t : List Byte} (h : Number t) : ∃ c u, t = c :: u ∧ isNumberStart c = true := by
  obtain ⟨c, u, rfl, hc⟩ := number_head h
  exact ⟨c, u, rfl, isNumberStart_of c hc⟩

theorem number_value {t : List Byte} {v : JVal} (h : Value t v) : Number t ↔ v = .num t := by
  constructor
  · intro hn
    obtain ⟨c, u, rfl, hc⟩ := number_head hn
    have key : ∀ d : Byte, (d = 0x6E ∨ d = 0x74 ∨ d = 0x66 ∨ d = 0x22 ∨ d = 0x5B ∨ d = 0x7B) → ¬ (d = 0x2D ∨ Digit d) := by
      rintro d (rfl | rfl | rfl | rfl | rfl | rfl) <;> decide
    cases h with
    | num _ h => rfl
    | str _ s h =>
      obtain ⟨b, _, h⟩ := h
      simp at h
      exact absurd hc (key _ (by simp [h.1]))
    | _ => exact absurd hc (key _ (by simp))
  · rintro rfl
    cases h with
    | num _ h => exact h

theorem number_bytes {t : List Byte} (h : Number t) : ∀ c ∈ t, c ≠ 0x20 ∧ c ≠ 0x09 ∧ c ≠ 0x0A ∧ c ≠ 0x0D := by
  have dig : ∀ c, Digit c → c ≠ 0x20 ∧ c ≠ 0x09 ∧ c ≠ 0x0A ∧ c ≠ 0x0D := by
    apply forall_byte; decide +kernel
  have uns : ∀ u, Unsigned u → ∀ c ∈ u, c ≠ 0x20 ∧ c ≠ 0x09 ∧ c ≠ 0x0A ∧ c ≠ 0x0D := by
    rintro u ⟨i, f, e, rfl, hi, hf, he⟩ c hc
    simp only [List.mem_append] at hc
    rcases hc with hc | hc | hc
    · cases hi with
      | zero => simp at hc; subst hc; decide
      | pos d ds hd hds =>
        simp at hc
        rcases hc with rfl | hc
        · exact dig _ ⟨UInt8.le_trans (by decide) hd.1, hd.2⟩
        · exact dig _ (hds _ hc)
    · cases hf with
      | none => cases hc
      | some ds h =>
        simp at hc
        rcases hc with rfl | hc
        · decide
        · exact dig _ (h.2 _ hc)
    · cases he with
      | none => cases hc
      | some x sign ds hx hs h =>
        simp at hc
        rcases hc with rfl | hc | hc
        · rcases hx with rfl | rfl <;> decide
        · rcases hs with rfl | rfl | rfl
          · cases hc
          · simp at hc; subst hc; decide
          · simp at hc; subst hc; decide
        · exact dig _ (h.2 _ hc)
  rcases h with h | ⟨u, rfl, h⟩
  · exact uns _ h
  · intro c hc
    simp at hc
    rcases hc with rfl | hc
    · decide
    · exact uns _ h c hc

theorem notNumber_ws {t s r : List Byte} {c : Byte} (hw : Ws (c :: r)) (h : Number (t ++ c :: s)) : False := by
  have h1 := number_bytes h c (by simp)
  have h2 := hw c (by simp)
  simp [h1] at h2

theorem endsAt_iff {env : Env} {t r : List Byte} {v : JVal} (h : Value t v) : Ends env t v r ↔ EndsAt env.endErr t r := by
  unfold EndsAt
  rw [number_value h]
  cases h with
  | num _ h => simp [Ends, EndOk]
  | _ => simp [Ends]

end Jzon
