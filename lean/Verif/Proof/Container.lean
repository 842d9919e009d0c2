import Verif.Proof.Top
import Verif.Model.Container
import Verif.Spec.Container

/-!
# Arrays and objects element by element
-/

set_option linter.unusedSimpArgs false

namespace Jzon

open Spec

section
variable {S : Type} {env : Env}

/-- Items separated by commas up to the byte `close`; `R` is one item. -/
inductive Chain (R : S → List Byte → S → List Byte → Prop) (close : Byte) : S → List Byte → S → List Byte → Prop
  | last {s l s' l1 r} (h : R s l s' l1) (hd : dropWs l1 = close :: r) : Chain R close s l s' r
  | more {s l s1 l1 l2 s' r} (h : R s l s1 l1) (hd : dropWs l1 = 0x2C :: l2) (hr : Chain R close s1 l2 s' r) :
      Chain R close s l s' r

theorem chain_iff {R : S → List Byte → S → List Byte → Prop} {close : Byte} {s s' : S} {l r : List Byte} :
    Chain R close s l s' r ↔ ∃ s1 l1, R s l s1 l1 ∧
      ((dropWs l1 = close :: r ∧ s' = s1) ∨ ∃ l2, dropWs l1 = 0x2C :: l2 ∧ Chain R close s1 l2 s' r) := by
  constructor
  · intro h
    cases h with
    | last h hd => exact ⟨_, _, h, .inl ⟨hd, rfl⟩⟩
    | more h hd hr => exact ⟨_, _, h, .inr ⟨_, hd, hr⟩⟩
  · rintro ⟨s1, l1, h, ⟨hd, rfl⟩ | ⟨l2, hd, hr⟩⟩
    · exact .last h hd
    · exact .more h hd hr

theorem Chain.mono {R R' : S → List Byte → S → List Byte → Prop} {close : Byte}
    (hsuf : ∀ s l s' r, R s l s' r → r.length ≤ l.length) {n : Nat}
    (h : ∀ s l s' r, l.length ≤ n → R s l s' r → R' s l s' r) {s s' : S} {l r : List Byte}
    (hl : l.length ≤ n) (hc : Chain R close s l s' r) : Chain R' close s l s' r := by
  induction hc with
  | last h1 hd => exact .last (h _ _ _ _ hl h1) hd
  | more h1 hd _ ih =>
    have a := hsuf _ _ _ _ h1
    have b := dropWs_length hd
    exact .more (h _ _ _ _ hl h1) hd (ih (by omega))

theorem runs_token_two {env : Env} {a b : Byte} {e : Byte → Err} {l r : List Byte} {c : Byte} :
    Runs (token fun c => if c = a then .take else if c = b then .take else .fail (e c)) env l c r ↔
      dropWs l = c :: r ∧ (c = a ∨ c = b) := by
  rw [runs_token]
  constructor
  · rintro ⟨l', h, h1⟩
    by_cases ha : c = a
    · simp [ha] at h1; subst h1; exact ⟨h, .inl ha⟩
    · by_cases hb : c = b
      · by_cases hba : b = a
        · exact absurd (hb.trans hba) ha
        · simp [hb, hba] at h1; subst h1; exact ⟨h, .inr hb⟩
      · simp [ha, hb] at h1
  · rintro ⟨h, h1⟩
    refine ⟨r, h, .inl ⟨?_, rfl⟩⟩
    rcases h1 with h1 | h1
    · simp [h1]
    · by_cases hba : c = a
      · simp [hba]
      · simp [hba, h1]

theorem runs_token_one {env : Env} {a : Byte} {e : Byte → Err} {l r : List Byte} {c : Byte} :
    Runs (token fun c => if c ≠ a then .fail (e c) else .take) env l c r ↔ dropWs l = a :: r ∧ c = a := by
  rw [runs_token]
  constructor
  · rintro ⟨l', h, h1⟩
    by_cases ha : c = a
    · simp [ha] at h1; subst h1; exact ⟨ha ▸ h, ha⟩
    · simp [ha] at h1
  · rintro ⟨h, rfl⟩
    exact ⟨r, h, .inl ⟨by simp, rfl⟩⟩

theorem runs_token_or {env : Env} {a : Byte} {l r : List Byte} {c : Byte} :
    Runs (token fun c => if c = a then .take else .leave) env l c r ↔
      (dropWs l = a :: r ∧ c = a) ∨ (c ≠ a ∧ dropWs l = r ∧ ∃ l', r = c :: l') := by
  rw [runs_token]
  constructor
  · rintro ⟨l', h, h1⟩
    by_cases ha : c = a
    · simp [ha] at h1; subst h1; exact .inl ⟨ha ▸ h, ha⟩
    · simp [ha] at h1; subst h1; exact .inr ⟨ha, h, _, rfl⟩
  · rintro (⟨h, rfl⟩ | ⟨h1, h, l', rfl⟩)
    · exact ⟨r, h, .inl ⟨by simp, rfl⟩⟩
    · exact ⟨l', h, .inr ⟨by simp [h1], rfl⟩⟩

/-! ## Arrays -/

variable {cb : S → Prog S}

/-- One call of the callback. -/
def CallA (env : Env) (cb : S → Prog S) (s : S) (l : List Byte) (s' : S) (r : List Byte) : Prop := Runs (cb s) env l s' r

theorem arrayCBLoop_iff {n : Nat} {s s' : S} {l r : List Byte} (hl : l.length < n) :
    Runs (arrayCBLoop cb n s) env l s' r ↔ Chain (CallA env cb) 0x5D s l s' r := by
  induction n generalizing s l with
  | zero => omega
  | succ n ih =>
    rw [chain_iff]
    simp only [arrayCBLoop, runs_bind, runs_token_two]
    constructor
    · rintro ⟨s1, l1, h1, c, l2, ⟨h2, hc⟩, h3⟩
      refine ⟨s1, l1, h1, ?_⟩
      have := Runs.length_le h1
      have := dropWs_length h2
      rcases hc with rfl | rfl
      · rw [if_pos rfl, ih (by omega)] at h3
        exact .inr ⟨l2, h2, h3⟩
      · rw [if_neg (by decide)] at h3
        obtain ⟨rfl, rfl⟩ := runs_pure.mp h3
        exact .inl ⟨h2, rfl⟩
    · rintro ⟨s1, l1, h1, ⟨h2, rfl⟩ | ⟨l2, h2, h3⟩⟩
      · exact ⟨_, l1, h1, 0x5D, r, ⟨h2, .inr rfl⟩, by rw [if_neg (by decide)]; exact runs_pure.mpr ⟨rfl, rfl⟩⟩
      · have := Runs.length_le h1
        have := dropWs_length h2
        exact ⟨s1, l1, h1, 0x2C, l2, ⟨h2, .inl rfl⟩, by rw [if_pos rfl, ih (by omega)]; exact h3⟩

/-- Reading an array. -/
def ArrayRun (R : S → List Byte → S → List Byte → Prop) (s : S) (l : List Byte) (s' : S) (r : List Byte) : Prop :=
  ∃ l1, dropWs l = 0x5B :: l1 ∧
    ((dropWs l1 = 0x5D :: r ∧ s' = s) ∨ ∃ c l2, dropWs l1 = c :: l2 ∧ c ≠ 0x5D ∧ Chain R 0x5D s (c :: l2) s' r)

theorem readArrayCB_iff {s s' : S} {l r : List Byte} :
    Runs (ReadArrayCB cb s) env l s' r ↔ ArrayRun (CallA env cb) s l s' r := by
  unfold ReadArrayCB ArrayRun
  simp only [runs_bind, runs_token_one, runs_token_or]
  constructor
  · rintro ⟨_, l1, ⟨h1, rfl⟩, c, l2, h2, h3⟩
    refine ⟨l1, h1, ?_⟩
    rcases h2 with ⟨h2, rfl⟩ | ⟨hc, h2, l', rfl⟩
    · rw [if_pos rfl] at h3
      obtain ⟨rfl, rfl⟩ := runs_pure.mp h3
      exact .inl ⟨h2, rfl⟩
    · rw [if_neg hc] at h3
      simp only [runs_bind, runs_remaining] at h3
      obtain ⟨n, _, ⟨rfl, rfl⟩, h3⟩ := h3
      rw [arrayCBLoop_iff (by omega)] at h3
      exact .inr ⟨c, l', h2, hc, h3⟩
  · rintro ⟨l1, h1, ⟨h2, rfl⟩ | ⟨c, l2, h2, hc, h3⟩⟩
    · exact ⟨_, l1, ⟨h1, rfl⟩, 0x5D, r, .inl ⟨h2, rfl⟩, by rw [if_pos rfl]; exact runs_pure.mpr ⟨rfl, rfl⟩⟩
    · refine ⟨_, l1, ⟨h1, rfl⟩, c, _, .inr ⟨hc, h2, l2, rfl⟩, ?_⟩
      rw [if_neg hc]
      simp only [runs_bind, runs_remaining]
      exact ⟨_, _, ⟨rfl, rfl⟩, (arrayCBLoop_iff (by omega)).mpr h3⟩

theorem readArrayMore_iff {b : Bool} {l r : List Byte} :
    Runs ReadArrayMore env l b r ↔ (b = true ∧ dropWs l = 0x2C :: r) ∨ (b = false ∧ dropWs l = 0x5D :: r) := by
  unfold ReadArrayMore
  simp only [runs_bind, runs_token_two]
  constructor
  · rintro ⟨c, l1, ⟨h1, rfl | rfl⟩, h2⟩
    · simp at h2; obtain ⟨rfl, rfl⟩ := h2; exact .inl ⟨rfl, h1⟩
    · simp at h2; obtain ⟨rfl, rfl⟩ := h2; exact .inr ⟨rfl, h1⟩
  · rintro (⟨rfl, h1⟩ | ⟨rfl, h1⟩)
    · exact ⟨_, r, ⟨h1, .inl rfl⟩, by simp⟩
    · exact ⟨_, r, ⟨h1, .inr rfl⟩, by simp⟩

theorem readArrayBegin_iff {b : Bool} {l r : List Byte} :
    Runs ReadArrayBegin env l b r ↔ ∃ l1, dropWs l = 0x5B :: l1 ∧
      ((b = false ∧ dropWs l1 = 0x5D :: r) ∨ (b = true ∧ ∃ c l2, dropWs l1 = c :: l2 ∧ c ≠ 0x5D ∧ r = c :: l2)) := by
  unfold ReadArrayBegin
  simp only [runs_bind, runs_token_one, runs_token_or]
  constructor
  · rintro ⟨_, l1, ⟨h1, rfl⟩, c, l2, h2, h3⟩
    refine ⟨l1, h1, ?_⟩
    rcases h2 with ⟨h2, rfl⟩ | ⟨hc, h2, l', rfl⟩
    · simp at h3; obtain ⟨rfl, rfl⟩ := h3; exact .inl ⟨rfl, h2⟩
    · simp [hc] at h3; obtain ⟨rfl, rfl⟩ := h3; exact .inr ⟨rfl, c, l', h2, hc, rfl⟩
  · rintro ⟨l1, h1, ⟨rfl, h2⟩ | ⟨rfl, c, l2, h2, hc, rfl⟩⟩
    · exact ⟨_, l1, ⟨h1, rfl⟩, 0x5D, r, .inl ⟨h2, rfl⟩, by simp⟩
    · exact ⟨_, l1, ⟨h1, rfl⟩, c, _, .inr ⟨hc, h2, l2, rfl⟩, by simp [hc]⟩

theorem forArrayLoop_iff {n : Nat} {s s' : S} {l r : List Byte} (hl : l.length < n) :
    Runs (forArrayLoop cb (n + 1) true s) env l s' r ↔ Chain (CallA env cb) 0x5D s l s' r := by
  induction n generalizing s l with
  | zero => omega
  | succ n ih =>
    rw [chain_iff]
    simp only [forArrayLoop, if_true, runs_bind, readArrayMore_iff]
    constructor
    · rintro ⟨s1, l1, h1, b, l2, (⟨rfl, h2⟩ | ⟨rfl, h2⟩), h3⟩
      · refine ⟨s1, l1, h1, .inr ⟨l2, h2, ?_⟩⟩
        have := Runs.length_le h1
        have := dropWs_length h2
        exact (ih (by omega)).mp (by simpa [forArrayLoop, runs_bind, readArrayMore_iff] using h3)
      · simp at h3
        obtain ⟨rfl, rfl⟩ := h3
        exact ⟨_, l1, h1, .inl ⟨h2, rfl⟩⟩
    · rintro ⟨s1, l1, h1, ⟨h2, rfl⟩ | ⟨l2, h2, h3⟩⟩
      · exact ⟨_, l1, h1, false, r, .inr ⟨rfl, h2⟩, by simp⟩
      · have := Runs.length_le h1
        have := dropWs_length h2
        refine ⟨s1, l1, h1, true, l2, .inl ⟨rfl, h2⟩, ?_⟩
        have := (ih (by omega)).mpr h3
        simpa [forArrayLoop, runs_bind, readArrayMore_iff] using this

theorem forArray_iff {s s' : S} {l r : List Byte} :
    Runs (forArray cb s) env l s' r ↔ ArrayRun (CallA env cb) s l s' r := by
  unfold forArray ArrayRun
  simp only [runs_bind, readArrayBegin_iff, runs_remaining]
  constructor
  · rintro ⟨b, l2, ⟨l1, h1, ⟨rfl, h2⟩ | ⟨rfl, c, l3, h2, hc, rfl⟩⟩, n, _, ⟨rfl, rfl⟩, h4⟩
    · simp [forArrayLoop] at h4
      obtain ⟨rfl, rfl⟩ := h4
      exact ⟨l1, h1, .inl ⟨h2, rfl⟩⟩
    · rw [forArrayLoop_iff (by omega)] at h4
      exact ⟨l1, h1, .inr ⟨c, l3, h2, hc, h4⟩⟩
  · rintro ⟨l1, h1, ⟨h2, rfl⟩ | ⟨c, l2, h2, hc, h3⟩⟩
    · exact ⟨false, r, ⟨l1, h1, .inl ⟨rfl, h2⟩⟩, _, r, ⟨rfl, rfl⟩, by simp [forArrayLoop]⟩
    · exact ⟨true, _, ⟨l1, h1, .inr ⟨rfl, c, l2, h2, hc, rfl⟩⟩, _, _, ⟨rfl, rfl⟩, (forArrayLoop_iff (by omega)).mpr h3⟩

/-! ## Objects -/

variable {cbo : List Byte → S → Prog S}

/-- One member and its callback. -/
def CallO (env : Env) (cb : List Byte → S → Prog S) (s : S) (l : List Byte) (s' : S) (r : List Byte) : Prop :=
  ∃ l1 k l2, dropWs l = 0x22 :: l1 ∧ Runs readObjectField env l1 k l2 ∧ Runs (cb k s) env l2 s' r

theorem CallO.length_le {s s' : S} {l r : List Byte} (h : CallO env cbo s l s' r) : r.length ≤ l.length := by
  obtain ⟨l1, k, l2, h1, h2, h3⟩ := h
  have := dropWs_length h1
  have := Runs.length_le h2
  have := Runs.length_le h3
  omega

theorem objectCBLoop_iff {n : Nat} {s s' : S} {l0 l r : List Byte} (h0 : dropWs l0 = 0x22 :: l) (hl : l.length < n) :
    Runs (objectCBLoop cbo n s) env l s' r ↔ Chain (CallO env cbo) 0x7D s l0 s' r := by
  induction n generalizing s l l0 with
  | zero => omega
  | succ n ih =>
    rw [chain_iff]
    simp only [objectCBLoop, runs_bind, runs_token_two]
    constructor
    · rintro ⟨k, l1, h1, s1, l2, h2, c, l3, ⟨h3, hc⟩, h4⟩
      refine ⟨s1, l2, ⟨l, k, l1, h0, h1, h2⟩, ?_⟩
      have := Runs.length_le h1
      have := Runs.length_le h2
      have := dropWs_length h3
      rcases hc with rfl | rfl
      · rw [if_pos rfl] at h4
        obtain ⟨rfl, rfl⟩ := runs_pure.mp h4
        exact .inl ⟨h3, rfl⟩
      · rw [if_neg (by decide)] at h4
        simp only [runs_bind, runs_token_one] at h4
        obtain ⟨_, l4, ⟨h4, rfl⟩, h5⟩ := h4
        have := dropWs_length h4
        exact .inr ⟨l3, h3, (ih h4 (by omega)).mp h5⟩
    · rintro ⟨s1, l2, ⟨l', k, l1, h0', h1, h2⟩, h3⟩
      rw [h0] at h0'
      cases h0'
      refine ⟨k, l1, h1, s1, l2, h2, ?_⟩
      rcases h3 with ⟨h3, rfl⟩ | ⟨l3, h3, h4⟩
      · exact ⟨0x7D, r, ⟨h3, .inl rfl⟩, by rw [if_pos rfl]; exact runs_pure.mpr ⟨rfl, rfl⟩⟩
      · refine ⟨0x2C, l3, ⟨h3, .inr rfl⟩, ?_⟩
        rw [if_neg (by decide)]
        have := Runs.length_le h1
        have := Runs.length_le h2
        have := dropWs_length h3
        obtain ⟨_, _, ⟨l4, k', l5, h5, _, _⟩, _⟩ := chain_iff.mp h4
        have := dropWs_length h5
        simp only [runs_bind, runs_token_one]
        exact ⟨_, l4, ⟨h5, rfl⟩, (ih h5 (by omega)).mpr h4⟩

/-- Reading an object. -/
def ObjectRun (R : S → List Byte → S → List Byte → Prop) (s : S) (l : List Byte) (s' : S) (r : List Byte) : Prop :=
  ∃ l1, dropWs l = 0x7B :: l1 ∧ ((dropWs l1 = 0x7D :: r ∧ s' = s) ∨ Chain R 0x7D s l1 s' r)

theorem readObjectCB_iff {s s' : S} {l r : List Byte} :
    Runs (ReadObjectCB cbo s) env l s' r ↔ ObjectRun (CallO env cbo) s l s' r := by
  unfold ReadObjectCB ObjectRun
  have tok : ∀ {l r : List Byte} {c : Byte}, Runs (token fun c => if c = b! '}' then .take
      else if c ≠ b! '"' then .fail (.unexpectedByte c (b! '"') (b! '}')) else .take) env l c r ↔
      dropWs l = c :: r ∧ (c = 0x7D ∨ c = 0x22) := by
    intro l r c
    have := @runs_token_two env 0x7D 0x22 (fun c => .unexpectedByte c (b! '"') (b! '}')) l r c
    rw [← this]
    have e : (fun c : Byte => if c = b! '}' then Dec.take
      else if c ≠ b! '"' then .fail (.unexpectedByte c (b! '"') (b! '}')) else .take) =
      (fun c : Byte => if c = 0x7D then Dec.take else if c = 0x22 then .take else .fail (.unexpectedByte c (b! '"') (b! '}'))) := by
      funext c
      by_cases h1 : c = 0x7D
      · simp [h1]
      · by_cases h2 : c = 0x22 <;> simp [h1, h2]
    rw [e]
  simp only [runs_bind, runs_token_one, tok]
  constructor
  · rintro ⟨_, l1, ⟨h1, rfl⟩, c, l2, ⟨h2, hc⟩, h3⟩
    refine ⟨l1, h1, ?_⟩
    rcases hc with rfl | rfl
    · rw [if_pos rfl] at h3
      obtain ⟨rfl, rfl⟩ := runs_pure.mp h3
      exact .inl ⟨h2, rfl⟩
    · rw [if_neg (by decide)] at h3
      simp only [runs_bind, runs_remaining] at h3
      obtain ⟨n, _, ⟨rfl, rfl⟩, h3⟩ := h3
      exact .inr ((objectCBLoop_iff h2 (by omega)).mp h3)
  · rintro ⟨l1, h1, ⟨h2, rfl⟩ | h3⟩
    · exact ⟨_, l1, ⟨h1, rfl⟩, 0x7D, r, ⟨h2, .inl rfl⟩, by rw [if_pos rfl]; exact runs_pure.mpr ⟨rfl, rfl⟩⟩
    · obtain ⟨_, _, ⟨l4, k', l5, h5, _, _⟩, _⟩ := chain_iff.mp h3
      refine ⟨_, l1, ⟨h1, rfl⟩, 0x22, l4, ⟨h5, .inr rfl⟩, ?_⟩
      rw [if_neg (by decide)]
      simp only [runs_bind, runs_remaining]
      exact ⟨_, _, ⟨rfl, rfl⟩, (objectCBLoop_iff h5 (by omega)).mpr h3⟩

theorem readObjectMore_iff {o : Option (List Byte)} {l r : List Byte} :
    Runs ReadObjectMore env l o r ↔ (o = none ∧ dropWs l = 0x7D :: r) ∨
      (∃ k l1 l2, o = some k ∧ dropWs l = 0x2C :: l1 ∧ dropWs l1 = 0x22 :: l2 ∧ Runs readObjectField env l2 k r) := by
  unfold ReadObjectMore
  simp only [runs_bind, runs_token_two]
  constructor
  · rintro ⟨c, l1, ⟨h1, rfl | rfl⟩, h2⟩
    · simp at h2; obtain ⟨rfl, rfl⟩ := h2; exact .inl ⟨rfl, h1⟩
    · rw [if_neg (by decide)] at h2
      simp only [runs_bind, runs_token_one, runs_pure] at h2
      obtain ⟨_, l2, ⟨h2, rfl⟩, k, l3, h3, rfl, rfl⟩ := h2
      exact .inr ⟨k, l1, l2, rfl, h1, h2, h3⟩
  · rintro (⟨rfl, h1⟩ | ⟨k, l1, l2, rfl, h1, h2, h3⟩)
    · exact ⟨_, r, ⟨h1, .inl rfl⟩, by simp⟩
    · refine ⟨_, l1, ⟨h1, .inr rfl⟩, ?_⟩
      rw [if_neg (by decide)]
      simp only [runs_bind, runs_token_one, runs_pure]
      exact ⟨_, l2, ⟨h2, rfl⟩, k, r, h3, rfl, rfl⟩

theorem readObjectBegin_iff {o : Option (List Byte)} {l r : List Byte} :
    Runs ReadObjectBegin env l o r ↔ ∃ l1, dropWs l = 0x7B :: l1 ∧ ((o = none ∧ dropWs l1 = 0x7D :: r) ∨
      (∃ k l2, o = some k ∧ dropWs l1 = 0x22 :: l2 ∧ Runs readObjectField env l2 k r)) := by
  unfold ReadObjectBegin
  simp only [runs_bind, runs_token_one, runs_token_two]
  constructor
  · rintro ⟨_, l1, ⟨h1, rfl⟩, c, l2, ⟨h2, rfl | rfl⟩, h3⟩
    · simp at h3; obtain ⟨rfl, rfl⟩ := h3; exact ⟨l1, h1, .inl ⟨rfl, h2⟩⟩
    · rw [if_neg (by decide)] at h3
      simp only [runs_bind, runs_pure] at h3
      obtain ⟨k, l3, h3, rfl, rfl⟩ := h3
      exact ⟨l1, h1, .inr ⟨k, l2, rfl, h2, h3⟩⟩
  · rintro ⟨l1, h1, ⟨rfl, h2⟩ | ⟨k, l2, rfl, h2, h3⟩⟩
    · exact ⟨_, l1, ⟨h1, rfl⟩, _, r, ⟨h2, .inl rfl⟩, by simp⟩
    · refine ⟨_, l1, ⟨h1, rfl⟩, _, l2, ⟨h2, .inr rfl⟩, ?_⟩
      rw [if_neg (by decide)]
      simp only [runs_bind, runs_pure]
      exact ⟨k, r, h3, rfl, rfl⟩

theorem forObjectLoop_iff {n : Nat} {s s' : S} {k l0 l1 l r : List Byte} (h0 : dropWs l0 = 0x22 :: l1)
    (hk : Runs readObjectField env l1 k l) (hl : l.length < n) :
    Runs (forObjectLoop cbo (n + 1) (some k) s) env l s' r ↔ Chain (CallO env cbo) 0x7D s l0 s' r := by
  induction n generalizing s k l0 l1 l with
  | zero => omega
  | succ n ih =>
    rw [chain_iff]
    rw [forObjectLoop]
    simp only [runs_bind, readObjectMore_iff]
    constructor
    · rintro ⟨s1, l2, h1, o, l3, (⟨rfl, h2⟩ | ⟨k', l4, l5, rfl, h2, h3, h4⟩), h5⟩
      · simp [forObjectLoop] at h5
        obtain ⟨rfl, rfl⟩ := h5
        exact ⟨_, l2, ⟨l1, k, l, h0, hk, h1⟩, .inl ⟨h2, rfl⟩⟩
      · refine ⟨s1, l2, ⟨l1, k, l, h0, hk, h1⟩, .inr ⟨l4, h2, ?_⟩⟩
        have := Runs.length_le h1
        have := dropWs_length h2
        have := dropWs_length h3
        have := Runs.length_le h4
        exact (ih h3 h4 (by omega)).mp h5
    · rintro ⟨s1, l2, ⟨l1', k', l', h0', hk', h1⟩, h2⟩
      rw [h0] at h0'
      cases h0'
      rw [Runs] at hk hk'
      rw [hk] at hk'
      cases hk'
      refine ⟨s1, l2, h1, ?_⟩
      rcases h2 with ⟨h2, rfl⟩ | ⟨l3, h2, h3⟩
      · exact ⟨none, r, .inl ⟨rfl, h2⟩, by simp [forObjectLoop]⟩
      · obtain ⟨_, _, ⟨l4, k', l5, h5, h6, _⟩, _⟩ := chain_iff.mp h3
        refine ⟨some k', l5, .inr ⟨k', l3, l4, rfl, h2, h5, h6⟩, ?_⟩
        have := Runs.length_le h1
        have := dropWs_length h2
        have := dropWs_length h5
        have := Runs.length_le h6
        exact (ih h5 h6 (by omega)).mpr h3

theorem forObject_iff {s s' : S} {l r : List Byte} :
    Runs (forObject cbo s) env l s' r ↔ ObjectRun (CallO env cbo) s l s' r := by
  unfold forObject ObjectRun
  simp only [runs_bind, readObjectBegin_iff, runs_remaining]
  constructor
  · rintro ⟨o, l2, ⟨l1, h1, ⟨rfl, h2⟩ | ⟨k, l3, rfl, h2, h3⟩⟩, n, _, ⟨rfl, rfl⟩, h4⟩
    · simp [forObjectLoop] at h4
      obtain ⟨rfl, rfl⟩ := h4
      exact ⟨l1, h1, .inl ⟨h2, rfl⟩⟩
    · exact ⟨l1, h1, .inr ((forObjectLoop_iff h2 h3 (by omega)).mp h4)⟩
  · rintro ⟨l1, h1, ⟨h2, rfl⟩ | h3⟩
    · exact ⟨none, r, ⟨l1, h1, .inl ⟨rfl, h2⟩⟩, _, r, ⟨rfl, rfl⟩, by simp [forObjectLoop]⟩
    · obtain ⟨_, _, ⟨l4, k', l5, h5, h6, _⟩, _⟩ := chain_iff.mp h3
      exact ⟨some k', l5, ⟨l1, h1, .inr ⟨k', l4, rfl, h5, h6⟩⟩, _, _, ⟨rfl, rfl⟩,
        (forObjectLoop_iff h5 h6 (by omega)).mpr h3⟩

/-! ## Items that are values -/

variable {e : Err}

theorem endsAt_ws {t : List Byte} {v : JVal} (h : Value t v) {w : List Byte} (hw : Ws w) {c : Byte}
    (hc : c = 0x2C ∨ c = 0x5D ∨ c = 0x7D) (r : List Byte) : EndsAt e t (w ++ c :: r) :=
  (endsAt_iff (env := ⟨e, 0⟩) h).mp (ends_ws h hw hc r)

/-- One item is a value. -/
def ItemA (e : Err) (G : S → JVal → S → Prop) (s : S) (l : List Byte) (s' : S) (r : List Byte) : Prop :=
  ∃ t v, Value t v ∧ Split e l t r ∧ G s v s'

theorem chainA_iff {G : S → JVal → S → Prop} {s s' : S} {l r : List Byte} :
    Chain (ItemA e G) 0x5D s l s' r ↔ ∃ b vs, Elems b vs ∧ l = b ++ 0x5D :: r ∧ Visits G s vs s' := by
  constructor
  · intro h
    induction h with
    | last h hd =>
      obtain ⟨t, v, hv, ⟨w, hw, rfl, he⟩, hg⟩ := h
      obtain ⟨w2, hw2, _, rfl⟩ := dropWs_eq_cons.mp hd
      exact ⟨_, [v], .one w t w2 v hw hv hw2, by simp, .cons hg (.nil _)⟩
    | more h hd _ ih =>
      obtain ⟨t, v, hv, ⟨w, hw, rfl, he⟩, hg⟩ := h
      obtain ⟨w2, hw2, _, rfl⟩ := dropWs_eq_cons.mp hd
      obtain ⟨b, vs, hb, rfl, hvs⟩ := ih
      exact ⟨_, v :: vs, .cons w t w2 b v vs hw hv hw2 hb, by simp, .cons hg hvs⟩
  · rintro ⟨b, vs, hb, rfl, hvs⟩
    have : ∀ b vs, Elems b vs → ∀ s, Visits G s vs s' → Chain (ItemA e G) 0x5D s (b ++ 0x5D :: r) s' r := by
      intro b vs hb
      induction hb using Elems.rec (motive_1 := fun _ _ _ => True) (motive_3 := fun _ _ _ => True) with
      | one w1 t w2 v h1 h h2 =>
        rintro s (_ | ⟨hg, hr⟩)
        cases hr
        exact .last (l1 := w2 ++ 0x5D :: r) ⟨t, v, h, ⟨w1, h1, by simp, endsAt_ws h h2 (by simp) r⟩, hg⟩
          (dropWs_ws h2 (by decide) r)
      | cons w1 t w2 rest v vs h1 h h2 hr _ ih =>
        rintro s (_ | ⟨hg, hvs⟩)
        exact .more (l1 := w2 ++ 0x2C :: (rest ++ 0x5D :: r))
          ⟨t, v, h, ⟨w1, h1, by simp, endsAt_ws h h2 (by simp) _⟩, hg⟩ (dropWs_ws h2 (by decide) _) (ih _ hvs)
      | _ => trivial
    exact this b vs hb s hvs

theorem not_number_open {c : Byte} (hc : c = 0x5B ∨ c = 0x7B) {l : List Byte} : ¬ Number (c :: l) := by
  intro h
  obtain ⟨c', u, h1, h2⟩ := number_head h
  cases h1
  rcases hc with rfl | rfl
  · revert h2; decide
  · revert h2; decide

theorem value_not_close {c : Byte} {t : List Byte} {v : JVal} (h : Value (c :: t) v) : c ≠ 0x5D := by
  rintro rfl
  cases h with
  | num _ h => obtain ⟨c', u, h1, h2⟩ := number_head h; cases h1; revert h2; decide
  | str _ _ h => obtain ⟨b, _, h⟩ := h; cases h

theorem arrayRun_iff {G : S → JVal → S → Prop} {s s' : S} {l r : List Byte} :
    ArrayRun (ItemA e G) s l s' r ↔ ∃ t vs, Value t (.arr vs) ∧ Split e l t r ∧ Visits G s vs s' := by
  unfold ArrayRun
  constructor
  · rintro ⟨l1, h1, h2⟩
    obtain ⟨w, hw, _, rfl⟩ := dropWs_eq_cons.mp h1
    rcases h2 with ⟨h2, rfl⟩ | ⟨c, l2, h2, hc, h3⟩
    · obtain ⟨w2, hw2, _, rfl⟩ := dropWs_eq_cons.mp h2
      exact ⟨_, [], .arrEmpty w2 hw2, ⟨w, hw, by simp, fun h => absurd h (not_number_open (.inl rfl))⟩, .nil _⟩
    · obtain ⟨b, vs, hb, h4, h5⟩ := chainA_iff.mp h3
      obtain ⟨w2, hw2, _, rfl⟩ := dropWs_eq_cons.mp h2
      have hb' : Elems (w2 ++ b) vs := by
        cases hb with
        | one w1 t w2' v h1 h h2' =>
          have := Elems.one (w2 ++ w1) t w2' v (ws_append hw2 h1) h h2'
          simpa using this
        | cons w1 t w2' rest v vs h1 h h2' hr =>
          have := Elems.cons (w2 ++ w1) t w2' rest v vs (ws_append hw2 h1) h h2' hr
          simpa using this
      exact ⟨_, vs, .arr _ vs hb', ⟨w, hw, by rw [h4]; simp, fun h => absurd h (not_number_open (.inl rfl))⟩, h5⟩
  · rintro ⟨t, vs, hv, ⟨w, hw, rfl, _⟩, hvis⟩
    cases hv with
    | arrEmpty w2 hw2 =>
      cases hvis
      exact ⟨w2 ++ 0x5D :: r, by simpa using dropWs_ws hw (by decide) _, .inl ⟨dropWs_ws hw2 (by decide) r, rfl⟩⟩
    | arr b vs hb =>
      refine ⟨b ++ 0x5D :: r, by simpa using dropWs_ws hw (by decide) _, .inr ?_⟩
      cases hb with
      | one w1 t w2' v h1 h h2' =>
        obtain ⟨c, t', rfl, hc⟩ := value_cons h
        refine ⟨c, t' ++ (w2' ++ 0x5D :: r), by simpa using dropWs_ws h1 hc _, value_not_close h, ?_⟩
        have := chainA_iff (e := e) (r := r).mpr ⟨_, _, .one [] (c :: t') w2' v ws_nil h h2', rfl, hvis⟩
        simpa using this
      | cons w1 t w2' rest v vs h1 h h2' hr =>
        obtain ⟨c, t', rfl, hc⟩ := value_cons h
        refine ⟨c, t' ++ (w2' ++ 0x2C :: (rest ++ 0x5D :: r)), by simpa using dropWs_ws h1 hc _, value_not_close h, ?_⟩
        have := chainA_iff (e := e) (r := r).mpr ⟨_, _, .cons [] (c :: t') w2' rest v vs ws_nil h h2' hr, rfl, hvis⟩
        simpa using this

/-- One member: its name, and its value. -/
def ItemO (e : Err) (G : S → List Byte × JVal → S → Prop) (s : S) (l : List Byte) (s' : S) (r : List Byte) : Prop :=
  ∃ w k w2 l2 key t v, Ws w ∧ Str k key ∧ Ws w2 ∧ l = w ++ (k ++ (w2 ++ 0x3A :: l2)) ∧ Value t v ∧ Split e l2 t r ∧
    G s (key, v) s'

theorem chainO_iff {G : S → List Byte × JVal → S → Prop} {s s' : S} {l r : List Byte} :
    Chain (ItemO e G) 0x7D s l s' r ↔ ∃ b ms, Members b ms ∧ l = b ++ 0x7D :: r ∧ Visits G s ms s' := by
  constructor
  · intro h
    induction h with
    | last h hd =>
      obtain ⟨w, k, w2, _, key, t, v, hw, hk, hw2, rfl, hv, ⟨w3, hw3, rfl, he⟩, hg⟩ := h
      obtain ⟨w4, hw4, _, rfl⟩ := dropWs_eq_cons.mp hd
      exact ⟨_, [(key, v)], .single w k w2 w3 t w4 key v hw hk hw2 hw3 hv hw4, by simp, .cons hg (.nil _)⟩
    | more h hd _ ih =>
      obtain ⟨w, k, w2, _, key, t, v, hw, hk, hw2, rfl, hv, ⟨w3, hw3, rfl, he⟩, hg⟩ := h
      obtain ⟨w4, hw4, _, rfl⟩ := dropWs_eq_cons.mp hd
      obtain ⟨b, ms, hb, rfl, hvs⟩ := ih
      exact ⟨_, (key, v) :: ms, .more w k w2 w3 t w4 b key v ms hw hk hw2 hw3 hv hw4 hb, by simp, .cons hg hvs⟩
  · rintro ⟨b, ms, hb, rfl, hvs⟩
    have : ∀ b ms, Members b ms → ∀ s, Visits G s ms s' → Chain (ItemO e G) 0x7D s (b ++ 0x7D :: r) s' r := by
      intro b ms hb
      induction hb using Members.rec (motive_1 := fun _ _ _ => True) (motive_2 := fun _ _ _ => True) with
      | single w1 k w2 w3 t w4 key v h1 hk h2 h3 h h4 =>
        rintro s (_ | ⟨hg, hr⟩)
        cases hr
        exact .last (l1 := w4 ++ 0x7D :: r)
          ⟨w1, k, w2, _, key, t, v, h1, hk, h2, by simp, h, ⟨w3, h3, rfl, endsAt_ws h h4 (by simp) r⟩, hg⟩
          (dropWs_ws h4 (by decide) r)
      | more w1 k w2 w3 t w4 rest key v ms h1 hk h2 h3 h h4 hr _ ih =>
        rintro s (_ | ⟨hg, hvs⟩)
        exact .more (l1 := w4 ++ 0x2C :: (rest ++ 0x7D :: r))
          ⟨w1, k, w2, _, key, t, v, h1, hk, h2, by simp, h, ⟨w3, h3, rfl, endsAt_ws h h4 (by simp) _⟩, hg⟩
          (dropWs_ws h4 (by decide) _) (ih _ hvs)
      | _ => trivial
    exact this b ms hb s hvs

theorem objectRun_iff {G : S → List Byte × JVal → S → Prop} {s s' : S} {l r : List Byte} :
    ObjectRun (ItemO e G) s l s' r ↔ ∃ t ms, Value t (.obj ms) ∧ Split e l t r ∧ Visits G s ms s' := by
  unfold ObjectRun
  constructor
  · rintro ⟨l1, h1, h2⟩
    obtain ⟨w, hw, _, rfl⟩ := dropWs_eq_cons.mp h1
    rcases h2 with ⟨h2, rfl⟩ | h3
    · obtain ⟨w2, hw2, _, rfl⟩ := dropWs_eq_cons.mp h2
      exact ⟨_, [], .objEmpty w2 hw2, ⟨w, hw, by simp, fun h => absurd h (not_number_open (.inr rfl))⟩, .nil _⟩
    · obtain ⟨b, ms, hb, rfl, h5⟩ := chainO_iff.mp h3
      exact ⟨_, ms, .obj _ ms hb, ⟨w, hw, by simp, fun h => absurd h (not_number_open (.inr rfl))⟩, h5⟩
  · rintro ⟨t, ms, hv, ⟨w, hw, rfl, _⟩, hvis⟩
    cases hv with
    | objEmpty w2 hw2 =>
      cases hvis
      exact ⟨w2 ++ 0x7D :: r, by simpa using dropWs_ws hw (by decide) _, .inl ⟨dropWs_ws hw2 (by decide) r, rfl⟩⟩
    | obj b ms hb =>
      exact ⟨b ++ 0x7D :: r, by simpa using dropWs_ws hw (by decide) _, .inr (chainO_iff.mpr ⟨b, ms, hb, rfl, hvis⟩)⟩

/-- A member whose value is read by `R`. -/
theorem callO_iff {G : S → List Byte × JVal → S → Prop} {s s' : S} {l r : List Byte}
    (h : ∀ k l2, l2.length ≤ l.length → (Runs (cbo k s) env l2 s' r ↔ ∃ t v, Value t v ∧ Split e l2 t r ∧ G s (k, v) s')) :
    CallO env cbo s l s' r ↔ ItemO e G s l s' r := by
  unfold CallO ItemO
  simp only [readField_iff]
  constructor
  · rintro ⟨_, k, l2, h1, ⟨b, w2, hb, hw2, rfl⟩, h3⟩
    have hl := dropWs_length h1
    obtain ⟨w, hw, _, rfl⟩ := dropWs_eq_cons.mp h1
    obtain ⟨t, v, hv, hs, hg⟩ := (h k l2 (by simp; omega)).mp h3
    exact ⟨w, _, w2, l2, k, t, v, hw, ⟨b, hb, rfl⟩, hw2, by simp, hv, hs, hg⟩
  · rintro ⟨w, _, w2, l2, k, t, v, hw, ⟨b, hb, rfl⟩, hw2, rfl, hv, hs, hg⟩
    exact ⟨_, k, l2, by simpa using dropWs_ws hw (by decide) _, ⟨b, w2, hb, hw2, rfl⟩,
      (h k l2 (by simp; omega)).mpr ⟨t, v, hv, hs, hg⟩⟩

end

/-! ## From iterators to flat input -/

/-- Every flat environment is that of some iterator. -/
theorem exists_it {env : Env} {l : List Byte} (hl : l.length ≤ env.total) :
    ∃ it : It, Unread it l env.endErr ∧ it.env = env := by
  obtain ⟨e, total⟩ := env
  let script : List RdRes := if e = .eof then [] else [⟨[], some e⟩]
  let it : It := { buf := l, head := 0, offset := total - l.length, capture := false, reader := some script }
  have hd : Delivers script [] e := by
    by_cases h1 : e = .eof
    · simp only [script, h1, if_true]; exact .done
    · simp only [script, h1, if_false]; exact .broken [] e [] [] .eof h1 .done
  have hu : Unread it l e := ⟨Nat.zero_le _, [], hd, by simp [it]⟩
  refine ⟨it, hu, ?_⟩
  obtain ⟨_, h2, h3⟩ := unread_iff.mp hu
  have : it.total = total := by
    unfold It.total
    rw [h2]
    simp only [it] at hl ⊢
    omega
  unfold It.env
  rw [h3, this]

/-- If a program behaves as `P` on every iterator, it does so on flat input. -/
theorem flat_of_iter {α : Type} {p : Prog α} {e : Err} {P : List Byte → α → List Byte → Prop}
    (h : ∀ (it : It) (l : List Byte), Unread it l e →
      ∀ a r, (∃ it', p.runM it = (.ok a, it') ∧ Unread it' r e) ↔ P l a r)
    {env : Env} (he : env.endErr = e) {l : List Byte} (hl : l.length ≤ env.total) {a : α} {r : List Byte} :
    Runs p env l a r ↔ P l a r := by
  obtain ⟨it, hu, henv⟩ := exists_it hl
  rw [← henv, ← runM_iff (he ▸ hu)]
  exact h it l (he ▸ hu) a r

end Jzon
