import Verif.Proof.Container
import Verif.Proof.Int
import Verif.Spec.Typed

/-!
# Typed decoding: the frame of the proofs
-/

set_option linter.unusedSimpArgs false

namespace Jzon

open Spec

/-- A program reads the texts of the relation `P`, with the given results. -/
structure Impl {V : Type} (env : Env) (p : Prog V) (P : List Byte → V → Prop) : Prop where
  sound : ∀ {l v r}, Runs p env l v r → ∃ w t, Ws w ∧ l = w ++ (t ++ r) ∧ P t v
  complete : ∀ {l t v r}, P t v → Split env.endErr l t r → Runs p env l v r
  head : ∀ {t v}, P t v → ∃ c u, t = c :: u ∧ isWs c = false ∧ c ≠ 0x5D ∧ c ≠ 0x7D ∧ (c = 0x6E → t = nullText)

/-! ## Ends of values -/

/-- The bytes that may follow a value in an array or an object, or in a quoted string. -/
def Delim (c : Byte) : Prop := c = 0x2C ∨ c = 0x5D ∨ c = 0x7D ∨ c = 0x3A ∨ c = 0x22

theorem delim_notNum {c : Byte} (h : Delim c ∨ isWs c = true) : ¬ NumByte c := by
  revert c; unfold Delim NumByte; apply forall_byte; decide +kernel

theorem endsAt_cons {e : Err} {t r : List Byte} {c : Byte} (hc : Delim c ∨ isWs c = true) : EndsAt e t (c :: r) :=
  fun h => ⟨final_of_notNext h (notNext_cons.mpr (delim_notNum hc)), fun h => by cases h⟩

theorem endsAt_delim {e : Err} {t w r : List Byte} {c : Byte} (hw : Ws w) (hc : Delim c) : EndsAt e t (w ++ c :: r) := by
  cases w with
  | nil => exact endsAt_cons (.inl hc)
  | cons x w => exact endsAt_cons (.inr (isWs_iff.mpr (hw x (by simp))))

theorem endsAt_end {t w : List Byte} (hw : Ws w) : EndsAt .eof t w := by
  cases w with
  | nil => exact fun h => ⟨fun c r' h => (by cases h), fun _ => rfl⟩
  | cons x w => exact endsAt_cons (.inr (isWs_iff.mpr (hw x (by simp))))

theorem endsAt_of_not {e : Err} {t r : List Byte} (h : ¬ Number t) : EndsAt e t r := fun h' => absurd h' h

/-! ## Lists of items -/

section
variable {S : Type} {R : S → List Byte → S → List Byte → Prop} {Q : S → List Byte → S → Prop} {close : Byte}

theorem chain_sound (h : ∀ s l s' r, R s l s' r → ∃ w t, Ws w ∧ l = w ++ (t ++ r) ∧ Q s t s') {s s' : S} {l r : List Byte}
    (hc : Chain R close s l s' r) : ∃ b ts, Items b ts ∧ l = b ++ close :: r ∧ Visits Q s ts s' := by
  induction hc with
  | last h1 hd =>
    obtain ⟨w, t, hw, rfl, hq⟩ := h _ _ _ _ h1
    obtain ⟨w2, hw2, _, rfl⟩ := dropWs_eq_cons.mp hd
    exact ⟨_, [t], .one w t w2 hw hw2, by simp, .cons hq (.nil _)⟩
  | more h1 hd _ ih =>
    obtain ⟨w, t, hw, rfl, hq⟩ := h _ _ _ _ h1
    obtain ⟨w2, hw2, _, rfl⟩ := dropWs_eq_cons.mp hd
    obtain ⟨b, ts, hb, rfl, hvs⟩ := ih
    exact ⟨_, t :: ts, .cons w t w2 b ts hw hw2 hb, by simp, .cons hq hvs⟩

theorem chain_complete (hclose : close = 0x5D ∨ close = 0x7D)
    (h : ∀ s w t w2 c r s', Q s t s' → Ws w → Ws w2 → (c = 0x2C ∨ c = close) → R s (w ++ (t ++ (w2 ++ c :: r))) s' (w2 ++ c :: r))
    {b : List Byte} {ts : List (List Byte)} (hb : Items b ts) {s s' : S} (hv : Visits Q s ts s') (r : List Byte) :
    Chain R close s (b ++ close :: r) s' r := by
  have hcl : isWs close = false := by rcases hclose with rfl | rfl <;> rfl
  induction hb generalizing s with
  | one w t w2 h1 h2 =>
    rcases hv with _ | ⟨hq, hr⟩
    cases hr
    have := h _ w t w2 close r _ hq h1 h2 (.inr rfl)
    exact .last (l1 := w2 ++ close :: r) (by simpa using this) (dropWs_ws h2 hcl r)
  | cons w t w2 b ts h1 h2 hb ih =>
    rcases hv with _ | ⟨hq, hr⟩
    have := h _ w t w2 0x2C (b ++ close :: r) _ hq h1 h2 (.inl rfl)
    exact .more (l1 := w2 ++ 0x2C :: (b ++ close :: r)) (by simpa using this) (dropWs_ws h2 (by decide) _) (ih hr)

theorem items_ws {w b : List Byte} {ts : List (List Byte)} (hw : Ws w) (h : Items b ts) : Items (w ++ b) ts := by
  cases h with
  | one w1 t w2 h1 h2 =>
    have := Items.one (w ++ w1) t w2 (ws_append hw h1) h2
    simpa using this
  | cons w1 t w2 b ts h1 h2 hb =>
    have := Items.cons (w ++ w1) t w2 b ts (ws_append hw h1) h2 hb
    simpa using this

/-- The items of a bracketed list are shorter than it. -/
theorem items_length {b : List Byte} {ts : List (List Byte)} (h : Items b ts) : ∀ t ∈ ts, t.length ≤ b.length := by
  induction h with
  | one w1 t w2 h1 h2 => simp; omega
  | cons w1 t w2 b ts h1 h2 hb ih =>
    intro u hu
    rcases List.mem_cons.mp hu with rfl | hu
    · simp; omega
    · have := ih u hu
      simp; omega

theorem enclosed_length {o c : Byte} {t : List Byte} {ts : List (List Byte)} (h : Enclosed o c t ts) : ∀ u ∈ ts, u.length < t.length := by
  cases h with
  | empty => simp
  | items b ts h =>
    intro u hu
    have := items_length h u hu
    simp; omega

theorem enclosed_head {o c : Byte} {t : List Byte} {ts : List (List Byte)} (h : Enclosed o c t ts) : ∃ u, t = o :: u := by
  cases h with
  | empty => exact ⟨_, rfl⟩
  | items b ts h => exact ⟨_, rfl⟩

/-- A bracketed list, from the byte behind the opening bracket. -/
def Body (R : S → List Byte → S → List Byte → Prop) (close : Byte) (s : S) (l : List Byte) (s' : S) (r : List Byte) : Prop :=
  (dropWs l = close :: r ∧ s' = s) ∨ ∃ c l2, dropWs l = c :: l2 ∧ c ≠ close ∧ Chain R close s (c :: l2) s' r

theorem body_sound (h : ∀ s l s' r, R s l s' r → ∃ w t, Ws w ∧ l = w ++ (t ++ r) ∧ Q s t s') {s s' : S} {l r : List Byte}
    (o : Byte) (hb : Body R close s l s' r) : ∃ t ts, Enclosed o close t ts ∧ o :: l = t ++ r ∧ Visits Q s ts s' := by
  rcases hb with ⟨hd, rfl⟩ | ⟨c, l2, hd, _, hc⟩
  · obtain ⟨w, hw, _, rfl⟩ := dropWs_eq_cons.mp hd
    exact ⟨_, [], .empty w hw, by simp, .nil _⟩
  · obtain ⟨b, ts, hb, hl, hv⟩ := chain_sound h hc
    obtain ⟨w, hw, _, rfl⟩ := dropWs_eq_cons.mp hd
    exact ⟨_, ts, .items (w ++ b) ts (items_ws hw hb), by rw [hl]; simp, hv⟩

theorem body_complete (hclose : close = 0x5D ∨ close = 0x7D)
    (hhead : ∀ s t s', Q s t s' → ∃ c u, t = c :: u ∧ isWs c = false ∧ c ≠ close)
    (h : ∀ s w t w2 c r s', Q s t s' → Ws w → Ws w2 → (c = 0x2C ∨ c = close) → R s (w ++ (t ++ (w2 ++ c :: r))) s' (w2 ++ c :: r))
    {o : Byte} {l t r : List Byte} {ts : List (List Byte)} (he : Enclosed o close t ts) (hl : o :: l = t ++ r) {s s' : S}
    (hv : Visits Q s ts s') : Body R close s l s' r := by
  have hcl : isWs close = false := by rcases hclose with rfl | rfl <;> rfl
  cases he with
  | empty w hw =>
    cases hv
    simp at hl
    subst hl
    exact .inl ⟨dropWs_ws hw hcl r, rfl⟩
  | items b ts hb =>
    simp at hl
    subst hl
    right
    cases hb with
    | one w t w2 h1 h2 =>
      have hv' := hv
      rcases hv' with _ | ⟨hq, _⟩
      obtain ⟨c, u, rfl, hc, hn⟩ := hhead _ _ _ hq
      refine ⟨c, u ++ (w2 ++ close :: r), by simpa using dropWs_ws h1 hc _, hn, ?_⟩
      have := chain_complete hclose h (Items.one [] (c :: u) w2 ws_nil h2) hv r
      simpa using this
    | cons w t w2 b ts h1 h2 hb =>
      have hv' := hv
      rcases hv' with _ | ⟨hq, _⟩
      obtain ⟨c, u, rfl, hc, hn⟩ := hhead _ _ _ hq
      refine ⟨c, u ++ (w2 ++ 0x2C :: (b ++ close :: r)), by simpa using dropWs_ws h1 hc _, hn, ?_⟩
      have := chain_complete hclose h (Items.cons [] (c :: u) w2 b ts ws_nil h2 hb) hv r
      simpa using this

end

end Jzon
