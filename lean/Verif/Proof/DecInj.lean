import Verif.Proof.Lax

/-!
# Integer literals are determined by their values
-/

set_option linter.unusedSimpArgs false

namespace Jzon

open Spec

theorem decFrom_snoc (a : Nat) (t : List Byte) (d : Byte) : decFrom a (t ++ [d]) = decFrom a t * 10 + (d.toNat - 0x30) := by
  induction t generalizing a with
  | nil => simp [decFrom]
  | cons c t ih => simp [decFrom]

theorem dec_snoc (t : List Byte) (d : Byte) : dec (t ++ [d]) = dec t * 10 + (d.toNat - 0x30) := decFrom_snoc 0 t d

theorem dec_pos {d : Byte} {ds : List Byte} (hd : 0x31 ≤ d) : 0 < dec (d :: ds) := by
  have := decFrom_ge (0 * 10 + (d.toNat - 0x30)) ds
  have h2 : 0x31 ≤ d.toNat := by simpa [UInt8.le_iff_toNat_le] using hd
  rw [dec, decFrom_cons]
  omega

theorem digit_value {c c' : Byte} (h : Digit c) (h' : Digit c') (he : c.toNat - 0x30 = c'.toNat - 0x30) : c = c' := by
  have h1 : 0x30 ≤ c.toNat := by simpa [UInt8.le_iff_toNat_le] using h.1
  have h2 : 0x30 ≤ c'.toNat := by simpa [UInt8.le_iff_toNat_le] using h'.1
  exact UInt8.toNat_inj.mp (by omega)

theorem digit_small {c : Byte} (h : Digit c) : c.toNat - 0x30 < 10 := by
  have h1 : c.toNat ≤ 0x39 := by simpa [UInt8.le_iff_toNat_le] using h.2
  omega

theorem intPart_snoc {t : List Byte} (h : IntPart t) : ∃ s d, t = s ++ [d] ∧ Digit d ∧ (s = [] ∨ (IntPart s ∧ 0 < dec s)) := by
  cases h with
  | zero => exact ⟨[], 0x30, rfl, by decide, .inl rfl⟩
  | pos d ds hd hds =>
    have dd : Digit d := ⟨UInt8.le_trans (by decide) hd.1, hd.2⟩
    rcases List.eq_nil_or_concat ds with rfl | ⟨s, e, rfl⟩
    · exact ⟨[], d, rfl, dd, .inl rfl⟩
    · simp only [List.concat_eq_append] at hds ⊢
      exact ⟨d :: s, e, rfl, hds e (by simp), .inr ⟨.pos d s hd fun c hc => hds c (by simp [hc]), dec_pos hd.1⟩⟩

theorem dec_inj {t t' : List Byte} (h : IntPart t) (h' : IntPart t') (he : dec t = dec t') : t = t' := by
  obtain ⟨n, hn⟩ : ∃ n, t.length ≤ n := ⟨_, Nat.le_refl _⟩
  induction n generalizing t t' with
  | zero =>
    cases t with
    | nil => cases h
    | cons => cases hn
  | succ n ih =>
    obtain ⟨s, d, rfl, hd, hs⟩ := intPart_snoc h
    obtain ⟨s', d', rfl, hd', hs'⟩ := intPart_snoc h'
    rw [dec_snoc, dec_snoc] at he
    have h1 := digit_small hd
    have h2 := digit_small hd'
    obtain rfl : d = d' := digit_value hd hd' (by omega)
    have h3 : dec s = dec s' := by omega
    rcases hs with rfl | ⟨hs, hp⟩
    · rcases hs' with rfl | ⟨hs', hp'⟩
      · rfl
      · simp [dec, decFrom] at h3 hp'
        omega
    · rcases hs' with rfl | ⟨hs', hp'⟩
      · simp [dec, decFrom] at h3 hp
        omega
      · rw [ih hs hs' h3 (by simp at hn; omega)]

/-- The only literals with the same value are those of zero. -/
theorem intLit_inj {w : Nat} {t t' : List Byte} {z : Int} (h : IntLit w t z) (h' : IntLit w t' z) :
    t = t' ∨ (t = [0x30] ∧ t' = [0x2D, 0x30]) ∨ (t = [0x2D, 0x30] ∧ t' = [0x30]) := by
  obtain ⟨ds, hs, hi, _⟩ := h
  obtain ⟨ds', hs', hi', _⟩ := h'
  have zero : ∀ {t : List Byte}, IntPart t → dec t = 0 → t = [0x30] := fun h h0 => dec_inj h .zero (by rw [h0]; decide)
  generalize hz' : z = z' at hs
  cases hs with
  | pos =>
    cases hs' with
    | pos => exact .inl (dec_inj hi hi' (by omega))
    | neg =>
      have h1 := zero hi (by omega)
      have h2 := zero hi' (by omega)
      rw [h1, h2]
      exact .inr (.inl ⟨rfl, rfl⟩)
  | neg =>
    cases hs' with
    | pos =>
      have h1 := zero hi (by omega)
      have h2 := zero hi' (by omega)
      rw [h1, h2]
      exact .inr (.inr ⟨rfl, rfl⟩)
    | neg => exact .inl (by rw [dec_inj hi hi' (by omega)])

theorem uintLit_inj {w : Nat} {t t' : List Byte} {z : Int} (h : UintLit w t z) (h' : UintLit w t' z) : t = t' := by
  obtain ⟨h1, _, h2⟩ := h
  obtain ⟨h3, _, h4⟩ := h'
  exact dec_inj h1 h3 (by omega)

end Jzon
