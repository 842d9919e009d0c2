import Verif.Spec.Embed
import Verif.Proof.Clean

/-!
# Texts that can be put into a web page or a line
-/

set_option linter.unusedSimpArgs false

namespace Jzon

open Spec

section
variable {F : Type} {Γ : TyEnv F} {E : EncEnv F} {html : Bool}

theorem embeddable_nil : Embeddable html [] := ⟨[], by simp, rfl⟩

theorem embeddable_append {t u : List Byte} (ht : Embeddable html t) (hu : Embeddable html u) : Embeddable html (t ++ u) := by
  obtain ⟨ns, h1, rfl⟩ := ht
  obtain ⟨ms, h2, rfl⟩ := hu
  refine ⟨ns ++ ms, fun n hn => ?_, by simp⟩
  rcases List.mem_append.mp hn with h | h
  · exact h1 n h
  · exact h2 n h

/-- An ASCII character that may be written. -/
def PlainByte (c : Byte) : Bool := 0x20 ≤ c && c < 0x80 && c != 0x3C && c != 0x3E && c != 0x26

theorem embeddable_byte {c : Byte} (h : PlainByte c = true) : Embeddable html [c] := by
  simp only [PlainByte, Bool.and_eq_true, decide_eq_true_eq, bne_iff_ne, ne_eq] at h
  obtain ⟨⟨⟨⟨h1, h2⟩, h3⟩, h4⟩, h5⟩ := h
  have h1 : 0x20 ≤ c.toNat := UInt8.le_iff_toNat_le.mp h1
  have h2 : c.toNat < 0x80 := UInt8.lt_iff_toNat_lt.mp h2
  have hne : ∀ d : Byte, ¬ c = d → c.toNat ≠ d.toNat := fun d hd h => hd (UInt8.toNat_inj.mp h)
  refine ⟨[c.toNat], ?_, ?_⟩
  · intro n hn
    rw [List.mem_singleton.mp hn]
    exact ⟨.inl (by omega), h1, by omega, by omega, fun _ => ⟨hne _ h3, hne _ h4, hne _ h5⟩⟩
  · simp [utf8, h2]

theorem embeddable_plain {t : List Byte} (h : ∀ c ∈ t, PlainByte c = true) : Embeddable html t := by
  induction t with
  | nil => exact embeddable_nil
  | cons c t ih => exact embeddable_append (t := [c]) (embeddable_byte (h c (by simp))) (ih fun d hd => h d (by simp [hd]))

theorem embeddable_cons {c : Byte} {t : List Byte} (h : PlainByte c = true) (ht : Embeddable html t) : Embeddable html (c :: t) :=
  embeddable_append (t := [c]) (embeddable_byte h) ht

theorem embeddable_quotes {t : List Byte} (h : Embeddable html t) : Embeddable html (inQuotes t) :=
  embeddable_cons (by decide) (embeddable_append h (embeddable_byte (by decide)))

theorem plainByte_of {a b : Byte} (h : ∀ n : Nat, a.toNat ≤ n → n ≤ b.toNat → 0x20 ≤ n ∧ n < 0x80 ∧ n ≠ 0x3C ∧ n ≠ 0x3E ∧ n ≠ 0x26)
    {c : Byte} (h1 : a ≤ c) (h2 : c ≤ b) : PlainByte c = true := by
  obtain ⟨g1, g2, g3, g4, g5⟩ := h c.toNat (UInt8.le_iff_toNat_le.mp h1) (UInt8.le_iff_toNat_le.mp h2)
  simp only [PlainByte, Bool.and_eq_true, decide_eq_true_eq, bne_iff_ne, ne_eq]
  refine ⟨⟨⟨⟨UInt8.le_iff_toNat_le.mpr g1, UInt8.lt_iff_toNat_lt.mpr g2⟩, ?_⟩, ?_⟩, ?_⟩
  · rintro rfl; exact g3 rfl
  · rintro rfl; exact g4 rfl
  · rintro rfl; exact g5 rfl

theorem plainByte_digit {c : Byte} (h : Digit c) : PlainByte c = true :=
  plainByte_of (a := 0x30) (b := 0x39) (by intro n h1 h2; have : 0x30 ≤ n := h1; have : n ≤ 0x39 := h2; omega) h.1 h.2

theorem plainByte_base64 {c : Byte} (h : Base64Char c) : PlainByte c = true := by
  rcases h with h | h | h | rfl | rfl | rfl
  · exact plainByte_of (a := 0x41) (b := 0x5A) (by intro n h1 h2; have : 0x41 ≤ n := h1; have : n ≤ 0x5A := h2; omega) h.1 h.2
  · exact plainByte_of (a := 0x61) (b := 0x7A) (by intro n h1 h2; have : 0x61 ≤ n := h1; have : n ≤ 0x7A := h2; omega) h.1 h.2
  · exact plainByte_digit h
  · decide
  · decide
  · decide

theorem plainByte_number {u : List Byte} (h : Number u) : ∀ c ∈ u, PlainByte c = true := by
  have un : ∀ u, Unsigned u → ∀ c ∈ u, PlainByte c = true := by
    rintro u ⟨i, f, e, rfl, hi, hf, he⟩ c hc
    rcases List.mem_append.mp hc with hc | hc
    · cases hi with
      | zero => rw [List.mem_singleton.mp hc]; decide
      | pos d ds hd hds =>
        rcases List.mem_cons.mp hc with rfl | hc
        · exact plainByte_of (a := 0x31) (b := 0x39) (by intro n h1 h2; have : 0x31 ≤ n := h1; have : n ≤ 0x39 := h2; omega) hd.1 hd.2
        · exact plainByte_digit (hds c hc)
    rcases List.mem_append.mp hc with hc | hc
    · cases hf with
      | none => cases hc
      | some ds h =>
        rcases List.mem_cons.mp hc with rfl | hc
        · decide
        · exact plainByte_digit (h.2 c hc)
    · cases he with
      | none => cases hc
      | some e sign ds he hs h =>
        simp only [List.mem_cons, List.mem_append] at hc
        rcases hc with rfl | hc | hc
        · rcases he with rfl | rfl <;> decide
        · rcases hs with rfl | rfl | rfl
          · cases hc
          · simp at hc; subst hc; decide
          · simp at hc; subst hc; decide
        · exact plainByte_digit (h.2 c hc)
  rcases h with h | ⟨u, rfl, h⟩
  · exact un _ h
  · intro c hc
    rcases List.mem_cons.mp hc with rfl | hc
    · decide
    · exact un _ h c hc

theorem embeddable_number {u : List Byte} (h : Number u) : Embeddable html u := embeddable_plain (plainByte_number h)

theorem embeddable_stringText {s t : List Byte} (h : StringText html s t) : Embeddable html t := by
  obtain ⟨_, _, _, h⟩ := h
  exact h

theorem embeddable_joined {ts : List (List Byte)} (h : ∀ t ∈ ts, Embeddable html t) : Embeddable html (joined ts) := by
  induction ts with
  | nil => exact embeddable_nil
  | cons t ts ih =>
    cases ts with
    | nil => simpa [joined] using h t (by simp)
    | cons u us => exact embeddable_append (h t (by simp)) (embeddable_cons (by decide) (ih fun t ht => h t (by simp [ht])))

theorem embeddable_bracketed {a b : Byte} (ha : PlainByte a = true) (hb : PlainByte b = true) {ts : List (List Byte)}
    (h : ∀ t ∈ ts, Embeddable html t) : Embeddable html (bracketed a b ts) :=
  embeddable_cons ha (embeddable_append (embeddable_joined h) (embeddable_byte hb))

theorem embeddable_quotedIf {q : Bool} {t : List Byte} (h : Embeddable html t) : Embeddable html (quotedIf q t) := by
  cases q
  · exact h
  · exact embeddable_quotes h

theorem texts_embeddable (hB : ∀ l, ∀ c ∈ E.base64 l, Base64Char c) : Texts E html (Embeddable html) where
  null := embeddable_plain (by decide)
  bool q b := embeddable_quotedIf (embeddable_plain (by cases b <;> decide))
  str s t h := embeddable_stringText h
  int q z := embeddable_quotedIf (embeddable_number (decimalInt_number z))
  num f small big t hf ht := embeddable_number (floatText_number hf ht)
  base64 bytes := by
    refine embeddable_quotes (embeddable_plain ?_)
    split
    · simp
    · exact fun c hc => plainByte_base64 (hB bytes c hc)
  array ts h := embeddable_bracketed (by decide) (by decide) h
  object ts h := embeddable_bracketed (by decide) (by decide) fun t ht => by
    obtain ⟨k, u, hk, hu, rfl⟩ := h t ht
    refine embeddable_append ?_ (embeddable_cons (by decide) hu)
    rcases hk with ⟨s, hs⟩ | ⟨z, rfl⟩
    · exact embeddable_stringText hs
    · exact embeddable_quotes (embeddable_number (decimalInt_number z))

theorem encodes_embeddable (hB : ∀ l, ∀ c ∈ E.base64 l, Base64Char c) {T : Ty} {q : Bool} {v : Val F} {t : List Byte}
    (hc : ReadyMade (Embeddable html) (Embeddable html) Γ E T v) (h : Encodes Γ E html T q v t) : Embeddable html t :=
  encodes_holds (texts_embeddable hB) (readyMade_inherits (fun _ h => h) fun _ h => .inr h) hc h

end

end Jzon
