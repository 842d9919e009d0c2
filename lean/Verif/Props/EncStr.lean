import Verif.Proof.Stream
import Verif.Props.Str
import Verif.Props.EncInt

/-!
# C17, C18: string encoding
-/

set_option linter.unusedSimpArgs false

namespace Jzon.Props

open Spec Jzon

/-! ## C17 -/

/-- **C17.**  `String` appends (after a comma if needed) a string of the JSON grammar, made of allowed characters only:
no control character, no U+2028 or U+2029, valid UTF-8, and no `<`, `>`, `&` if HTML escaping is on.  It denotes the
argument with invalid bytes replaced. -/
theorem C17_string (s : Streamer) (hs : s.error = none) (x : List Byte) :
    ∃ t x', s.call (.string x) = { s with buffer := s.buffer ++ (if s.poped then [0x2C] else []) ++ t, poped := true } ∧
      Str t x' ∧ Sanitized x x' ∧ ∃ ns : List Nat, (∀ n ∈ ns, OutChar s.html n) ∧ t = ns.flatMap utf8 := by
  obtain ⟨x', h1, h2, ns, h3, h4⟩ := pieces_spec s.html (n := x.length + 1) (l := x) (by omega)
  have hq : OutChar s.html 0x22 := ⟨.inl (by decide), by decide, by decide, by decide, fun _ => by decide⟩
  refine ⟨quotedStr s.html x, x', writeVal_eq hs fun b => encodeString_quoted b x s.html, ⟨_, h2, rfl⟩, h1,
    0x22 :: (ns ++ [0x22]), ?_, ?_⟩
  · intro n hn
    simp at hn
    rcases hn with rfl | hn | rfl
    · exact hq
    · exact h3 n hn
    · exact hq
  · rw [quotedStr, h4]
    simp [utf8]

/-- **C17**, for member names. -/
theorem C17_field (s : Streamer) (hs : s.error = none) (x : List Byte) :
    ∃ t x', s.call (.field x) =
        { s with buffer := s.buffer ++ (if s.poped then [0x2C] else []) ++ t ++ [0x3A], poped := false } ∧
      Str t x' ∧ Sanitized x x' ∧ ∃ ns : List Nat, (∀ n ∈ ns, OutChar s.html n) ∧ t = ns.flatMap utf8 := by
  obtain ⟨t, x', h1, h2⟩ := C17_string s hs x
  refine ⟨t, x', ?_, h2⟩
  have h3 : s.call (.string x) = { s with buffer := s.buffer ++ (if s.poped then [0x2C] else []) ++ quotedStr s.html x, poped := true } :=
    writeVal_eq hs fun b => encodeString_quoted b x s.html
  rw [h3] at h1
  have h4 := congrArg Streamer.buffer h1
  simp only [List.append_cancel_left_eq] at h4
  simp [Streamer.call, Streamer.field, hs, onVal_eq, encodeString_quoted, h4, comma]

theorem utf8_bytes {html : Bool} {n : Nat} (h : OutChar html n) :
    ∀ c ∈ utf8 n, 0x20 ≤ c ∧ (html = true → c ≠ 0x3C ∧ c ≠ 0x3E ∧ c ≠ 0x26) := by
  obtain ⟨h1, h2, _, _, h5⟩ := h
  by_cases hn : n < 0x80
  · intro c hc
    simp [utf8, hn] at hc
    subst hc
    have hm : (UInt8.ofNat n).toNat = n := by simp; omega
    refine ⟨UInt8.le_iff_toNat_le.mpr (by rw [hm]; exact h2), fun hh => ?_⟩
    obtain ⟨a, b, c⟩ := h5 hh
    exact ⟨fun e => a (by rw [← hm, e]; rfl), fun e => b (by rw [← hm, e]; rfl), fun e => c (by rw [← hm, e]; rfl)⟩
  · intro c hc
    have := UInt8.le_iff_toNat_le.mp (utf8_high h1 (by omega) c hc)
    refine ⟨UInt8.le_iff_toNat_le.mpr (Nat.le_trans (by decide) this), fun _ => ⟨?_, ?_, ?_⟩⟩ <;>
      (rintro rfl; exact absurd this (by decide))

/-- **C17**, on bytes: whatever the string, the output has no raw control byte, and none of `<`, `>`, `&` with HTML
escaping on. -/
theorem C17_bytes (s : Streamer) (hs : s.error = none) (hb : s.buffer = []) (x : List Byte) :
    ∀ c ∈ (s.call (.string x)).buffer, 0x20 ≤ c ∧ (s.html = true → c ≠ 0x3C ∧ c ≠ 0x3E ∧ c ≠ 0x26) := by
  obtain ⟨t, x', h1, _, _, ns, h4, rfl⟩ := C17_string s hs x
  intro c hc
  simp only [h1, hb, List.nil_append, List.mem_append, List.mem_flatMap] at hc
  rcases hc with hc | ⟨n, hn, hc⟩
  · split at hc
    · simp at hc; subst hc; exact ⟨by decide, fun _ => by decide⟩
    · cases hc
  · exact utf8_bytes (h4 n hn) c hc

/-- Concrete case: markup, a control character, a line separator and an invalid byte. -/
example : ((Streamer.mk none [] none false true).call (.string [0x3C, 0x0A, 0xE2, 0x80, 0xA8, 0xFF])).buffer =
    bs! "\"\\u003c\\n\\u2028\\ufffd\"" := by decide +kernel

/-! ## C18 -/

/-- **C18.**  Reading a text that starts with the encoding of `x` returns `x` with every byte that belongs to no
character replaced by U+FFFD, and consumes exactly the encoding. -/
theorem C18_string (s : Streamer) (hs : s.error = none) (hb : s.buffer = []) (hp : s.poped = false) (x : List Byte) {it : It}
    {r : List Byte} {e : Err} (h : Unread it ((s.call (.string x)).buffer ++ r) e) :
    ∃ x' it', Sanitized x x' ∧ ReadString.runM it = (.ok x', it') ∧ Unread it' r e := by
  obtain ⟨t, x', h1, h2, h3, _⟩ := C17_string s hs x
  rw [h1] at h
  simp only [hb, hp, List.nil_append, Bool.false_eq_true, if_false] at h
  obtain ⟨it', h4, h5⟩ := (C13_readString_iff h).mpr ⟨[], t, ws_nil, h2, rfl⟩
  exact ⟨x', it', h3, h4, h5⟩

/-- **C18**, for valid UTF-8: the string itself. -/
theorem C18_valid (s : Streamer) (hs : s.error = none) (hb : s.buffer = []) (hp : s.poped = false) {x : List Byte}
    (hx : ValidUtf8 x) {it : It} {r : List Byte} {e : Err} (h : Unread it ((s.call (.string x)).buffer ++ r) e) :
    ∃ it', ReadString.runM it = (.ok x, it') ∧ Unread it' r e := by
  obtain ⟨x', it', h1, h2, h3⟩ := C18_string s hs hb hp x h
  rw [sanitized_unique h1 (sanitized_valid hx)] at h2
  exact ⟨it', h2, h3⟩

/-- **C18**: the replacement is a function of the string, leaves valid UTF-8 alone, and produces valid UTF-8. -/
theorem C18_sanitized (x : List Byte) :
    ∃ x', Sanitized x x' ∧ ValidUtf8 x' ∧ (∀ y, Sanitized x y → y = x') ∧ (ValidUtf8 x → x' = x) := by
  obtain ⟨x', h1, _⟩ := pieces_spec false (n := x.length + 1) (l := x) (by omega)
  exact ⟨x', h1, sanitized_utf8 h1, fun y h => sanitized_unique h h1, fun h => sanitized_unique h1 (sanitized_valid h)⟩

/-- Concrete case: an emoji and a quotation mark. -/
example (it : It) : ∃ it', ReadString.runM (it.resetBytes
    (((Streamer.mk none [] none false true).call (.string [0xF0, 0x9F, 0x98, 0x80, 0x22])).buffer ++ [])) =
      (.ok [0xF0, 0x9F, 0x98, 0x80, 0x22], it') := by
  obtain ⟨it', h, _⟩ := C18_valid (Streamer.mk none [] none false true) rfl rfl rfl (x := [0xF0, 0x9F, 0x98, 0x80, 0x22])
    ⟨[0x1F600, 0x22], (by intro n hn; simp at hn; rcases hn with rfl | rfl <;> unfold Scalar <;> omega), by decide +kernel⟩
    (unread_bytes it _)
  exact ⟨it', h⟩

end Jzon.Props
