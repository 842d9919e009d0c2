import Verif.Spec.Marshal
import Verif.Proof.Stream

/-!
# Typed encoding: every encoder writes a text of its type
-/

set_option linter.unusedSimpArgs false

namespace Jzon

open Spec

section
variable {F : Type} {Γ : TyEnv F} {E : EncEnv F} {html : Bool}

/-- The streamer after a value has been written. -/
def put (s : Streamer) (t : List Byte) : Streamer := { s with buffer := s.buffer ++ comma s ++ t, poped := true }

/-- Unless it fails, the encoder writes a text related to the value, and `null` for a nil pointer. -/
structure Writes (html : Bool) (enc : ValEncoder F) (R : TextRel' F) : Prop where
  val : ∀ q v s, s.error = none → s.html = html → (enc.encode q (some v) s).error = none →
    ∃ t, R q v t ∧ enc.encode q (some v) s = put s t
  nil : ∀ q s, s.error = none → (enc.encode q none s).error = none → enc.encode q none s = put s nullText

theorem fail_error {s : Streamer} {e : EncErr} (hs : s.error = none) : (s.fail e).error = some e := by
  simp [Streamer.fail, hs]

theorem null_put {s : Streamer} (hs : s.error = none) : s.null = put s nullText := writeVal_eq hs fun _ => rfl
theorem raw_put {s : Streamer} (hs : s.error = none) (t : List Byte) : s.raw t = put s t := writeVal_eq hs fun _ => rfl

theorem quotedStr_text (html : Bool) (s : List Byte) : StringText html s (quotedStr html s) := by
  obtain ⟨x, h1, h2, ns, h3, h4⟩ := pieces_spec html (n := s.length + 1) (l := s) (by omega)
  refine ⟨x, h1, ⟨_, h2, rfl⟩, 0x22 :: (ns ++ [0x22]), ?_, ?_⟩
  · intro n hn
    simp at hn
    have hq : OutChar html 0x22 := by simp [OutChar, Scalar]
    rcases hn with rfl | hn | rfl
    · exact hq
    · exact h3 n hn
    · exact hq
  · have hu : utf8 0x22 = [0x22] := by decide
    simp [quotedStr, h4, hu]

theorem string_put {s : Streamer} (hs : s.error = none) (x : List Byte) : s.string x = put s (quotedStr s.html x) :=
  writeVal_eq hs fun b => encodeString_quoted b x s.html

theorem bool_put {s : Streamer} (hs : s.error = none) (b : Bool) : s.bool b = put s (if b then trueText else falseText) := by
  cases b
  · exact writeVal_eq hs fun _ => rfl
  · exact writeVal_eq hs fun _ => rfl

theorem quotedStr_true (html : Bool) : quotedStr html (bs! "true") = inQuotes trueText := by cases html <;> decide +kernel
theorem quotedStr_false (html : Bool) : quotedStr html (bs! "false") = inQuotes falseText := by cases html <;> decide +kernel

theorem writes_bool : Writes html (boolEncoder (F := F)) BoolText where
  val q v s hs hh h := by
    cases v <;> simp only [boolEncoder, fail_error hs] at h ⊢ <;> try (cases h)
    rename_i b
    cases q with
    | false => exact ⟨_, ⟨b, rfl, rfl⟩, by simp [quotedIf, bool_put hs]⟩
    | true =>
      refine ⟨_, ⟨b, rfl, rfl⟩, ?_⟩
      cases b <;> simp [quotedIf, string_put hs, quotedStr_true, quotedStr_false]
  nil q s hs h := null_put hs

theorem writes_str : Writes html (stringEncoder E) (StrText E.escapeHTML html) where
  val q v s hs hh h := by
    cases v <;> simp only [stringEncoder, fail_error hs] at h ⊢ <;> try (cases h)
    rename_i x
    cases q with
    | false => exact ⟨_, ⟨x, rfl, quotedStr_text html x⟩, by simp [string_put hs, hh]⟩
    | true =>
      refine ⟨_, ⟨x, rfl, _, quotedStr_text E.escapeHTML x, quotedStr_text html _⟩, ?_⟩
      have h0 : (newStreamer E ⟨none, [], none, false, false⟩).error = none := rfl
      have h1 : put (newStreamer E ⟨none, [], none, false, false⟩) (quotedStr E.escapeHTML x) =
        ⟨none, quotedStr E.escapeHTML x, none, true, E.escapeHTML⟩ := rfl
      have h2 : (newStreamer E ⟨none, [], none, false, false⟩).html = E.escapeHTML := rfl
      simp [string_put h0, h2, h1, string_put hs, hh]
  nil q s hs h := null_put hs

theorem toInt_ofInt {w : Nat} (hw : 1 ≤ w) {z : Int} (h : Fits w z) : (BitVec.ofInt w z).toInt = z := by
  unfold Fits at h
  rw [BitVec.toInt_ofInt, Int.bmod_eq_of_le]
  · have : ((2 ^ w : Nat) : Int) / 2 = 2 ^ (w - 1) := by
      have : (2 ^ w : Nat) = 2 * 2 ^ (w - 1) := by rw [← Nat.pow_succ']; congr; omega
      rw [this]; push_cast; omega
    omega
  · have h2 : (2 ^ w : Nat) = 2 * 2 ^ (w - 1) := by rw [← Nat.pow_succ']; congr; omega
    have : (((2 ^ w : Nat) : Int) + 1) / 2 = 2 ^ (w - 1) := by
      rw [h2]; push_cast; omega
    omega

theorem toNat_ofInt {w : Nat} {z : Int} (h : FitsUnsigned w z) : (BitVec.ofInt w z).toNat = z.natAbs := by
  obtain ⟨h1, h2⟩ := h
  rw [BitVec.toNat_ofInt]
  rw [Int.emod_eq_of_lt h1 (by push_cast; exact h2)]
  omega

theorem appendIntOf_eq {w : Width} {z : Int} {b : List Byte} [Decidable (Fits w.bits z)] :
    appendIntOf w z b = if Fits w.bits z then some (b ++ decimalInt z) else none := by
  have hw : 1 ≤ w.bits := by cases w <;> decide
  unfold appendIntOf
  by_cases h : Fits w.bits z
  · have h' := h
    unfold Fits at h'
    rw [if_neg (by omega), if_pos h]
    have := toInt_ofInt hw h
    cases w
    · show appendInt appendUint8 b (BitVec.ofInt 8 z) = _
      rw [appendInt_eq (by decide) appendUint8_eq b]; rw [show (BitVec.ofInt 8 z).toInt = z from this]
    · show appendInt appendUint16 b (BitVec.ofInt 16 z) = _
      rw [appendInt_eq (by decide) appendUint16_eq b]; rw [show (BitVec.ofInt 16 z).toInt = z from this]
    · show appendInt appendUint32 b (BitVec.ofInt 32 z) = _
      rw [appendInt_eq (by decide) appendUint32_eq b]; rw [show (BitVec.ofInt 32 z).toInt = z from this]
    · show appendInt appendUint64 b (BitVec.ofInt 64 z) = _
      rw [appendInt_eq (by decide) appendUint64_eq b]; rw [show (BitVec.ofInt 64 z).toInt = z from this]
  · have h' := h
    unfold Fits at h'
    rw [if_pos (by omega), if_neg h]

theorem decimalInt_nonneg {z : Int} (h : 0 ≤ z) : decimalInt z = decimal z.natAbs := by
  unfold decimalInt; rw [if_neg (by omega)]

theorem appendUintOf_eq {w : Width} {z : Int} {b : List Byte} [Decidable (FitsUnsigned w.bits z)] :
    appendUintOf w z b = if FitsUnsigned w.bits z then some (b ++ decimalInt z) else none := by
  unfold appendUintOf
  by_cases h : FitsUnsigned w.bits z
  · have h' := h
    obtain ⟨h1, h2⟩ := h'
    rw [if_neg (by omega), if_pos h]
    have := toNat_ofInt h
    rw [decimalInt_nonneg h1]
    cases w
    · show appendUint8 b (BitVec.ofInt 8 z) = _
      rw [appendUint8_eq]; rw [show (BitVec.ofInt 8 z).toNat = z.natAbs from this]
    · show appendUint16 b (BitVec.ofInt 16 z) = _
      rw [appendUint16_eq]; rw [show (BitVec.ofInt 16 z).toNat = z.natAbs from this]
    · show appendUint32 b (BitVec.ofInt 32 z) = _
      rw [appendUint32_eq]; rw [show (BitVec.ofInt 32 z).toNat = z.natAbs from this]
    · show appendUint64 b (BitVec.ofInt 64 z) = _
      rw [appendUint64_eq]; rw [show (BitVec.ofInt 64 z).toNat = z.natAbs from this]
  · have h' := h
    unfold FitsUnsigned at h'
    rw [if_pos (by omega), if_neg h]

theorem writes_int {app : Int → List Byte → Option (List Byte)} {fits : Int → Prop}
    (hf : ∀ z, (fits z ∧ ∀ b, app z b = some (b ++ decimalInt z)) ∨ ∀ b, app z b = none) :
    Writes html (intEncoder (F := F) app) (IntText fits) where
  val q v s hs hh h := by
    cases v <;> simp only [intEncoder, fail_error hs] at h ⊢ <;> try (cases h)
    rename_i z
    rcases hf z with ⟨hz, ha⟩ | ha
    · cases q with
      | false => exact ⟨_, ⟨z, rfl, hz, rfl⟩, by simp only [Bool.false_eq_true, not_false_eq_true, if_true]; exact writeVal_eq hs ha⟩
      | true =>
        refine ⟨_, ⟨z, rfl, hz, rfl⟩, ?_⟩
        simp only [not_true_eq_false, if_false]
        exact writeVal_eq hs fun b => by simp [Streamer.quoted, ha, quotedIf, inQuotes]
    · exfalso
      cases q <;> simp [Streamer.writeVal, hs, Streamer.quoted, ha] at h
  nil q s hs h := null_put hs

theorem int_app (w : Width) (z : Int) : (Fits w.bits z ∧ ∀ b, appendIntOf w z b = some (b ++ decimalInt z)) ∨
    ∀ b, appendIntOf w z b = none := by
  have : Decidable (Fits w.bits z) := Classical.propDecidable _
  by_cases h : Fits w.bits z
  · exact .inl ⟨h, fun b => by rw [appendIntOf_eq, if_pos h]⟩
  · exact .inr fun b => by rw [appendIntOf_eq, if_neg h]

theorem uint_app (w : Width) (z : Int) : (FitsUnsigned w.bits z ∧ ∀ b, appendUintOf w z b = some (b ++ decimalInt z)) ∨
    ∀ b, appendUintOf w z b = none := by
  have : Decidable (FitsUnsigned w.bits z) := Classical.propDecidable _
  by_cases h : FitsUnsigned w.bits z
  · exact .inl ⟨h, fun b => by rw [appendUintOf_eq, if_pos h]⟩
  · exact .inr fun b => by rw [appendUintOf_eq, if_neg h]

theorem writes_float {arg : F → FloatArg}
    (hl : ∀ f, (arg f).isInf = false → (arg f).isNaN = false → ∃ small big, FloatLaws (arg f) small big) :
    Writes html (floatEncoder arg) (NumText arg) where
  val q v s hs hh h := by
    cases v <;> simp only [floatEncoder, fail_error hs] at h ⊢ <;> try (cases h)
    rename_i f
    have h1 : (arg f).isInf = false := by
      cases hi : (arg f).isInf with
      | false => rfl
      | true => simp [Streamer.float, hs, hi] at h
    have h2 : (arg f).isNaN = false := by
      cases hi : (arg f).isNaN with
      | false => rfl
      | true => simp [Streamer.float, hs, h1, hi] at h
    obtain ⟨small, big, hf⟩ := hl f h1 h2
    obtain ⟨t, ht⟩ := floatText_exists hf
    exact ⟨t, ⟨f, small, big, rfl, h1, h2, hf, ht⟩, float_eq hs h1 h2 hf ht⟩
  nil q s hs h := null_put hs

theorem writes_number : Writes html (numberEncoder (F := F)) NumberText where
  val q v s hs hh h := by
    cases v <;> simp only [numberEncoder, fail_error hs] at h ⊢ <;> try (cases h)
    exact ⟨_, ⟨_, rfl, rfl⟩, raw_put hs _⟩
  nil q s hs h := null_put hs

theorem writes_raw : Writes html (rawEncoder (F := F)) RawText where
  val q v s hs hh h := by
    cases v <;> simp only [rawEncoder, fail_error hs] at h ⊢ <;> try (cases h)
    exact ⟨_, rfl, raw_put hs _⟩
  nil q s hs h := null_put hs

theorem writes_ptr {enc : ValEncoder F} {R : TextRel' F} (he : Writes html enc R) : Writes html (ptrEncoder enc) (PtrText R) where
  val q v s hs hh h := by
    cases v <;> simp only [ptrEncoder, fail_error hs] at h ⊢ <;> try (cases h)
    · exact ⟨_, .inl ⟨rfl, rfl⟩, he.nil q s hs h⟩
    · obtain ⟨t, h1, h2⟩ := he.val q _ s hs hh h
      exact ⟨t, .inr ⟨_, rfl, h1⟩, h2⟩
  nil q s hs h := null_put hs

/-- The streamer inside of brackets. -/
def inside (s : Streamer) (opening : Byte) : Streamer := { s with buffer := s.buffer ++ comma s ++ [opening], poped := false }

theorem arrayStart_eq {s : Streamer} (hs : s.error = none) : s.arrayStart = inside s 0x5B := by
  simp [Streamer.arrayStart, hs, onVal_eq, inside]
theorem objectStart_eq {s : Streamer} (hs : s.error = none) : s.objectStart = inside s 0x7B := by
  simp [Streamer.objectStart, hs, onVal_eq, inside]

/-- The streamer after the items of a container and the closing bracket. -/
def closed (s : Streamer) (ts : List (List Byte)) (closing : Byte) : Streamer :=
  { s with buffer := s.buffer ++ (if ts = [] then [] else comma s) ++ joined ts ++ [closing], poped := true }

theorem closed_cons {s : Streamer} {t : List Byte} {ts : List (List Byte)} {c : Byte} : closed (put s t) ts c = closed s (t :: ts) c := by
  cases ts with
  | nil => simp [closed, put, joined]
  | cons u ts => simp [closed, put, joined, comma]

theorem closed_inside {s : Streamer} {ts : List (List Byte)} {o c : Byte} : closed (inside s o) ts c = put s (bracketed o c ts) := by
  simp [closed, inside, put, bracketed, comma]

theorem writes_elems {enc : ValEncoder F} {R : TextRel' F} (he : Writes html enc R) {vs : List (Val F)} {s : Streamer} (hs : s.error = none)
    (hh : s.html = html) (h : (elemsEncode enc vs s).error = none) :
    ∃ ts, Each (R false) vs ts ∧ elemsEncode enc vs s = closed s ts 0x5D := by
  induction vs generalizing s with
  | nil => exact ⟨[], .nil, by simp [elemsEncode, Streamer.arrayEnd, hs, closed, joined]⟩
  | cons v vs ih =>
    simp only [elemsEncode] at h ⊢
    by_cases hv : (enc.encode false (some v) s).error = none
    · obtain ⟨t, h1, h2⟩ := he.val _ _ s hs hh hv
      simp only [hv, ne_eq, not_true_eq_false, if_false] at h ⊢
      rw [h2] at h hv ⊢
      obtain ⟨ts, h3, h4⟩ := ih hv hh h
      exact ⟨t :: ts, .cons h1 h3, by rw [h4, closed_cons]⟩
    · simp [hv] at h

theorem writes_slice {enc : ValEncoder F} {R : TextRel' F} (he : Writes html enc R) : Writes html (sliceEncoder enc) (SliceText R) where
  val q v s hs hh h := by
    simp only [sliceEncoder, hs, ne_eq, not_true_eq_false, if_false] at h ⊢
    cases v <;> simp only [fail_error hs] at h ⊢ <;> try (cases h)
    · exact ⟨_, .inl ⟨rfl, rfl⟩, null_put hs⟩
    · rename_i vs
      by_cases hn : vs.length = 0
      · obtain rfl := List.length_eq_zero_iff.mp hn
        exact ⟨_, .inr ⟨_, [], rfl, .nil, rfl⟩, raw_put hs _⟩
      · simp only [hn, if_false] at h ⊢
        rw [arrayStart_eq hs] at h ⊢
        obtain ⟨ts, h1, h2⟩ := writes_elems he (s := inside s 0x5B) hs hh h
        exact ⟨_, .inr ⟨vs, ts, rfl, h1, rfl⟩, by rw [h2, closed_inside]⟩
  nil q s hs h := by
    simp only [sliceEncoder, hs, ne_eq, not_true_eq_false, if_false] at h ⊢
    exact null_put hs

theorem bytesOf_eq {vs : List (Val F)} {bytes : List Byte} (h : bytesOf vs = some bytes) :
    vs = bytes.map fun c => .int c.toNat := by
  induction vs generalizing bytes with
  | nil => cases h; rfl
  | cons v vs ih =>
    cases v <;> simp only [bytesOf] at h <;> try (cases h)
    split at h
    · cases h
    · rename_i z hz
      cases hb : bytesOf vs with
      | none => rw [hb] at h; cases h
      | some bs =>
        rw [hb] at h
        cases h
        simp only [List.map_cons, ih hb]
        have : ((UInt8.ofNat z.toNat).toNat : Int) = z := by
          simp only [UInt8.toNat_ofNat']
          omega
        rw [this]

theorem bytesOf_map (bytes : List Byte) : bytesOf (F := F) (bytes.map fun c => .int c.toNat) = some bytes := by
  induction bytes with
  | nil => rfl
  | cons c bytes ih =>
    simp only [List.map_cons, bytesOf]
    have := c.toNat_lt
    rw [if_neg (by omega), ih]
    simp

theorem writes_base64 : Writes html (base64Encoder E) (BytesText E.base64) where
  val q v s hs hh h := by
    simp only [base64Encoder, hs, ne_eq, not_true_eq_false, if_false] at h ⊢
    cases v <;> simp only [fail_error hs] at h ⊢ <;> try (cases h)
    · exact ⟨_, .inl ⟨rfl, rfl⟩, null_put hs⟩
    · rename_i vs
      cases hb : bytesOf vs with
      | none => simp only [hb, fail_error hs] at h; cases h
      | some bytes =>
        refine ⟨_, .inr ⟨bytes, by rw [bytesOf_eq hb], rfl⟩, ?_⟩
        refine writeVal_eq hs fun b => ?_
        cases bytes <;> simp [inQuotes]
  nil q s hs h := by
    simp only [base64Encoder, hs, ne_eq, not_true_eq_false, if_false] at h ⊢
    exact null_put hs

theorem writes_emptyArray {R : TextRel' F} : Writes html (emptyArrayEncoder (F := F)) (ArrayText 0 R) where
  val q v s hs hh h := by
    cases v <;> simp only [emptyArrayEncoder, fail_error hs] at h ⊢ <;> try (cases h)
    rename_i vs
    cases vs with
    | cons v vs => simp only [fail_error hs] at h; cases h
    | nil => exact ⟨_, ⟨[], [], rfl, rfl, .nil, rfl⟩, raw_put hs _⟩
  nil q s hs h := null_put hs

theorem writes_array {enc : ValEncoder F} {R : TextRel' F} (he : Writes html enc R) (n : Nat) :
    Writes html (arrayEncoder n enc) (ArrayText n R) where
  val q v s hs hh h := by
    cases v <;> simp only [arrayEncoder, fail_error hs] at h ⊢ <;> try (cases h)
    rename_i vs
    by_cases hn : vs.length = n
    · simp only [hn, ne_eq, not_true_eq_false, if_false] at h ⊢
      rw [arrayStart_eq hs] at h ⊢
      obtain ⟨ts, h1, h2⟩ := writes_elems he (s := inside s 0x5B) hs hh h
      exact ⟨_, ⟨vs, ts, rfl, hn, h1, rfl⟩, by rw [h2, closed_inside]⟩
    · simp only [ne_eq, hn, not_false_eq_true, if_true, fail_error hs] at h
      cases h
  nil q s hs h := null_put hs

/-- The streamer after a member name. -/
def named (s : Streamer) (k : List Byte) : Streamer := { s with buffer := s.buffer ++ comma s ++ k ++ [0x3A], poped := false }

theorem rawField_eq {s : Streamer} (hs : s.error = none) (k : List Byte) : s.rawField k = named s k := by
  simp [Streamer.rawField, hs, onVal_eq, named]

theorem streamer_field_eq {s : Streamer} (hs : s.error = none) (x : List Byte) : s.field x = named s (quotedStr s.html x) := by
  simp [Streamer.field, hs, onVal_eq, named, encodeString_quoted]

theorem put_named {s : Streamer} {k t : List Byte} : put (named s k) t = put s (k ++ 0x3A :: t) := by
  simp [put, named, comma]

/-- Digits and the minus sign. -/
def IsDigit (c : Byte) : Prop := c = 0x2D ∨ (0x30 ≤ c ∧ c ≤ 0x39)

theorem decimal_isDigit (n : Nat) : ∀ c ∈ decimal n, IsDigit c := by
  have dig : ∀ k, k < 10 → IsDigit (UInt8.ofNat (0x30 + k)) := by
    intro k hk
    have : ∀ k : _root_.Fin 10, 0x30 ≤ UInt8.ofNat (0x30 + k.val) ∧ UInt8.ofNat (0x30 + k.val) ≤ 0x39 := by decide
    exact .inr (this ⟨k, hk⟩)
  induction n using Nat.strongRecOn with
  | ind n ih =>
    intro c hc
    unfold decimal at hc
    split at hc
    · rename_i h
      rw [List.mem_singleton.mp hc]
      exact dig n h
    · rename_i h
      rcases List.mem_append.mp hc with hc | hc
      · exact ih (n / 10) (by omega) c hc
      · rw [List.mem_singleton.mp hc]
        exact dig _ (by omega)

theorem decimalInt_isDigit (z : Int) : ∀ c ∈ decimalInt z, IsDigit c := by
  intro c hc
  unfold decimalInt at hc
  split at hc
  · rcases List.mem_cons.mp hc with rfl | hc
    · exact .inl rfl
    · exact decimal_isDigit _ c hc
  · exact decimal_isDigit _ c hc

theorem isDigit_facts {c : Byte} (h : IsDigit c) : utf8 c.toNat = [c] ∧ Scalar c.toNat ∧ OutChar html c.toNat ∧ 0x20 ≤ c ∧ c ≠ 0x22 ∧ c ≠ 0x5C := by
  have key : ∀ c : Byte, c = 0x2D ∨ (0x30 ≤ c ∧ c ≤ 0x39) → c.toNat = 0x2D ∨ (0x30 ≤ c.toNat ∧ c.toNat ≤ 0x39) := by
    intro c h
    rcases h with rfl | ⟨h1, h2⟩
    · exact .inl rfl
    · exact .inr ⟨UInt8.le_iff_toNat_le.mp h1, UInt8.le_iff_toNat_le.mp h2⟩
  have hn := key c h
  refine ⟨?_, ?_, ?_, ?_, ?_, ?_⟩
  · unfold utf8
    rw [if_pos (by omega)]
    simp
  · unfold Scalar; omega
  · unfold OutChar Scalar; omega
  · rw [UInt8.le_iff_toNat_le]; show 32 ≤ _; omega
  · rintro rfl; revert hn; decide
  · rintro rfl; revert hn; decide

/-- An integer as a string. -/
theorem stringText_digits {s : List Byte} (h : ∀ c ∈ s, IsDigit c) : StringText html s (inQuotes s) := by
  have hu : ∀ s : List Byte, (∀ c ∈ s, IsDigit c) → (s.map UInt8.toNat).flatMap utf8 = s := by
    intro s h
    induction s with
    | nil => rfl
    | cons c s ih => simp [(isDigit_facts (html := html) (h c (by simp))).1, ih fun c hc => h c (by simp [hc])]
  refine ⟨s, sanitized_valid ⟨s.map UInt8.toNat, ?_, (hu s h).symm⟩, ⟨s, ?_, rfl⟩, 0x22 :: (s.map UInt8.toNat ++ [0x22]), ?_, ?_⟩
  · intro n hn
    obtain ⟨c, hc, rfl⟩ := List.mem_map.mp hn
    exact (isDigit_facts (html := html) (h c hc)).2.1
  · refine ⟨s.map .raw, ?_, ?_, ?_⟩
    · intro c hc
      obtain ⟨x, hx, rfl⟩ := List.mem_map.mp hc
      exact (isDigit_facts (html := html) (h x hx)).2.2.2
    · clear hu h
      induction s with
      | nil => rfl
      | cons c b ih =>
        simp only [List.map_cons, List.flatMap_cons, Chr.text, List.singleton_append]
        rw [← ih]
    · clear hu h
      induction s with
      | nil => rfl
      | cons c b ih =>
        simp only [List.map_cons, decodeChrs]
        rw [← ih]
  · intro n hn
    have hq : OutChar html 0x22 := by refine ⟨?_, ?_⟩ <;> simp [Scalar]
    simp only [List.mem_cons, List.mem_append, List.mem_map, List.not_mem_nil, or_false] at hn
    rcases hn with rfl | ⟨c, hc, rfl⟩ | rfl
    · exact hq
    · exact (isDigit_facts (h c hc)).2.2.1
    · exact hq
  · have hq : utf8 0x22 = [0x22] := by decide
    simp [inQuotes, hq, hu s h]

theorem keyVal_eq (k : Key) : (keyVal k : Val F) = keyAsValue k := by cases k <;> rfl

theorem keyCoder_none {k : KeyTy} : keyCoder E k = none ↔ ¬ KeysKnown E k := by
  cases k with
  | text i =>
    unfold keyCoder KeysKnown
    cases hu : E.under i <;> cases hr : E.recv i <;> simp [hu, hr]
  | _ => simp [keyCoder, KeysKnown]

theorem keyText_of_str {k : KeyTy} {x t : List Byte} (h : keyCoder E k = some .str) (ht : StringText html x t) :
    KeyText E html k (.str x) t := by
  cases k with
  | str => exact ⟨x, rfl, ht⟩
  | text i =>
    unfold keyCoder at h
    refine ⟨x, ?_, ht⟩
    unfold TextKey
    cases hu : E.under i <;> cases hr : E.recv i <;> simp [hu, hr] at h ⊢
  | _ => cases h

theorem keyText_of_int {k : KeyTy} {w : Width} {z : Int} (h : keyCoder E k = some (.int w)) (hz : Fits w.bits z) :
    KeyText E html k (.int z) (inQuotes (decimalInt z)) := by
  cases k with
  | int v => cases h; exact ⟨z, rfl, hz, rfl⟩
  | text i =>
    unfold keyCoder at h
    refine ⟨_, ?_, stringText_digits (decimalInt_isDigit z)⟩
    unfold TextKey
    cases hu : E.under i <;> cases hr : E.recv i <;> simp [hu, hr] at h ⊢
    subst h
    exact hz
  | _ => cases h

theorem keyText_of_uint {k : KeyTy} {w : Width} {z : Int} (h : keyCoder E k = some (.uint w)) (hz : FitsUnsigned w.bits z) :
    KeyText E html k (.int z) (inQuotes (decimalInt z)) := by
  cases k with
  | uint v => cases h; exact ⟨z, rfl, hz, rfl⟩
  | text i =>
    unfold keyCoder at h
    refine ⟨_, ?_, stringText_digits (decimalInt_isDigit z)⟩
    unfold TextKey
    cases hu : E.under i <;> cases hr : E.recv i <;> simp [hu, hr] at h ⊢
    subst h
    exact hz
  | _ => cases h

theorem keyText_of_text {k : KeyTy} {i : Nat} {key : Key} {x t : List Byte} (h : keyCoder E k = some (.text i))
    (hx : E.marshalText i (keyVal key) = .ok x) (ht : StringText html x t) : KeyText E html k key t := by
  cases k with
  | text j =>
    unfold keyCoder at h
    refine ⟨x, ?_, ht⟩
    unfold TextKey
    rw [keyVal_eq] at hx
    cases hu : E.under j <;> cases hr : E.recv j <;> simp [hu, hr] at h ⊢ <;> (subst h; exact hx)
  | _ => cases h

theorem textKey_named {f : Val F → Except EncErr (List Byte)} {key : Key} {s : Streamer} (hs : s.error = none)
    (h : (textKeyEncode f key s).error = none) : ∃ x, f (keyVal key) = .ok x ∧ textKeyEncode f key s = named s (quotedStr s.html x) := by
  unfold textKeyEncode at h ⊢
  simp only [hs, ne_eq, not_true_eq_false, if_false] at h ⊢
  cases hf : f (keyVal key) with
  | error e => simp [hf] at h
  | ok x => exact ⟨x, rfl, by simp [string_put hs, put, named]⟩

theorem writes_key {k : KeyTy} {key : Key} {s : Streamer} (hs : s.error = none) (hh : s.html = html)
    (h : (keyEncode E k key s).error = none) : ∃ t, KeyText E html k key t ∧ keyEncode E k key s = named s t := by
  unfold keyEncode at h ⊢
  cases hc : keyCoder E k with
  | none => simp only [hc, fail_error hs] at h; cases h
  | some c =>
    cases c with
    | str =>
      cases key <;> simp only [hc, fail_error hs] at h ⊢ <;> try (cases h)
      exact ⟨_, keyText_of_str hc (quotedStr_text html _), by rw [streamer_field_eq hs, hh]⟩
    | text i =>
      simp only [hc] at h ⊢
      obtain ⟨x, h1, h2⟩ := textKey_named hs (f := E.marshalText i) (key := key) (by cases key <;> exact h)
      refine ⟨_, keyText_of_text hc h1 (quotedStr_text html x), ?_⟩
      rw [← hh, ← h2]
    | int w =>
      cases key <;> simp only [hc, fail_error hs] at h ⊢ <;> try (cases h)
      simp only [hs, ne_eq, not_true_eq_false, if_false] at h ⊢
      rename_i z
      rcases int_app w z with ⟨hz, ha⟩ | ha
      · exact ⟨_, keyText_of_int hc hz, by simp [Streamer.quoted, ha, rawField_eq hs, inQuotes]⟩
      · simp [Streamer.quoted, ha, fail_error hs] at h
    | uint w =>
      cases key <;> simp only [hc, fail_error hs] at h ⊢ <;> try (cases h)
      simp only [hs, ne_eq, not_true_eq_false, if_false] at h ⊢
      rename_i z
      rcases uint_app w z with ⟨hz, ha⟩ | ha
      · exact ⟨_, keyText_of_uint hc hz, by simp [Streamer.quoted, ha, rawField_eq hs, inQuotes]⟩
      · simp [Streamer.quoted, ha, fail_error hs] at h

theorem writes_members {k : KeyTy} {enc : ValEncoder F} {R : TextRel' F} (he : Writes html enc R) {m : Key → Option (Val F)} {keys : List Key}
    {s : Streamer} (hs : s.error = none) (hh : s.html = html) (h : (membersEncode E k enc m keys s).error = none) :
    ∃ ts, Each (fun key u => ∃ x kt xt, m key = some x ∧ KeyText E html k key kt ∧ R false x xt ∧ u = kt ++ 0x3A :: xt) keys ts ∧
      membersEncode E k enc m keys s = closed s ts 0x7D := by
  induction keys generalizing s with
  | nil => exact ⟨[], .nil, by simp [membersEncode, Streamer.objectEnd, hs, closed, joined]⟩
  | cons key keys ih =>
    simp only [membersEncode] at h ⊢
    by_cases hk : (keyEncode E k key s).error = none
    · simp only [hk, ne_eq, not_true_eq_false, if_false] at h ⊢
      obtain ⟨kt, h1, h2⟩ := writes_key hs hh hk
      rw [h2] at h hk ⊢
      cases hm : m key with
      | none => simp only [hm, fail_error hk] at h; cases h
      | some x =>
        simp only [hm] at h ⊢
        by_cases hv : (enc.encode false (some x) (named s kt)).error = none
        · obtain ⟨t, h3, h4⟩ := he.val _ _ (named s kt) hk hh hv
          simp only [hv, ne_eq, not_true_eq_false, if_false] at h ⊢
          rw [h4, put_named] at h hv ⊢
          obtain ⟨ts, h5, h6⟩ := ih hv hh h
          exact ⟨_ :: ts, .cons ⟨x, kt, t, hm, h1, h3, rfl⟩ h5, by rw [h6, closed_cons]⟩
        · simp [hv] at h
    · simp [hk] at h

theorem writes_map (hE : EncLaws E) {k : KeyTy} {enc : ValEncoder F} {R : TextRel' F} (he : Writes html enc R) :
    Writes html (mapEncoder E k enc) (MapText (KeyText E html k) R) where
  val q v s hs hh h := by
    simp only [mapEncoder, hs, ne_eq, not_true_eq_false, if_false] at h ⊢
    cases v <;> simp only [fail_error hs] at h ⊢ <;> try (cases h)
    · exact ⟨_, .inl ⟨rfl, rfl⟩, null_put hs⟩
    · rename_i m
      cases hm : E.entries m with
      | none => simp only [hm, fail_error hs] at h; cases h
      | some keys =>
        simp only [hm] at h ⊢
        rw [objectStart_eq hs] at h ⊢
        obtain ⟨hd, hk⟩ := hE.entries m keys hm
        have hp := hE.shuffle (inside s 0x7B) keys
        obtain ⟨ts, h1, h2⟩ := writes_members he (s := inside s 0x7B) hs hh h
        refine ⟨_, .inr ⟨m, _, ts, rfl, hp.nodup_iff.mpr hd, fun k => ?_, h1, rfl⟩, by rw [h2, closed_inside]⟩
        rw [hp.mem_iff, hk]
  nil q s hs h := by
    simp only [mapEncoder, hs, ne_eq, not_true_eq_false, if_false] at h ⊢
    exact null_put hs

theorem writes_mapOf (hE : EncLaws E) {k : KeyTy} {enc : ValEncoder F} {R : TextRel' F} (he : Writes html enc R) :
    Writes html (mapEncoderOf E k enc) (MapTextOf E html k R) := by
  unfold mapEncoderOf
  split
  · constructor
    · intro q v s hs hh h
      simp only [notSupportedEncoder, fail_error hs] at h
      cases h
    · intro q s hs h
      simp only [notSupportedEncoder, fail_error hs] at h
      cases h
  · rename_i hc
    have hK : KeysKnown E k := Classical.byContradiction fun h => hc (keyCoder_none.mpr h)
    have hw := writes_map hE (k := k) he
    refine ⟨fun q v s hs hh h => ?_, hw.nil⟩
    obtain ⟨t, h1, h2⟩ := hw.val q v s hs hh h
    exact ⟨t, ⟨hK, h1⟩, h2⟩

theorem followPath_spec {p : List PathStep} {v : Val F} {o : Option (Val F)} (h : followPath p v = .ok o) :
    match o with
    | none => Missing p v
    | some x => Reaches p v x := by
  induction p generalizing v with
  | nil => cases h; exact .here v
  | cons st p ih =>
    cases st with
    | member i =>
      cases v <;> simp only [followPath] at h <;> try (cases h)
      rename_i vs
      cases hi : vs[i]? with
      | none => simp only [hi] at h; cases h
      | some w =>
        simp only [hi] at h
        have := ih h
        cases o with
        | none => exact .member i p vs w hi this
        | some x => exact .member i p vs w x hi this
    | deref e t =>
      cases v <;> simp only [followPath] at h <;> try (cases h)
      · exact .nil e t p
      · have := ih h
        cases o with
        | none => exact .deref e t p _ this
        | some x => exact .deref e t p _ x this

theorem writes_fields {build : Ty → ValEncoder F} {R : Ty → TextRel' F} {Em : Ty → Val F → Bool → Prop} {v : Val F} {fs : List EncField}
    (he : ∀ f ∈ fs, Writes html (build f.ty) (R f.ty))
    (hem : ∀ f ∈ fs, ∀ x b, (build f.ty).isEmpty x = .ok b → Em f.ty x b) {s : Streamer} (hs : s.error = none)
    (hh : s.html = html) (h : (fieldsEncode build v fs s).error = none) :
    ∃ ts, FieldTexts html Em R v fs ts ∧ fieldsEncode build v fs s = closed s ts 0x7D := by
  induction fs generalizing s with
  | nil => exact ⟨[], .nil, by simp [fieldsEncode, Streamer.objectEnd, hs, closed, joined]⟩
  | cons f fs ih =>
    have ih := @ih (fun g hg => he g (by simp [hg])) (fun g hg => hem g (by simp [hg]))
    have he := he f (by simp)
    have hem := hem f (by simp)
    simp only [fieldsEncode] at h ⊢
    cases hf : fieldValue (build f.ty) f v with
    | error e => simp only [hf, fail_error hs] at h; cases h
    | ok o =>
      simp only [hf] at h ⊢
      unfold fieldValue at hf
      cases hp : followPath f.path v with
      | error e => simp only [hp] at hf; cases hf
      | ok r =>
        have hsp := followPath_spec hp
        simp only [hp] at hf
        cases r with
        | none =>
          cases hf
          obtain ⟨ts, h1, h2⟩ := ih hs hh h
          exact ⟨ts, .missing f fs ts hsp h1, h2⟩
        | some x =>
          simp only at hf hsp
          -- the field is either left out or written
          have key : (o = none ∧ f.omitEmpty = true ∧ Em f.ty x true) ∨ (o = some x ∧ (f.omitEmpty = true → Em f.ty x false)) := by
            by_cases ho : f.omitEmpty = true
            · simp only [ho, if_true] at hf
              cases hi : (build f.ty).isEmpty x with
              | error e => simp only [hi] at hf; cases hf
              | ok b =>
                simp only [hi] at hf
                have := hem x b hi
                cases b
                · cases hf; exact .inr ⟨rfl, fun _ => this⟩
                · cases hf; exact .inl ⟨rfl, ho, this⟩
            · simp only [ho, if_false] at hf
              cases hf
              exact .inr ⟨rfl, fun h => absurd h ho⟩
          rcases key with ⟨rfl, ho, hx⟩ | ⟨rfl, hx⟩
          · obtain ⟨ts, h1, h2⟩ := ih hs hh h
            exact ⟨ts, .omitted f fs ts x hsp ho hx h1, h2⟩
          · simp only [fieldEncode, encodeString_quoted, List.nil_append, rawField_eq hs] at h ⊢
            by_cases hv : ((build f.ty).encode f.quoted (some x) (named s (quotedStr s.html f.name))).error = none
            · simp only [hv, ne_eq, not_true_eq_false, if_false] at h ⊢
              obtain ⟨t, h3, h4⟩ := he.val _ _ (named s (quotedStr s.html f.name)) hs hh hv
              rw [h4, put_named] at h hv ⊢
              obtain ⟨ts, h5, h6⟩ := ih hv hh h
              refine ⟨_ :: ts, .written f fs ts x (quotedStr s.html f.name) t hsp hx ?_ h3 h5, by rw [h6, closed_cons]⟩
              rw [hh]
              exact quotedStr_text html f.name
            · simp [hv] at h

theorem writes_json (f : Val F → Except EncErr (List Byte)) {isEmpty : Val F → Except EncErr Bool} :
    Writes html (marshalerEncoder isEmpty (writeJSON f)) (JsonText f) where
  val q v s hs hh h := by
    simp only [marshalerEncoder, hs, ne_eq, not_true_eq_false, if_false, writeJSON] at h ⊢
    cases hf : f v with
    | error e => simp only [hf] at h; cases h
    | ok b => exact ⟨b, hf, raw_put hs b⟩
  nil q s hs h := by simp only [marshalerEncoder, hs, ne_eq, not_true_eq_false, if_false] at h ⊢; exact null_put hs

theorem writes_text (f : Val F → Except EncErr (List Byte)) {isEmpty : Val F → Except EncErr Bool} :
    Writes html (marshalerEncoder isEmpty (writeText f)) (MethodText html f) where
  val q v s hs hh h := by
    simp only [marshalerEncoder, hs, ne_eq, not_true_eq_false, if_false, writeText] at h ⊢
    cases hf : f v with
    | error e => simp only [hf] at h; cases h
    | ok b => exact ⟨_, ⟨b, hf, quotedStr_text html b⟩, by simp only; rw [string_put hs, hh]⟩
  nil q s hs h := by simp only [marshalerEncoder, hs, ne_eq, not_true_eq_false, if_false] at h ⊢; exact null_put hs

/-- A pointer to a type whose pointer has the method is written like a pointer to a type with the method. -/
theorem writes_pointer {write : Val F → Streamer → Streamer} {R : TextRel' F}
    (hw : Writes html (marshalerEncoder (fun _ => .ok false) write) R) : Writes html (pointerMarshalerEncoder write) (PtrText R) where
  val q v s hs hh h := by
    simp only [pointerMarshalerEncoder, hs, ne_eq, not_true_eq_false, if_false] at h ⊢
    cases v <;> simp only [fail_error hs] at h ⊢ <;> try (cases h)
    · exact ⟨_, .inl ⟨rfl, rfl⟩, null_put hs⟩
    · rename_i x
      have := hw.val q x s hs hh
      simp only [marshalerEncoder, hs, ne_eq, not_true_eq_false, if_false] at this
      obtain ⟨t, h1, h2⟩ := this h
      exact ⟨t, .inr ⟨x, rfl, h1⟩, h2⟩
  nil q s hs h := by simp only [pointerMarshalerEncoder, hs, ne_eq, not_true_eq_false, if_false] at h ⊢; exact null_put hs

theorem writes_direct {write : Val F → Streamer → Streamer} {R : TextRel' F}
    (hw : Writes html (marshalerEncoder (fun _ => .ok false) write) R) :
    Writes html (directEncoder (pointerMarshalerEncoder write)) R where
  val q v s hs hh h := by
    simp only [directEncoder] at h ⊢
    obtain ⟨t, h1, h2⟩ := (writes_pointer hw).val q (.ptr v) s hs hh h
    rcases h1 with ⟨h1, _⟩ | ⟨x, h1, h3⟩
    · cases h1
    · cases h1; exact ⟨t, h3, h2⟩
  nil q s hs h := by
    simp only [directEncoder, pointerMarshalerEncoder, hs, ne_eq, not_true_eq_false, if_false] at h ⊢
    exact null_put hs

/-- The texts of the encoding method of the pointer type. -/
theorem pointerMethod_spec {T : Ty} {write : Val F → Streamer → Streamer} (h : pointerMethod E T = some write) (R : TextRel' F) :
    Writes html (marshalerEncoder (fun _ => .ok false) write) (Preferred E html T R) := by
  cases T <;> simp only [pointerMethod] at h <;> try (cases h)
  · split at h
    · rename_i hr; cases h; simp only [Preferred, hr, if_true]; exact writes_json _
    · cases h
  · split at h
    · rename_i hr; cases h; simp only [Preferred, hr, if_true]; exact writes_text _
    · cases h

theorem pointerMethod_none {T : Ty} (h : pointerMethod E T = none) (R : TextRel' F) : Preferred E html T R = R := by
  cases T <;> simp only [pointerMethod, Preferred] at h ⊢
  · split at h
    · cases h
    · rename_i hr; simp [hr]
  · split at h
    · cases h
    · rename_i hr; simp [hr]

theorem writes_prefer {T : Ty} {enc : ValEncoder F} {R : TextRel' F} (he : Writes html enc R) :
    Writes html (preferPtrEncoder E T enc) (Preferred E html T R) := by
  unfold preferPtrEncoder
  cases hp : pointerMethod E T with
  | none => rw [pointerMethod_none hp]; exact he
  | some write => exact writes_direct (pointerMethod_spec hp R)

theorem writes_any (hE : EncLaws E) {rest : Ty → ValEncoder F} {RA RM : TextRel' F} (ha : Writes html (rest (.slice .any)) RA)
    (hm : Writes html (rest (.map .str .any)) RM) : Writes html (anyEncoder E rest) (AnyText E.escapeHTML html E.float64 RA RM) where
  val q v s hs hh h := by
    cases v <;> simp only [anyEncoder, fail_error hs] at h ⊢ <;> try (cases h)
    rename_i g
    simp only [hs, ne_eq, not_true_eq_false, if_false] at h ⊢
    cases g with
    | nil => exact ⟨_, ⟨_, rfl, rfl⟩, null_put hs⟩
    | bool b => obtain ⟨t, h1, h2⟩ := writes_bool.val q _ s hs hh h; exact ⟨t, ⟨_, rfl, h1⟩, h2⟩
    | number l => obtain ⟨t, h1, h2⟩ := writes_number.val q _ s hs hh h; exact ⟨t, ⟨_, rfl, h1⟩, h2⟩
    | float f => obtain ⟨t, h1, h2⟩ := (writes_float hE.float64).val q _ s hs hh h; exact ⟨t, ⟨_, rfl, h1⟩, h2⟩
    | str x => obtain ⟨t, h1, h2⟩ := writes_str.val q _ s hs hh h; exact ⟨t, ⟨_, rfl, h1⟩, h2⟩
    | arr l => obtain ⟨t, h1, h2⟩ := ha.val q _ s hs hh h; exact ⟨t, ⟨_, rfl, h1⟩, h2⟩
    | obj m =>
      obtain ⟨t, h1, h2⟩ := hm.val q _ s hs hh h
      have : anyEntries m = anyMap m := by funext k; cases k <;> rfl
      rw [this] at h1
      exact ⟨t, ⟨_, rfl, h1⟩, h2⟩
  nil q s hs h := null_put hs

theorem writes_sliceOf {T : Ty} {enc : ValEncoder F} {R : TextRel' F} (he : Writes html enc R) :
    Writes html (sliceEncoderOf E T enc) (SliceTextOf E html T R) := by
  unfold sliceEncoderOf SliceTextOf
  split
  · exact writes_base64
  · exact writes_slice (writes_prefer he)

theorem writes_arrayOf {T : Ty} {enc : ValEncoder F} {R : TextRel' F} (he : Writes html enc R) (n : Nat) :
    Writes html (arrayEncoderOf E n T enc) (ArrayText n (Preferred E html T R)) := by
  unfold arrayEncoderOf
  split
  · rename_i h; subst h; exact writes_emptyArray
  · exact writes_array (writes_prefer he) n

theorem writes_notSupported : Writes html (notSupportedEncoder (F := F)) (fun _ _ _ => False) where
  val q v s hs hh h := by simp only [notSupportedEncoder, fail_error hs] at h; cases h
  nil q s hs h := by simp only [notSupportedEncoder, fail_error hs] at h; cases h

theorem writes_step (hE : EncLaws E) {rest : Ty → ValEncoder F} {R : Ty → TextRel' F} (hr : ∀ T, Writes html (rest T) (R T)) (T : Ty) :
    Writes html (encoderStep Γ E rest T) (EncodesStep E html R T) := by
  induction T with
  | bool => exact writes_bool
  | str => exact writes_str
  | int w => exact writes_int (int_app w)
  | uint w => exact writes_int (uint_app w)
  | float32 => exact writes_float hE.float32
  | float64 => exact writes_float hE.float64
  | number => exact writes_number
  | raw => exact writes_raw
  | any => exact writes_any hE (hr _) (hr _)
  | ptr t ih =>
    unfold encoderStep EncodesStep
    cases hp : pointerMethod E t with
    | none => rw [pointerMethod_none hp]; exact writes_ptr ih
    | some write => exact writes_pointer (pointerMethod_spec hp _)
  | slice t ih => exact writes_sliceOf ih
  | array n t ih => exact writes_arrayOf ih n
  | map k t ih => exact writes_mapOf hE ih
  | jsonUnmarshaler i =>
    unfold encoderStep EncodesStep
    cases E.recv i with
    | value => exact writes_json _
    | pointer => exact hr _
  | textUnmarshaler i =>
    unfold encoderStep EncodesStep
    cases E.recv i with
    | value => exact writes_text _
    | pointer => exact hr _
  | unsupported => exact writes_notSupported
  | named i => exact hr _

/-! ## Emptiness -/

theorem empty_bool {z : F → Prop} {v : Val F} {b : Bool} (h : (boolEncoder (F := F)).isEmpty v = .ok b) : b = true ↔ Empty z v := by
  cases v <;> simp only [boolEncoder] at h <;> try (cases h)
  rename_i x
  cases x
  · simp; exact .bool
  · simp; intro h; cases h

theorem empty_str {z : F → Prop} {v : Val F} {b : Bool} (h : (stringEncoder E).isEmpty v = .ok b) : b = true ↔ Empty z v := by
  cases v <;> simp only [stringEncoder] at h <;> try (cases h)
  rename_i x
  cases x
  · simp; exact .str
  · simp; intro h; cases h

theorem empty_int {z : F → Prop} {app : Int → List Byte → Option (List Byte)} {v : Val F} {b : Bool}
    (h : (intEncoder (F := F) app).isEmpty v = .ok b) : b = true ↔ Empty z v := by
  cases v <;> simp only [intEncoder] at h <;> try (cases h)
  rename_i x
  by_cases hx : x = 0
  · subst hx; simp; exact .int
  · simp [hx]; intro h; cases h; exact hx rfl

theorem empty_float {arg : F → FloatArg} {z : F → Prop} (hz : ∀ f, z f ↔ (arg f).nonZero = false) {v : Val F} {b : Bool}
    (h : (floatEncoder arg).isEmpty v = .ok b) : b = true ↔ Empty z v := by
  cases v <;> simp only [floatEncoder] at h <;> try (cases h)
  rename_i f
  constructor
  · intro hb; exact .float f ((hz f).mpr (by simpa using hb))
  · intro hb; cases hb with
    | float _ h => simpa using (hz f).mp h

theorem empty_number {z : F → Prop} {v : Val F} {b : Bool} (h : (numberEncoder (F := F)).isEmpty v = .ok b) : b = true ↔ Empty z v := by
  cases v <;> simp only [numberEncoder] at h <;> try (cases h)
  rename_i x
  cases x
  · simp; exact .str
  · simp; intro h; cases h

theorem empty_raw {z : F → Prop} {v : Val F} {b : Bool} (h : (rawEncoder (F := F)).isEmpty v = .ok b) : b = true ↔ Empty z v := by
  cases v <;> simp only [rawEncoder] at h <;> try (cases h)
  rename_i x
  cases x
  · simp; exact .str
  · simp; intro h; cases h

theorem empty_any {z : F → Prop} {rest : Ty → ValEncoder F} {v : Val F} {b : Bool} (h : (anyEncoder E rest).isEmpty v = .ok b) :
    b = true ↔ Empty z v := by
  cases v <;> simp only [anyEncoder] at h <;> try (cases h)
  rename_i g
  cases g <;> simp only at h <;> cases h
  · simp; exact .any
  all_goals (simp; intro h; cases h)

theorem empty_ptr {z : F → Prop} {enc : ValEncoder F} {v : Val F} {b : Bool} (h : (ptrEncoder enc).isEmpty v = .ok b) :
    b = true ↔ Empty z v := by
  cases v <;> simp only [ptrEncoder] at h <;> cases h
  · simp; exact .nilPtr
  · simp; intro h; cases h

theorem empty_pointer {z : F → Prop} {write : Val F → Streamer → Streamer} {v : Val F} {b : Bool}
    (h : (pointerMarshalerEncoder write).isEmpty v = .ok b) : b = true ↔ Empty z v := by
  cases v <;> simp only [pointerMarshalerEncoder] at h <;> cases h
  · simp; exact .nilPtr
  · simp; intro h; cases h

theorem empty_slice {z : F → Prop} {enc : ValEncoder F} {v : Val F} {b : Bool} (h : (sliceEncoder enc).isEmpty v = .ok b) :
    b = true ↔ Empty z v := by
  cases v <;> simp only [sliceEncoder] at h <;> cases h
  · simp; exact .nilSlice
  · rename_i vs
    cases vs
    · simp; exact .slice
    · simp; intro h; cases h

theorem empty_sliceOf {z : F → Prop} {T : Ty} {enc : ValEncoder F} {v : Val F} {b : Bool} (h : (sliceEncoderOf E T enc).isEmpty v = .ok b) :
    b = true ↔ Empty z v := by
  unfold sliceEncoderOf at h
  split at h
  · exact empty_slice (enc := enc) h
  · exact empty_slice h

theorem empty_arrayOf {T : Ty} {n : Nat} {enc : ValEncoder F} {v : Val F} {b : Bool} (h : (arrayEncoderOf E n T enc).isEmpty v = .ok b) :
    b = (n == 0) := by
  unfold arrayEncoderOf at h
  split at h
  · rename_i hn; subst hn; simp only [emptyArrayEncoder] at h; cases h; rfl
  · rename_i hn; simp only [arrayEncoder] at h; cases h; simp [hn]

theorem empty_map (hE : EncLaws E) {z : F → Prop} {k : KeyTy} {enc : ValEncoder F} {v : Val F} {b : Bool}
    (h : (mapEncoder E k enc).isEmpty v = .ok b) : b = true ↔ Empty z v := by
  cases v <;> simp only [mapEncoder] at h <;> try (cases h)
  · simp; exact .nilMap
  · rename_i m
    cases hm : E.entries m with
    | none => simp only [hm] at h; cases h
    | some keys =>
      simp only [hm] at h
      cases h
      obtain ⟨_, hk⟩ := hE.entries m keys hm
      constructor
      · intro h
        refine .map m fun k => ?_
        have : keys = [] := by simpa using h
        subst this
        have := (hk k).mpr
        cases hv : m k with
        | none => rfl
        | some x => simp [hv] at this
      · intro h
        cases h with
        | map _ h =>
          cases keys with
          | nil => rfl
          | cons k ks => have := (hk k).mp (by simp); simp [h k] at this

theorem empty_mapOf (hE : EncLaws E) {z : F → Prop} {k : KeyTy} {enc : ValEncoder F} {v : Val F} {b : Bool}
    (h : (mapEncoderOf E k enc).isEmpty v = .ok b) : (KeysKnown E k → (b = true ↔ Empty z v)) ∧ (¬ KeysKnown E k → b = false) := by
  unfold mapEncoderOf at h
  split at h
  · rename_i hc
    have hK := keyCoder_none.mp hc
    simp only [notSupportedEncoder] at h
    cases h
    exact ⟨fun h => absurd h hK, fun _ => rfl⟩
  · rename_i hc
    exact ⟨fun _ => empty_map hE h, fun hK => absurd (keyCoder_none.mpr hK) hc⟩

theorem isZero64 {T : Ty} (h : T ≠ .float32) (f : F) : isZero E T f ↔ (E.float64 f).nonZero = false := by simp [isZero, h]

theorem kindEmpty_spec (hE : EncLaws E) {i : Nat} (hi : E.recv i = .value) {v : Val F} {b : Bool}
    (h : kindEmpty Γ E (E.under i) v = .ok b) : EmptyHere Γ E (.jsonUnmarshaler i) v b := by
  unfold EmptyHere
  simp only [hi]
  cases hu : E.under i <;> simp only [hu, kindEmpty] at h ⊢ <;> try (cases h)
  · exact ⟨id, empty_bool h⟩
  · exact ⟨id, empty_int h⟩
  · exact ⟨id, empty_int h⟩
  · exact ⟨id, empty_float (fun f => by simp [isZero]) h⟩
  · exact ⟨id, empty_float (fun f => by simp [isZero]) h⟩
  · exact ⟨id, empty_slice h⟩
  · rfl
  · exact ⟨id, empty_map hE h⟩
  · rename_i j
    cases hd : Γ.defn j <;> simp only [hd] at h ⊢
    · cases h; rfl
    · exact empty_slice h
    · cases h; rfl
    · exact empty_map hE h

/-- What the encoder of a field finds empty. -/
theorem isEmpty_spec (hE : EncLaws E) {n : Nat} {T : Ty} {v : Val F} {b : Bool}
    (h : (preferPtrEncoder E T (encoderOf Γ E n T)).isEmpty v = .ok b) : EmptyHere Γ E T v b := by
  unfold preferPtrEncoder at h
  cases hp : pointerMethod E T with
  | some write =>
    simp only [hp] at h
    have hb : b = false := by simp only [directEncoder, pointerMarshalerEncoder] at h; cases h; rfl
    cases T <;> simp only [pointerMethod] at hp <;> try (cases hp)
    · split at hp
      · rename_i hr; simp only [EmptyHere, hr]; exact hb
      · cases hp
    · split at hp
      · rename_i hr; simp only [EmptyHere, hr]; exact hb
      · cases hp
  | none =>
    simp only [hp] at h
    unfold encoderOf at h
    cases T <;> simp only [encoderStep] at h <;> try simp only [EmptyHere]
    · exact empty_bool h
    · exact empty_str h
    · exact empty_int h
    · exact empty_int h
    · exact empty_float (fun f => by simp [isZero]) h
    · exact empty_float (fun f => by simp [isZero]) h
    · exact empty_number h
    · exact empty_raw h
    · exact empty_any h
    · split at h
      · exact empty_pointer h
      · exact empty_ptr h
    · exact empty_sliceOf h
    · exact empty_arrayOf h
    · exact empty_mapOf hE h
    · rename_i i
      cases n with
      | zero => simp only [unfoldedEncoder] at h; cases h
      | succ n =>
        simp only [unfoldedEncoder] at h
        cases hd : Γ.defn i <;> simp only [hd, defEncoder] at h ⊢
        · split at h
          · rename_i hn; cases h; simp [List.length_eq_zero_iff.mp hn]
          · rename_i hn
            cases h
            cases hf : E.fields i with
            | nil => simp [hf] at hn
            | cons _ _ => rfl
        · exact empty_sliceOf h
        · exact empty_arrayOf h
        · exact empty_mapOf hE h
    · rename_i i
      cases hr : E.recv i with
      | pointer => simp [pointerMethod, hr] at hp
      | value =>
        simp only [hr] at h
        have := kindEmpty_spec hE hr h
        simp only [EmptyHere, hr] at this
        exact this
    · rename_i i
      cases hr : E.recv i with
      | pointer => simp [pointerMethod, hr] at hp
      | value =>
        simp only [hr] at h
        have := kindEmpty_spec hE hr h
        simp only [EmptyHere, hr] at this
        exact this
    · cases h; rfl

/-! ## Types -/

theorem writes_emptyStruct {Em : Ty → Val F → Bool → Prop} {R : Ty → TextRel' F} :
    Writes html (emptyStructEncoder (F := F)) (StructText html Em R []) where
  val q v s hs hh h := by
    cases v <;> simp only [emptyStructEncoder, fail_error hs] at h ⊢ <;> try (cases h)
    exact ⟨_, ⟨_, [], rfl, .nil, rfl⟩, raw_put hs _⟩
  nil q s hs h := null_put hs

theorem fieldTexts_struct {Em : Ty → Val F → Bool → Prop} {R : Ty → TextRel' F} {v : Val F} {fs : List EncField} {ts : List (List Byte)}
    (h : FieldTexts html Em R v fs ts) (hf : ∀ f ∈ fs, ∃ k p, f.path = .member k :: p) (hn : fs ≠ []) : ∃ vs, v = .struct vs := by
  have key : ∀ f : EncField, (∃ k p, f.path = .member k :: p) → (Missing f.path v ∨ ∃ x, Reaches f.path v x) → ∃ vs, v = .struct vs := by
    rintro f ⟨k, p, hp⟩ h
    rw [hp] at h
    rcases h with h | ⟨x, h⟩ <;> cases h <;> exact ⟨_, rfl⟩
  cases h with
  | nil => exact absurd rfl hn
  | missing f fs ts h _ => exact key f (hf f (by simp)) (.inl h)
  | omitted f fs ts x h _ _ _ => exact key f (hf f (by simp)) (.inr ⟨x, h⟩)
  | written f fs ts x k u h _ _ _ _ => exact key f (hf f (by simp)) (.inr ⟨x, h⟩)

theorem writes_struct {build : Ty → ValEncoder F} {R : Ty → TextRel' F} {Em : Ty → Val F → Bool → Prop} {fs : List EncField}
    (hn : fs ≠ []) (hp : ∀ f ∈ fs, ∃ k p, f.path = .member k :: p) (he : ∀ T, Writes html (build T) (R T))
    (hem : ∀ T x b, (build T).isEmpty x = .ok b → Em T x b) : Writes html (structEncoder build fs) (StructText html Em R fs) where
  val q v s hs hh h := by
    simp only [structEncoder, hs, ne_eq, not_true_eq_false, if_false] at h ⊢
    rw [objectStart_eq hs] at h ⊢
    obtain ⟨ts, h1, h2⟩ := writes_fields (fun f _ => he f.ty) (fun f _ => hem f.ty) (s := inside s 0x7B) hs hh h
    obtain ⟨vs, hv⟩ := fieldTexts_struct h1 hp hn
    exact ⟨_, ⟨vs, ts, hv, h1, rfl⟩, by rw [h2, closed_inside]⟩
  nil q s hs h := by simp only [structEncoder, hs, ne_eq, not_true_eq_false, if_false] at h ⊢; exact null_put hs

theorem writes_unfolded (hE : EncLaws E) (n : Nat) (T : Ty) : Writes html (unfoldedEncoder Γ E n T) (EncodesN Γ E html n T) := by
  induction n generalizing T with
  | zero =>
    refine ⟨fun q v s hs hh h => ?_, fun q s hs h => ?_⟩ <;> simp only [unfoldedEncoder, fail_error hs] at h <;> cases h
  | succ n ih =>
    have hst := writes_step (Γ := Γ) hE ih
    cases T <;> try (exact hst _)
    rename_i i
    simp only [unfoldedEncoder, EncodesN]
    cases hd : Γ.defn i with
    | slice t => exact writes_sliceOf (hst t)
    | array k t => exact writes_arrayOf (hst t) k
    | map k t => exact writes_mapOf hE (hst t)
    | struct _ =>
      simp only [defEncoder]
      split
      · rename_i hl
        rw [List.length_eq_zero_iff.mp hl]
        exact writes_emptyStruct
      · rename_i hl
        refine writes_struct (fun h => hl (by simp [h])) (hE.paths i) (fun T => writes_prefer (hst T)) ?_
        exact fun T x b h => isEmpty_spec hE h

/-- `Marshal` returns a text of the value. -/
theorem marshal_encodes (hE : EncLaws E) {old : Streamer} {n : Nat} {T : Ty} {v : Val F} {t : List Byte}
    (h : Marshal Γ E old n T v = .ok t) : Encodes Γ E E.escapeHTML T false v t := by
  refine ⟨n, ?_⟩
  have h0 : newStreamer E old = ⟨none, [], none, false, E.escapeHTML⟩ := rfl
  unfold Marshal at h
  rw [h0] at h
  simp only [Streamer.value, ne_eq, not_true_eq_false, if_false] at h
  split at h
  · cases h
  · rename_i he
    cases h
    obtain ⟨t, h1, h2⟩ := (writes_step (Γ := Γ) hE (writes_unfolded hE n) T).val false v ⟨none, [], none, false, E.escapeHTML⟩ rfl rfl he
    unfold encoderOf
    rw [h2]
    exact h1

end

end Jzon
