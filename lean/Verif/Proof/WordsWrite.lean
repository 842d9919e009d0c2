import Verif.Spec.WordsWrite
import Verif.Proof.Clean
import Verif.Proof.WordsUnique

/-! # From trees to bytes -/

set_option linter.unusedSimpArgs false

namespace Jzon.Words
open Spec

variable {M : Meaning} {html : Bool}

/-- The writing goes well with a text, or it fails with an error. -/
def Good (html : Bool) (write : Streamer → Streamer) (R : List Byte → Prop) (E : EncErr → Prop) : Prop :=
  ∀ s, s.error = none → s.html = html → (∃ t, R t ∧ write s = put s t) ∨ ∃ e, E e ∧ (write s).error = some e

theorem intArg_append (hM : M.Lawful) (n : Nat) (b : List Byte) :
    (M.int n).append b = some (b ++ decimalInt (M.int n).value) := by
  have h := hM.int n
  unfold IntArg.append
  have : Decidable (Fits (M.int n).width.bits (M.int n).value) := Classical.propDecidable _
  have : Decidable (FitsUnsigned (M.int n).width.bits (M.int n).value) := Classical.propDecidable _
  split
  · next hs => rw [if_pos hs] at h; rw [appendIntOf_eq, if_pos h]
  · next hs => rw [if_neg hs] at h; rw [appendUintOf_eq, if_pos h]

theorem byte_append (n : Nat) (b : List Byte) : appendUint8 b (byteOf n).toBitVec = some (b ++ decimal (n % 256)) := by
  rw [appendUint8_eq]
  simp [byteOf]

theorem good_prim (hM : M.Lawful) (q : Bool) (k : Prim) (n : Nat) :
    Good html (M.writePrim q k n) (PrimText M html q n k) (OutFails M html (.prim q k n)) := by
  intro s hs hh
  cases k with
  | bool =>
    refine .inl ⟨_, rfl, ?_⟩
    cases q with
    | false => simp [Meaning.writePrim, quotedIf, bool_put hs]
    | true =>
      cases hb : M.bool n <;> simp [Meaning.writePrim, hb, quotedIf, string_put hs, quotedStr_true, quotedStr_false]
  | string =>
    cases q with
    | false => exact .inl ⟨_, quotedStr_text html (M.string n), by simp [Meaning.writePrim, string_put hs, hh]⟩
    | true =>
      refine .inl ⟨_, ⟨_, quotedStr_text M.escapeHTML (M.string n), quotedStr_text html _⟩, ?_⟩
      have h0 : (Streamer.escapeHTML ⟨none, [], none, false, false⟩ M.escapeHTML).error = none := rfl
      have h1 : put (Streamer.escapeHTML ⟨none, [], none, false, false⟩ M.escapeHTML) (quotedStr M.escapeHTML (M.string n)) =
        ⟨none, quotedStr M.escapeHTML (M.string n), none, true, M.escapeHTML⟩ := rfl
      have h2 : (Streamer.escapeHTML ⟨none, [], none, false, false⟩ M.escapeHTML).html = M.escapeHTML := rfl
      simp [Meaning.writePrim, string_put h0, h2, h1, string_put hs, hh]
  | int =>
    refine .inl ⟨_, rfl, ?_⟩
    cases q with
    | false => simp only [Meaning.writePrim, Bool.false_eq_true, not_false_eq_true, if_true]; exact writeVal_eq hs (intArg_append hM n)
    | true =>
      simp only [Meaning.writePrim, not_true_eq_false, if_false]
      exact writeVal_eq hs fun b => by simp [Streamer.quoted, intArg_append hM n, quotedIf, inQuotes]
  | uint8 =>
    refine .inl ⟨_, rfl, ?_⟩
    cases q with
    | false => simp only [Meaning.writePrim, Bool.false_eq_true, not_false_eq_true, if_true]; exact writeVal_eq hs (byte_append n)
    | true =>
      simp only [Meaning.writePrim, not_true_eq_false, if_false]
      exact writeVal_eq hs fun b => by simp [Streamer.quoted, byte_append n, quotedIf, inQuotes]
  | float =>
    simp only [Meaning.writePrim]
    cases hi : (M.float n).isInf with
    | true => exact .inr ⟨_, .infinite hi, by simp [Streamer.float, hs, hi]⟩
    | false =>
      cases hn : (M.float n).isNaN with
      | true => exact .inr ⟨_, .nan hi hn, by simp [Streamer.float, hs, hi, hn]⟩
      | false =>
        obtain ⟨small, big, hf⟩ := hM.float n hi hn
        obtain ⟨t, ht⟩ := floatText_exists hf
        exact .inl ⟨t, ⟨hi, hn, small, big, hf, ht⟩, float_eq hs hi hn hf ht⟩

theorem good_raw (r : Except EncErr (List Byte)) : Good html (writeRaw r) (fun t => r = .ok t) (fun e => r = .error e) := by
  intro s hs hh
  cases r with
  | error e => exact .inr ⟨e, rfl, by simp [writeRaw, hs]⟩
  | ok t => exact .inl ⟨t, rfl, by simp [writeRaw, hs, raw_put hs]⟩

theorem good_string (r : Except EncErr (List Byte)) :
    Good html (writeString r) (fun t => ∃ x, r = .ok x ∧ StringText html x t) (fun e => r = .error e) := by
  intro s hs hh
  cases r with
  | error e => exact .inr ⟨e, rfl, by simp [writeString, hs]⟩
  | ok x => exact .inl ⟨_, ⟨x, rfl, quotedStr_text html x⟩, by simp [writeString, hs, string_put hs, hh]⟩

theorem colon_put {s : Streamer} {k : List Byte} (hs : s.error = none) : colon (put s k) = named s k := by
  simp [colon, put, hs, named]

/-- A key is written, or fails. -/
theorem good_key (hM : M.Lawful) (k : KeyOut) {s : Streamer} (hs : s.error = none) (hh : s.html = html) :
    (∃ t, KeyOutText M html k t ∧ k.write M s = named s t) ∨ ∃ e, KeyFails M k e ∧ (k.write M s).error = some e := by
  cases k with
  | prim k n =>
    cases k with
    | bool => exact .inr ⟨_, .bool, by simp [KeyOut.write, fail_error hs]⟩
    | float => exact .inr ⟨_, .float, by simp [KeyOut.write, fail_error hs]⟩
    | string => exact .inl ⟨_, .string (quotedStr_text html _), by simp [KeyOut.write, streamer_field_eq hs, hh]⟩
    | int =>
      refine .inl ⟨_, .int, ?_⟩
      simp [KeyOut.write, hs, Streamer.quoted, intArg_append hM n, rawField_eq hs, inQuotes]
    | uint8 =>
      refine .inl ⟨_, .uint8, ?_⟩
      simp [KeyOut.write, hs, Streamer.quoted, byte_append n, rawField_eq hs, inQuotes]
  | text t v =>
    rcases good_string (html := html) (M.text t v) s hs hh with ⟨u, ⟨x, h1, h2⟩, h3⟩ | ⟨e, h1, h2⟩
    · exact .inl ⟨u, .text h1 h2, by simp only [KeyOut.write, h3, colon_put hs]⟩
    · exact .inr ⟨e, .text h1, by simp [KeyOut.write, colon, h2]⟩
  | empty =>
    rcases good_string (html := html) (.ok []) s hs hh with ⟨u, ⟨x, h1, h2⟩, h3⟩ | ⟨e, h1, h2⟩
    · cases h1
      exact .inl ⟨u, .empty h2, by simp only [KeyOut.write, h3, colon_put hs]⟩
    · cases h1
  | panic => exact .inr ⟨_, .panic, by simp [KeyOut.write, fail_error hs]⟩

mutual
theorem good_out (hM : M.Lawful) : (o : Out) → Good html (o.write M) (OutText M html o) (OutFails M html o)
  | .null => fun s hs hh => .inl ⟨_, .null, by simp only [Out.write]; exact null_put hs⟩
  | .prim q k n => fun s hs hh => by
    rcases good_prim hM q k n s hs hh with ⟨t, h1, h2⟩ | h
    · exact .inl ⟨t, .prim h1, by simp only [Out.write]; exact h2⟩
    · exact .inr (by simp only [Out.write]; exact h)
  | .number n => fun s hs hh => .inl ⟨_, .number, by simp only [Out.write]; exact raw_put hs _⟩
  | .raw bs => fun s hs hh => .inl ⟨_, .raw, by simp only [Out.write]; exact raw_put hs _⟩
  | .base64 bs => fun s hs hh => by
    refine .inl ⟨_, .base64, ?_⟩
    simp only [Out.write, hs, ne_eq, not_true_eq_false, if_false]
    refine writeVal_eq hs fun b => ?_
    cases bs <;> simp [inQuotes]
  | .arr os => fun s hs hh => by
    simp only [Out.write, hs, ne_eq, not_true_eq_false, if_false]
    by_cases hn : os.length = 0
    · obtain rfl := List.length_eq_zero_iff.mp hn
      exact .inl ⟨_, .arr .nil, by simp only [List.length_nil, if_true]; exact raw_put hs _⟩
    · simp only [hn, if_false]
      rw [arrayStart_eq hs]
      rcases good_elems hM os (inside s 0x5B) hs hh with ⟨ts, h1, h2⟩ | ⟨e, h1, h2⟩
      · exact .inl ⟨_, .arr h1, by rw [h2, closed_inside]⟩
      · exact .inr ⟨e, .arr h1, h2⟩
  | .obj os => fun s hs hh => by
    simp only [Out.write, hs, ne_eq, not_true_eq_false, if_false]
    rw [objectStart_eq hs]
    rcases good_fields hM os (inside s 0x7B) hs hh with ⟨ts, h1, h2⟩ | ⟨e, h1, h2⟩
    · exact .inl ⟨_, .obj h1, by rw [h2, closed_inside]⟩
    · exact .inr ⟨e, .obj h1, h2⟩
  | .dict os => fun s hs hh => by
    simp only [Out.write, hs, ne_eq, not_true_eq_false, if_false]
    rw [objectStart_eq hs]
    rcases good_entries hM os (inside s 0x7B) hs hh with ⟨ts, h1, h2⟩ | ⟨e, h1, h2⟩
    · exact .inl ⟨_, .dict h1, by rw [h2, closed_inside]⟩
    · exact .inr ⟨e, .dict h1, h2⟩
  | .json t v => fun s hs hh => by
    simp only [Out.write]
    rcases good_raw (M.json t v) s hs hh with ⟨u, h1, h2⟩ | ⟨e, h1, h2⟩
    · exact .inl ⟨u, .json h1, h2⟩
    · exact .inr ⟨e, .json h1, h2⟩
  | .text t v => fun s hs hh => by
    simp only [Out.write]
    rcases good_string (M.text t v) s hs hh with ⟨u, ⟨x, h0, h1⟩, h2⟩ | ⟨e, h1, h2⟩
    · exact .inl ⟨u, .text h0 h1, h2⟩
    · exact .inr ⟨e, .text h1, h2⟩
  | .custom q t v => fun s hs hh => by
    simp only [Out.write, hh]
    rcases good_raw (M.custom html q t (some v)) s hs hh with ⟨u, h1, h2⟩ | ⟨e, h1, h2⟩
    · exact .inl ⟨u, .custom h1, h2⟩
    · exact .inr ⟨e, .custom h1, h2⟩
  | .customNil q t => fun s hs hh => by
    simp only [Out.write, hh]
    rcases good_raw (M.custom html q t none) s hs hh with ⟨u, h1, h2⟩ | ⟨e, h1, h2⟩
    · exact .inl ⟨u, .customNil h1, h2⟩
    · exact .inr ⟨e, .customNil h1, h2⟩
  | .notSupported => fun s hs hh => .inr ⟨_, .notSupported, by simp only [Out.write]; exact fail_error hs⟩
  | .panic => fun s hs hh => .inr ⟨_, .panic, by simp only [Out.write]; exact fail_error hs⟩
theorem good_elems (hM : M.Lawful) : (os : List Out) → ∀ s : Streamer, s.error = none → s.html = html →
    (∃ ts, OutTexts M html os ts ∧ writeElems M os s = closed s ts 0x5D) ∨
    ∃ e, ElemsFail M html os e ∧ (writeElems M os s).error = some e
  | [] => fun s hs hh => .inl ⟨[], .nil, by simp [writeElems, Streamer.arrayEnd, hs, closed, joined]⟩
  | o :: os => fun s hs hh => by
    simp only [writeElems]
    rcases good_out hM o s hs hh with ⟨t, h1, h2⟩ | ⟨e, h1, h2⟩
    · have hs' : (put s t).error = none := hs
      rw [h2]
      simp only [hs', ne_eq, not_true_eq_false, if_false]
      rcases good_elems hM os (put s t) hs' hh with ⟨ts, h3, h4⟩ | ⟨e, h3, h4⟩
      · exact .inl ⟨t :: ts, .cons h1 h3, by rw [h4, closed_cons]⟩
      · exact .inr ⟨e, .tail h1 h3, h4⟩
    · exact .inr ⟨e, .head h1, by simp [h2]⟩
theorem good_fields (hM : M.Lawful) : (os : List (Nat × Out)) → ∀ s : Streamer, s.error = none → s.html = html →
    (∃ ts, OutFields M html os ts ∧ writeFields M os s = closed s ts 0x7D) ∨
    ∃ e, FieldsFail M html os e ∧ (writeFields M os s).error = some e
  | [] => fun s hs hh => .inl ⟨[], .nil, by simp [writeFields, Streamer.objectEnd, hs, closed, joined]⟩
  | (n, o) :: os => fun s hs hh => by
    have hq : encodeString [] (M.name n) s.html = some (quotedStr html (M.name n)) := by
      rw [encodeString_quoted, hh]; simp
    simp only [writeFields, hq, rawField_eq hs]
    have hs0 : (named s (quotedStr html (M.name n))).error = none := hs
    rcases good_out hM o (named s (quotedStr html (M.name n))) hs0 hh with ⟨t, h1, h2⟩ | ⟨e, h1, h2⟩
    · have hs' : (put s (quotedStr html (M.name n) ++ 0x3A :: t)).error = none := hs
      rw [h2, put_named]
      simp only [hs', ne_eq, not_true_eq_false, if_false]
      rcases good_fields hM os _ hs' hh with ⟨ts, h3, h4⟩ | ⟨e, h3, h4⟩
      · exact .inl ⟨_ :: ts, .cons (quotedStr_text html _) h1 h3, by rw [h4, closed_cons]⟩
      · exact .inr ⟨e, .tail h1 h3, h4⟩
    · exact .inr ⟨e, .head h1, by simp [h2]⟩
theorem good_entries (hM : M.Lawful) : (os : List (KeyOut × Out)) → ∀ s : Streamer, s.error = none → s.html = html →
    (∃ ts, OutEntries M html os ts ∧ writeEntries M os s = closed s ts 0x7D) ∨
    ∃ e, EntriesFail M html os e ∧ (writeEntries M os s).error = some e
  | [] => fun s hs hh => .inl ⟨[], .nil, by simp [writeEntries, Streamer.objectEnd, hs, closed, joined]⟩
  | (k, o) :: os => fun s hs hh => by
    simp only [writeEntries]
    rcases good_key hM k hs hh with ⟨kt, hk1, hk2⟩ | ⟨e, hk1, hk2⟩
    · have hs0 : (named s kt).error = none := hs
      rw [hk2]
      simp only [hs0, ne_eq, not_true_eq_false, if_false]
      rcases good_out hM o (named s kt) hs0 hh with ⟨t, h1, h2⟩ | ⟨e, h1, h2⟩
      · have hs' : (put s (kt ++ 0x3A :: t)).error = none := hs
        rw [h2, put_named]
        simp only [hs', ne_eq, not_true_eq_false, if_false]
        rcases good_entries hM os _ hs' hh with ⟨ts, h3, h4⟩ | ⟨e, h3, h4⟩
        · exact .inl ⟨_ :: ts, .cons hk1 h1 h3, by rw [h4, closed_cons]⟩
        · exact .inr ⟨e, .tail hk1 h1 h3, h4⟩
      · exact .inr ⟨e, .head hk1 h1, by simp [h2]⟩
    · exact .inr ⟨e, .key hk1, by simp [hk2]⟩
end

/-! ## Texts and errors exclude each other -/

theorem key_exclusive {k : KeyOut} {t : List Byte} {e : EncErr} (h : KeyOutText M html k t) (h' : KeyFails M k e) : False := by
  cases h <;> cases h'
  next h1 _ h2 => rw [h1] at h2; cases h2

theorem KeyFails.unique {k : KeyOut} {e e' : EncErr} (h : KeyFails M k e) (h' : KeyFails M k e') : e = e' := by
  cases h <;> cases h' <;> first | rfl | skip
  next h1 h2 => rw [h1] at h2; cases h2; rfl

mutual
theorem out_exclusive {o t e} : OutFails M html o e → OutText M html o t → False
  | .infinite h, .prim h' => by have := h'.1; rw [h] at this; cases this
  | .nan _ h, .prim h' => by have := h'.2.1; rw [h] at this; cases this
  | .json h, .json h' => by rw [h] at h'; cases h'
  | .text h, .text h' _ => by rw [h] at h'; cases h'
  | .custom h, .custom h' => by rw [h] at h'; cases h'
  | .customNil h, .customNil h' => by rw [h] at h'; cases h'
  | .arr h, .arr h' => elems_exclusive h h'
  | .obj h, .obj h' => fields_exclusive h h'
  | .dict h, .dict h' => entries_exclusive h h'
termination_by structural h => h
theorem elems_exclusive {os ts e} : ElemsFail M html os e → OutTexts M html os ts → False
  | .head h, .cons h' _ => out_exclusive h h'
  | .tail _ h, .cons _ h' => elems_exclusive h h'
termination_by structural h => h
theorem fields_exclusive {os ts e} : FieldsFail M html os e → OutFields M html os ts → False
  | .head h, .cons _ h' _ => out_exclusive h h'
  | .tail _ h, .cons _ _ h' => fields_exclusive h h'
termination_by structural h => h
theorem entries_exclusive {os ts e} : EntriesFail M html os e → OutEntries M html os ts → False
  | .key h, .cons h' _ _ => key_exclusive h' h
  | .head _ h, .cons _ h' _ => out_exclusive h h'
  | .tail _ _ h, .cons _ _ h' => entries_exclusive h h'
termination_by structural h => h
end

mutual
theorem OutFails.unique {o e e'} : OutFails M html o e → OutFails M html o e' → e = e'
  | .infinite _, .infinite _ => rfl
  | .infinite h, .nan h' _ => by rw [h] at h'; cases h'
  | .nan h _, .infinite h' => by rw [h] at h'; cases h'
  | .nan _ _, .nan _ _ => rfl
  | .json h, .json h' => by rw [h] at h'; cases h'; rfl
  | .text h, .text h' => by rw [h] at h'; cases h'; rfl
  | .custom h, .custom h' => by rw [h] at h'; cases h'; rfl
  | .customNil h, .customNil h' => by rw [h] at h'; cases h'; rfl
  | .notSupported, .notSupported => rfl
  | .panic, .panic => rfl
  | .arr h, .arr h' => ElemsFail.unique h h'
  | .obj h, .obj h' => FieldsFail.unique h h'
  | .dict h, .dict h' => EntriesFail.unique h h'
termination_by structural h => h
theorem ElemsFail.unique {os e e'} : ElemsFail M html os e → ElemsFail M html os e' → e = e'
  | .head h, .head h' => OutFails.unique h h'
  | .head h, .tail h' _ => (out_exclusive h h').elim
  | .tail h _, .head h' => (out_exclusive h' h).elim
  | .tail _ h, .tail _ h' => ElemsFail.unique h h'
termination_by structural h => h
theorem FieldsFail.unique {os e e'} : FieldsFail M html os e → FieldsFail M html os e' → e = e'
  | .head h, .head h' => OutFails.unique h h'
  | .head h, .tail h' _ => (out_exclusive h h').elim
  | .tail h _, .head h' => (out_exclusive h' h).elim
  | .tail _ h, .tail _ h' => FieldsFail.unique h h'
termination_by structural h => h
theorem EntriesFail.unique {os e e'} : EntriesFail M html os e → EntriesFail M html os e' → e = e'
  | .key h, .key h' => h.unique h'
  | .key h, .head h' _ => (key_exclusive h' h).elim
  | .key h, .tail h' _ _ => (key_exclusive h' h).elim
  | .head h _, .key h' => (key_exclusive h h').elim
  | .tail h _ _, .key h' => (key_exclusive h h').elim
  | .head _ h, .head _ h' => OutFails.unique h h'
  | .head _ h, .tail _ h' _ => (out_exclusive h h').elim
  | .tail _ h _, .head _ h' => (out_exclusive h' h).elim
  | .tail _ _ h, .tail _ _ h' => EntriesFail.unique h h'
termination_by structural h => h
end

/-! ## The texts are JSON -/

theorem primText_value {q : Bool} {n : Nat} {k : Prim} {t : List Byte} (h : PrimText M html q n k t) : IsValue t := by
  cases k with
  | bool =>
    have h : t = quotedIf q (if M.bool n then trueText else falseText) := h
    exact boolText_value (F := Nat) (v := .bool (M.bool n)) ⟨_, rfl, h⟩
  | string =>
    cases q
    · exact value_str (stringText_str h)
    · obtain ⟨u, _, h⟩ := h
      exact value_str (stringText_str h)
  | int =>
    have h : t = quotedIf q (decimalInt (M.int n).value) := h
    exact intText_value (F := Nat) (fits := fun _ => True) (v := .int (M.int n).value) ⟨_, rfl, trivial, h⟩
  | uint8 =>
    have h : t = quotedIf q (decimal (n % 256)) := h
    have h' : decimal (n % 256) = decimalInt ((n % 256 : Nat) : Int) := by
      rw [decimalInt_nonneg (by omega)]; rfl
    rw [h'] at h
    exact intText_value (F := Nat) (fits := fun _ => True) (v := .int ((n % 256 : Nat) : Int)) ⟨_, rfl, trivial, h⟩
  | float =>
    obtain ⟨_, _, small, big, hf, ht⟩ := h
    exact value_num (floatText_number hf ht)

theorem keyOutText_str {k : KeyOut} {t : List Byte} (h : KeyOutText M html k t) : ∃ s, Str t s := by
  cases h with
  | string h => exact stringText_str h
  | int => exact str_number (decimalInt_number _)
  | uint8 =>
    next n =>
    have h' : decimal (n % 256) = decimalInt ((n % 256 : Nat) : Int) := by
      rw [decimalInt_nonneg (by omega)]; rfl
    rw [h']
    exact str_number (decimalInt_number _)
  | text _ h => exact stringText_str h
  | empty h => exact stringText_str h

mutual
theorem outText_value (hM : M.Lawful) {o t} : OutText M html o t → (∀ u, Carries M html o u → IsValue u) → IsValue t
  | .null, _ => value_null
  | .prim h, _ => primText_value h
  | @OutText.number _ _ n, hc => by
    split
    · exact value_num (.inl ⟨[0x30], [], [], rfl, .zero, .none, .none⟩)
    · next h => exact hc _ (.number h)
  | .raw, hc => hc _ .raw
  | .base64, _ => by
    refine value_str ⟨_, str_plain ?_⟩
    split
    · simp
    · exact hM.base64 _
  | .arr h, hc => bracketed_array (outTexts_value hM h fun o ho u hu => hc u (.arr ho hu))
  | .obj h, hc => bracketed_object (outFields_value hM h fun n o ho u hu => hc u (.obj ho hu))
  | .dict h, hc => bracketed_object (outEntries_value hM h fun k o ho u hu => hc u (.dict ho hu))
  | .json h, hc => hc _ (.json h)
  | .text _ h, _ => value_str (stringText_str h)
  | .custom h, hc => hc _ (.custom h)
  | .customNil h, hc => hc _ (.customNil h)
termination_by structural h => h
theorem outTexts_value (hM : M.Lawful) {os ts} : OutTexts M html os ts → (∀ o ∈ os, ∀ u, Carries M html o u → IsValue u) →
    ∀ t ∈ ts, IsValue t
  | .nil, _ => by simp
  | .cons h h', hc => by
    have h1 := outText_value hM h (hc _ (by simp))
    have h2 := outTexts_value hM h' (fun o ho => hc o (by simp [ho]))
    intro t ht
    rcases List.mem_cons.mp ht with rfl | ht
    · exact h1
    · exact h2 t ht
termination_by structural h => h
theorem outFields_value (hM : M.Lawful) {os ts} : OutFields M html os ts →
    (∀ n o, (n, o) ∈ os → ∀ u, Carries M html o u → IsValue u) → ∀ t ∈ ts, IsMember t
  | .nil, _ => by simp
  | .cons hk h h', hc => by
    have h1 := outText_value hM h (hc _ _ (List.mem_cons_self ..))
    have h2 := outFields_value hM h' (fun n o ho => hc n o (List.mem_cons_of_mem _ ho))
    intro t ht
    rcases List.mem_cons.mp ht with rfl | ht
    · obtain ⟨x, hx⟩ := stringText_str hk
      exact ⟨_, _, x, hx, h1, rfl⟩
    · exact h2 t ht
termination_by structural h => h
theorem outEntries_value (hM : M.Lawful) {os ts} : OutEntries M html os ts →
    (∀ k o, (k, o) ∈ os → ∀ u, Carries M html o u → IsValue u) → ∀ t ∈ ts, IsMember t
  | .nil, _ => by simp
  | .cons hk h h', hc => by
    have h1 := outText_value hM h (hc _ _ (List.mem_cons_self ..))
    have h2 := outEntries_value hM h' (fun k o ho => hc k o (List.mem_cons_of_mem _ ho))
    intro t ht
    rcases List.mem_cons.mp ht with rfl | ht
    · obtain ⟨x, hx⟩ := keyOutText_str hk
      exact ⟨_, _, x, hx, h1, rfl⟩
    · exact h2 t ht
termination_by structural h => h
end

/-! ## Where errors come from -/

theorem ShowsKey.source {Γ : Types} {t v k e} (h : ShowsKey Γ t v k) (hf : KeyFails M k e) : Source M html e := by
  cases h with
  | string => cases hf
  | nil => cases hf
  | ref => cases hf with | text h => exact .text h
  | text => cases hf with | text h => exact .text h
  | int _ _ hk => rcases hk with rfl | rfl <;> cases hf

theorem nilOut_source {Γ : Types} {q t e} (h : OutFails M html (Γ.nilOut q t) e) : Source M html e := by
  unfold Types.nilOut at h
  split at h
  · cases h with | customNil h => exact .custom h
  · split at h
    · cases h with | customNil h => exact .custom h
    · split at h
      · cases h; exact .type
      · cases h

mutual
theorem Shows.source {Γ : Types} {q t v o e} : Shows Γ q t v o → OutFails M html o e → Source M html e
  | .custom _, hf | .kindCustom _, hf => by cases hf with | custom h => exact .custom h
  | .number _, hf | .rawNil _, hf | .raw _, hf | .jsonIfaceNil _, hf | .textIfaceNil _, hf | .jsonNil _ _ _, hf | .textNil _ _ _, hf
  | .sliceNil _ _, hf | .bytes _ _ _, hf | .mapNil _ _ _, hf | .ifaceNil _ _, hf => by cases hf
  | .jsonIface _, hf | .json _ _, hf | .jsonPtr _ _ _, hf => by cases hf with | json h => exact .json h
  | .textIface _, hf | .text _ _, hf | .textPtr _ _ _, hf => by cases hf with | text h => exact .text h
  | .prim _ _ _, hf => by
    cases hf with
    | infinite => exact .infinity
    | nan => exact .nan
  | .notSupported _, hf => by cases hf; exact .type
  | .nil _, hf => nilOut_source hf
  | .ref _ h, hf => h.source hf
  | .iface _ _ h, hf => h.source hf
  | .slice _ _ _ h, hf => by cases hf with | arr hf => exact h.source hf
  | .array _ _ h, hf => by cases hf with | arr hf => exact h.source hf
  | .map _ _ _ h, hf => by cases hf with | dict hf => exact h.source hf
  | .struct _ _ h, hf => by cases hf with | obj hf => exact h.source hf
termination_by structural h => h
theorem ShowsVar.source {Γ : Types} {q t v o e} : ShowsVar Γ q t v o → OutFails M html o e → Source M html e
  | .value _ h, hf => h.source hf
  | .pointer _ h, hf => h.source hf
termination_by structural h => h
theorem ShowsVars.source {Γ : Types} {t vs os e} : ShowsVars Γ t vs os → ElemsFail M html os e → Source M html e
  | .nil, hf => by cases hf
  | .cons h h1, hf => by
    cases hf with
    | head hf => exact h.source hf
    | tail _ hf => exact h1.source hf
termination_by structural h => h
theorem ShowsEntries.source {Γ : Types} {k t vs os e} : ShowsEntries Γ k t vs os → EntriesFail M html os e → Source M html e
  | .nil, hf => by cases hf
  | .cons h0 h h1, hf => by
    cases hf with
    | key hf => exact h0.source hf
    | head _ hf => exact h.source hf
    | tail _ _ hf => exact h1.source hf
termination_by structural h => h
theorem ShowsFields.source {Γ : Types} {t v ds os e} : ShowsFields Γ t v ds os → FieldsFail M html os e → Source M html e
  | .nil, hf => by cases hf
  | .skip _ h, hf => h.source hf
  | .omitted _ _ _ _ h, hf => h.source hf
  | .field _ _ _ h h1, hf => by
    cases hf with
    | head hf => exact h.source hf
    | tail _ hf => exact h1.source hf
termination_by structural h => h
end

end Jzon.Words
