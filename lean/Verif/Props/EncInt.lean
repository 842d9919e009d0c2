import Verif.Proof.Stream
import Verif.Props.Int

/-!
# C15, C16: integer encoding
-/

set_option linter.unusedSimpArgs false

namespace Jzon.Props

open Spec Jzon

/-! ## The canonical text -/

theorem digit_val : ∀ c : Byte, Digit c → c.toNat - 0x30 < 10 ∧ UInt8.ofNat (0x30 + (c.toNat - 0x30)) = c := by
  apply forall_byte
  decide +kernel

theorem decimal_step {n d : Nat} (hn : n ≠ 0) (hd : d < 10) :
    decimal (n * 10 + d) = decimal n ++ [UInt8.ofNat (0x30 + d)] := by
  rw [decimal, if_neg (by omega), show (n * 10 + d) / 10 = n by omega, show (n * 10 + d) % 10 = d by omega]

theorem decimal_decFrom {n : Nat} (hn : n ≠ 0) {ds : List Byte} (h : ∀ d ∈ ds, Digit d) :
    decimal (decFrom n ds) = decimal n ++ ds := by
  induction ds generalizing n with
  | nil => simp [decFrom]
  | cons d ds ih =>
    obtain ⟨h1, h2⟩ := digit_val d (h d (by simp))
    rw [show decFrom n (d :: ds) = decFrom (n * 10 + (d.toNat - 0x30)) ds from rfl,
      ih (by omega) (fun x hx => h x (by simp [hx])), decimal_step hn h1, h2]
    simp

theorem first_digit : ∀ c : Byte, 0x31 ≤ c ∧ c ≤ 0x39 →
    Digit c ∧ c.toNat - 0x30 ≠ 0 ∧ c.toNat - 0x30 < 10 ∧ UInt8.ofNat (0x30 + (c.toNat - 0x30)) = c := by
  apply forall_byte
  decide +kernel

theorem decimal_unique {t : List Byte} (h : IntPart t) : t = decimal (dec t) := by
  cases h with
  | zero => decide +kernel
  | pos d ds hd hds =>
    obtain ⟨_, h1, h2, h3⟩ := first_digit d hd
    rw [show dec (d :: ds) = decFrom (0 * 10 + (d.toNat - 0x30)) ds from rfl, decimal_decFrom (by omega) hds, decimal,
      if_pos (by omega), Nat.zero_mul, Nat.zero_add, h3]
    rfl

theorem canonical_iff {z : Int} {t : List Byte} : Canonical z t ↔ t = decimalInt z := by
  unfold Canonical decimalInt
  constructor
  · rintro (⟨h0, h1, h2⟩ | ⟨h0, u, rfl, h1, h2⟩)
    · rw [if_neg (by omega), show z.natAbs = dec t by omega]; exact decimal_unique h1
    · rw [if_pos h0, show z.natAbs = dec u by omega, ← decimal_unique h1]
  · rintro rfl
    obtain ⟨h1, h2, _⟩ := decimal_spec z.natAbs
    by_cases h : z < 0
    · exact .inr ⟨h, _, if_pos h, h1, by rw [h2]; omega⟩
    · rw [if_neg h]; exact .inl ⟨by omega, h1, by rw [h2]; omega⟩

theorem decimalInt_nat (n : Nat) : decimalInt n = decimal n := by
  unfold decimalInt; rw [if_neg (by omega)]; rfl

/-- There is exactly one canonical text for each integer. -/
theorem C15_canonical_unique (z : Int) : ∃ t, Canonical z t ∧ ∀ t', Canonical z t' → t' = t :=
  ⟨_, canonical_iff.mpr rfl, fun _ h => canonical_iff.mp h⟩

/-! ## C15 -/

/-- The call `c` appends the canonical decimal text of `z`, after a comma if a value precedes it; nothing else changes. -/
def Appends (c : Call) (z : Int) : Prop :=
  ∃ t, Canonical z t ∧ ∀ s : Streamer, s.error = none →
    s.call c = { s with buffer := s.buffer ++ (if s.poped then [0x2C] else []) ++ t, poped := true }

theorem appends {c : Call} {z : Int} {f : List Byte → Option (List Byte)}
    (h1 : ∀ s : Streamer, s.call c = s.writeVal f) (h2 : ∀ b, f b = some (b ++ decimalInt z)) : Appends c z :=
  ⟨_, canonical_iff.mpr rfl, fun s hs => (h1 s).trans (writeVal_eq hs h2)⟩

/-- **C15.** -/
theorem C15_Uint8 (v : BitVec 8) : Appends (.uint8 v) v.toNat :=
  appends (fun _ => rfl) fun b => decimalInt_nat _ ▸ appendUint8_eq b v
/-- **C15.** -/
theorem C15_Uint16 (v : BitVec 16) : Appends (.uint16 v) v.toNat :=
  appends (fun _ => rfl) fun b => decimalInt_nat _ ▸ appendUint16_eq b v
/-- **C15.** -/
theorem C15_Uint32 (v : BitVec 32) : Appends (.uint32 v) v.toNat :=
  appends (fun _ => rfl) fun b => decimalInt_nat _ ▸ appendUint32_eq b v
/-- **C15**; also `Uint`. -/
theorem C15_Uint64 (v : BitVec 64) : Appends (.uint64 v) v.toNat :=
  appends (fun _ => rfl) fun b => decimalInt_nat _ ▸ appendUint64_eq b v
/-- **C15.** -/
theorem C15_Int8 (v : BitVec 8) : Appends (.int8 v) v.toInt :=
  appends (fun _ => rfl) fun b => appendInt_eq (by decide) appendUint8_eq b v
/-- **C15.** -/
theorem C15_Int16 (v : BitVec 16) : Appends (.int16 v) v.toInt :=
  appends (fun _ => rfl) fun b => appendInt_eq (by decide) appendUint16_eq b v
/-- **C15.** -/
theorem C15_Int32 (v : BitVec 32) : Appends (.int32 v) v.toInt :=
  appends (fun _ => rfl) fun b => appendInt_eq (by decide) appendUint32_eq b v
/-- **C15**; also `Int`. -/
theorem C15_Int64 (v : BitVec 64) : Appends (.int64 v) v.toInt :=
  appends (fun _ => rfl) fun b => appendInt_eq (by decide) appendUint64_eq b v

/-- Concrete case: the least value of `int64`, as the second element of an array. -/
example : (Streamer.mk none (bs! "[1") none true true).call (.int64 (BitVec.ofInt 64 (-9223372036854775808))) =
    ⟨none, bs! "[1,-9223372036854775808", none, true, true⟩ := by
  obtain ⟨t, h1, h2⟩ := C15_Int64 (BitVec.ofInt 64 (-9223372036854775808))
  rw [h2 _ rfl]
  have : Canonical (BitVec.ofInt 64 (-9223372036854775808)).toInt (bs! "-9223372036854775808") :=
    .inr ⟨by decide, bs! "9223372036854775808", rfl, .pos 0x39 _ (by decide) (by decide), by decide⟩
  rw [canonical_iff.mp h1, ← canonical_iff.mp this]
  rfl

/-! ## C16 -/

/-- Reading with `p` a text that starts with what the call `c` writes returns `v` and consumes exactly what was written,
whatever follows that does not continue the number, and however the input is chunked. -/
def RoundTrip {w : Nat} (c : BitVec w → Call) (p : Prog (BitVec w)) : Prop :=
  ∀ (v : BitVec w) (s : Streamer) (it : It) (r : List Byte) (e : Err), s.error = none → s.buffer = [] → s.poped = false →
    (∀ d r', r = d :: r' → ¬ Digit d) → (r = [] → e = .eof) → Unread it ((s.call (c v)).buffer ++ r) e →
    ∃ it', p.runM it = (.ok v, it') ∧ Unread it' r e

theorem roundTrip {w : Nat} {c : BitVec w → Call} {p : Prog (BitVec w)} {z : BitVec w → Int}
    (h1 : ∀ v, Appends (c v) (z v))
    (h2 : ∀ (v : BitVec w) (it : It) (r : List Byte) (e : Err), (∀ d r', r = d :: r' → ¬ Digit d) → (r = [] → e = .eof) →
      Unread it (decimalInt (z v) ++ r) e → ∃ it', p.runM it = (.ok v, it') ∧ Unread it' r e) : RoundTrip c p := by
  intro v s it r e hs hb hp hd he hu
  obtain ⟨t, h3, h4⟩ := h1 v
  rw [h4 s hs, canonical_iff.mp h3] at hu
  simp only [hb, hp, List.nil_append, Bool.false_eq_true, if_false] at hu
  exact h2 v it r e hd he hu

theorem intAt_decimal {n : Nat} {r : List Byte} {e : Err} (hd : ∀ d r', r = d :: r' → ¬ Digit d) (he : r = [] → e = .eof) :
    IntAt e (decimal n) r := ⟨(decimal_spec n).1, fun _ => ⟨hd, he⟩⟩

theorem ws_nil : Ws [] := by intro c hc; cases hc

theorem roundTrip_unsigned {w : Nat} {c : BitVec w → Call} {p : Prog (BitVec w)} (h1 : ∀ v, Appends (c v) v.toNat)
    (h2 : ReadsUnsigned w p) : RoundTrip c p := by
  refine roundTrip (z := fun v => (v.toNat : Int)) h1 fun v it r e hd he hu => ?_
  rw [decimalInt_nat] at hu
  exact ((h2 it _ e hu).1 v r).mpr ⟨[], _, ws_nil, rfl, intAt_decimal hd he, (decimal_spec _).2.1.symm⟩

theorem signed_decimal (z : Int) : Signed (decimalInt z) (decimal z.natAbs) z := by
  have h2 := (decimal_spec z.natAbs).2.1
  unfold decimalInt
  by_cases h : z < 0
  · rw [if_pos h]
    have := Signed.neg (decimal z.natAbs)
    rwa [h2, show -(z.natAbs : Int) = z by omega] at this
  · rw [if_neg h]
    have := Signed.pos (decimal z.natAbs)
    rwa [h2, show (z.natAbs : Int) = z by omega] at this

theorem roundTrip_signed {w : Nat} {c : BitVec w → Call} {p : Prog (BitVec w)} (h1 : ∀ v, Appends (c v) v.toInt)
    (h2 : ReadsSigned w p) : RoundTrip c p := by
  refine roundTrip h1 fun v it r e hd he hu => ?_
  exact ((h2 it _ e hu).1 v r).mpr ⟨[], _, _, _, ws_nil, rfl, signed_decimal _, intAt_decimal hd he, rfl⟩

theorem decimal_length {n : Nat} (h : n < 1000) : (decimal n).length ≤ 3 := by
  rw [decimal]
  split
  · simp
  · rw [decimal]
    split
    · simp
    · rw [decimal, if_pos (by omega)]; simp

/-- **C16.** -/
theorem C16_Uint8 : RoundTrip .uint8 ReadUint8 := by
  refine roundTrip (z := fun v => (v.toNat : Int)) C15_Uint8 fun v it r e hd he hu => ?_
  rw [decimalInt_nat] at hu
  have hv : v.toNat < 256 := v.isLt
  have h2 := (decimal_spec v.toNat).2.1
  obtain ⟨v', it', h3, h4, h5⟩ := (C11_ReadUint8_partial (ws := []) hu ws_nil (intAt_decimal hd he)
    (decimal_length (by omega))).1 (by rw [h2]; exact hv)
  rw [h2] at h4
  exact ⟨it', BitVec.eq_of_toNat_eq h4 ▸ h3, h5⟩
/-- **C16.** -/
theorem C16_Int8 : RoundTrip .int8 ReadInt8 := by
  refine roundTrip C15_Int8 fun v it r e hd he hu => ?_
  have hv : -128 ≤ v.toInt ∧ v.toInt < 128 := ⟨BitVec.le_toInt v, BitVec.toInt_lt⟩
  obtain ⟨v', it', h3, h4, h5⟩ := (C11_ReadInt8_partial (ws := []) hu ws_nil (signed_decimal _) (intAt_decimal hd he)
    (decimal_length (by omega))).1 hv
  exact ⟨it', BitVec.eq_of_toInt_eq h4 ▸ h3, h5⟩
/-- **C16.** -/
theorem C16_Uint16 : RoundTrip .uint16 ReadUint16 := roundTrip_unsigned C15_Uint16 C10_ReadUint16
/-- **C16.** -/
theorem C16_Uint32 : RoundTrip .uint32 ReadUint32 := roundTrip_unsigned C15_Uint32 C10_ReadUint32
/-- **C16**; also `Uint`. -/
theorem C16_Uint64 : RoundTrip .uint64 ReadUint64 := roundTrip_unsigned C15_Uint64 C10_ReadUint64
/-- **C16.** -/
theorem C16_Int16 : RoundTrip .int16 ReadInt16 := roundTrip_signed C15_Int16 C10_ReadInt16
/-- **C16.** -/
theorem C16_Int32 : RoundTrip .int32 ReadInt32 := roundTrip_signed C15_Int32 C10_ReadInt32
/-- **C16**; also `Int`. -/
theorem C16_Int64 : RoundTrip .int64 ReadInt64 := roundTrip_signed C15_Int64 C10_ReadInt64

/-- Concrete case: -128. -/
example (it : It) : ∃ it', ReadInt8.runM (it.resetBytes (((Streamer.mk none [] none false true).call (.int8 0x80)).buffer ++ bs! " ,")) =
    (.ok 0x80, it') := by
  obtain ⟨it', h, _⟩ := C16_Int8 0x80 (Streamer.mk none [] none false true) _ (bs! " ,") _ rfl rfl rfl
    (by intro d r' h; cases h; decide) (by simp) (unread_bytes it _)
  exact ⟨it', h⟩

end Jzon.Props
