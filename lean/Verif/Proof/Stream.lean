import Verif.Spec.Stream
import Verif.Proof.EncInt
import Verif.Proof.EncStr
import Verif.Proof.EncFloat

/-!
# What the streamer writes
-/

set_option linter.unusedSimpArgs false

namespace Jzon

open Spec

theorem decimal_number (n : Nat) : Number (decimal n) :=
  .inl ⟨decimal n, [], [], by simp, (decimal_spec n).1, .none, .none⟩

theorem decimalInt_number (z : Int) : Number (decimalInt z) := by
  unfold decimalInt
  split
  · exact .inr ⟨_, rfl, decimal z.natAbs, [], [], by simp, (decimal_spec _).1, .none, .none⟩
  · exact decimal_number _

/-- The string that is written. -/
def quotedStr (html : Bool) (s : List Byte) : List Byte := 0x22 :: (pieces html (s.length + 1) s ++ [0x22])

theorem quotedStr_spec (html : Bool) (s s' : List Byte) (h : Sanitized s s') : Str (quotedStr html s) s' := by
  obtain ⟨x, h1, h2, _⟩ := pieces_spec html (n := s.length + 1) (l := s) (by omega)
  rw [sanitized_unique h h1]
  exact ⟨_, h2, rfl⟩

theorem encodeString_quoted (b s : List Byte) (html : Bool) : encodeString b s html = some (b ++ quotedStr html s) :=
  encodeString_eq b s html

def comma (s : Streamer) : List Byte := if s.poped then [0x2C] else []

/-- `cs` appends `t` as a value. -/
def Puts (html : Bool) (cs : List Call) (t : List Byte) : Prop :=
  ∀ s : Streamer, s.error = none → s.html = html →
    s.calls cs = { s with buffer := s.buffer ++ comma s ++ t, poped := true }

theorem onVal_eq (s : Streamer) : s.onVal = { s with buffer := s.buffer ++ comma s, poped := true } := by
  unfold Streamer.onVal comma
  split
  · rename_i h; simp [h]
  · simp

theorem writeVal_eq {s : Streamer} (h : s.error = none) {f : List Byte → Option (List Byte)} {t : List Byte}
    (hf : ∀ b, f b = some (b ++ t)) : s.writeVal f = { s with buffer := s.buffer ++ comma s ++ t, poped := true } := by
  simp [Streamer.writeVal, h, onVal_eq, hf]

theorem calls_append (s : Streamer) (cs ds : List Call) : s.calls (cs ++ ds) = (s.calls cs).calls ds := by
  simp [Streamer.calls, List.foldl_append]

theorem calls_cons (s : Streamer) (c : Call) (ds : List Call) : s.calls (c :: ds) = (s.call c).calls ds := rfl

/-- What `Float32`/`Float64` do for a finite number. -/
theorem float_eq {s : Streamer} {f : FloatArg} {small big : Bool} {t : List Byte} (hs : s.error = none)
    (hinf : f.isInf = false) (hnan : f.isNaN = false) (hf : FloatLaws f small big) (h : FloatText f small big t) :
    s.float f = { s with buffer := s.buffer ++ comma s ++ t, poped := true } := by
  unfold FloatText at h
  rw [← useE_eq hf] at h
  unfold Streamer.float
  rw [if_neg (by simp [hs]), hinf, hnan, onVal_eq]
  split at h
  · rename_i hu
    simp [hu, trim_eq hf.exponent h]
    rw [← List.append_assoc, trim_eq hf.exponent h]
    simp
  · rename_i hu
    simp [hu, h]

theorem scalar_puts {R : List Byte → JVal → Prop} {c : Call} {v : JVal} (h : Scalars R c v) (html : Bool) :
    ∃ t, Compact R t v ∧ Puts html [c] t := by
  have num : ∀ z, Compact R (decimalInt z) (.num (decimalInt z)) := fun z => .num _ (decimalInt_number z)
  have nat : ∀ z, Compact R (decimal z) (.num (decimal z)) := fun z => .num _ (decimal_number z)
  cases h with
  | null => exact ⟨_, .null, fun s h _ => writeVal_eq h fun b => rfl⟩
  | bool b =>
    cases b
    · exact ⟨_, .false, fun s h _ => writeVal_eq h fun b => rfl⟩
    · exact ⟨_, .true, fun s h _ => writeVal_eq h fun b => rfl⟩
  | int8 v => exact ⟨_, num _, fun s h _ => writeVal_eq h fun b => appendInt_eq (by decide) appendUint8_eq b v⟩
  | int16 v => exact ⟨_, num _, fun s h _ => writeVal_eq h fun b => appendInt_eq (by decide) appendUint16_eq b v⟩
  | int32 v => exact ⟨_, num _, fun s h _ => writeVal_eq h fun b => appendInt_eq (by decide) appendUint32_eq b v⟩
  | int64 v => exact ⟨_, num _, fun s h _ => writeVal_eq h fun b => appendInt_eq (by decide) appendUint64_eq b v⟩
  | uint8 v => exact ⟨_, nat _, fun s h _ => writeVal_eq h fun b => appendUint8_eq b v⟩
  | uint16 v => exact ⟨_, nat _, fun s h _ => writeVal_eq h fun b => appendUint16_eq b v⟩
  | uint32 v => exact ⟨_, nat _, fun s h _ => writeVal_eq h fun b => appendUint32_eq b v⟩
  | uint64 v => exact ⟨_, nat _, fun s h _ => writeVal_eq h fun b => appendUint64_eq b v⟩
  | float f small big t hinf hnan hf ht =>
    exact ⟨_, .num _ (floatText_number hf ht), fun s h _ => float_eq h hinf hnan hf ht⟩
  | string x x' hx =>
    exact ⟨_, .str _ _ (quotedStr_spec html x x' hx), fun s h hh => by
      subst hh; exact writeVal_eq h fun b => encodeString_quoted b x s.html⟩
  | raw t v hv => exact ⟨_, .raw _ _ hv, fun s h _ => writeVal_eq h fun b => rfl⟩

theorem name_puts {c : Call} {key : List Byte} (h : Name c key) (html : Bool) :
    ∃ k, Str k key ∧ ∀ s : Streamer, s.error = none → s.html = html →
      s.call c = { s with buffer := s.buffer ++ comma s ++ k ++ [0x3A], poped := false } := by
  cases h with
  | field x _ hx =>
    refine ⟨_, quotedStr_spec html x key hx, fun s h hh => ?_⟩
    simp [Streamer.call, Streamer.field, h, onVal_eq, hh, encodeString_quoted]
  | rawField t _ ht =>
    refine ⟨_, ht, fun s h hh => ?_⟩
    simp [Streamer.call, Streamer.rawField, h, onVal_eq]

theorem describes_puts {R : List Byte → JVal → Prop} (html : Bool) {cs : List Call} {v : JVal} (h : Describes R cs v) :
    ∃ t, Compact R t v ∧ Puts html cs t := by
  induction h using Describes.rec
    (motive_2 := fun cs vs _ => (cs = [] ∧ vs = []) ∨ ∃ t, CompactElems R t vs ∧ Puts html cs t)
    (motive_3 := fun cs ms _ => (cs = [] ∧ ms = []) ∨ ∃ t, CompactMembers R t ms ∧ Puts html cs t) with
  | scalar c v h => exact scalar_puts h html
  | arr cs vs _ ih =>
    rcases ih with ⟨rfl, rfl⟩ | ⟨t, ht, hp⟩
    · refine ⟨_, .arrEmpty, fun s h hh => ?_⟩
      simp [Streamer.calls, Streamer.call, Streamer.arrayStart, Streamer.arrayEnd, onVal_eq, h]
    · refine ⟨_, .arr _ _ ht, fun s h hh => ?_⟩
      rw [calls_cons, calls_append, hp (s.call .arrayStart)]
      · simp [Streamer.calls, Streamer.call, Streamer.arrayStart, Streamer.arrayEnd, onVal_eq, h, comma]
      · simp [Streamer.call, Streamer.arrayStart, onVal_eq, h]
      · simp [Streamer.call, Streamer.arrayStart, onVal_eq, h, hh]
  | obj cs ms _ ih =>
    rcases ih with ⟨rfl, rfl⟩ | ⟨t, ht, hp⟩
    · refine ⟨_, .objEmpty, fun s h hh => ?_⟩
      simp [Streamer.calls, Streamer.call, Streamer.objectStart, Streamer.objectEnd, onVal_eq, h]
    · refine ⟨_, .obj _ _ ht, fun s h hh => ?_⟩
      rw [calls_cons, calls_append, hp (s.call .objectStart)]
      · simp [Streamer.calls, Streamer.call, Streamer.objectStart, Streamer.objectEnd, onVal_eq, h, comma]
      · simp [Streamer.call, Streamer.objectStart, onVal_eq, h]
      · simp [Streamer.call, Streamer.objectStart, onVal_eq, h, hh]
  | none => exact .inl ⟨rfl, rfl⟩
  | elem cs ds v vs _ _ ih1 ih2 =>
    obtain ⟨t, ht, hp⟩ := ih1
    refine .inr ?_
    rcases ih2 with ⟨rfl, rfl⟩ | ⟨t', ht', hp'⟩
    · exact ⟨t, .one t v ht, by simpa using hp⟩
    · refine ⟨t ++ 0x2C :: t', .cons t t' v vs ht ht', fun s h hh => ?_⟩
      rw [calls_append, hp s h hh]
      refine (hp' _ ?_ ?_).trans ?_
      · exact h
      · exact hh
      · simp [comma]
  | noMember => exact .inl ⟨rfl, rfl⟩
  | member c cs ds key v ms hk _ _ ih1 ih2 =>
    obtain ⟨k, hk, hc⟩ := name_puts hk html
    obtain ⟨t, ht, hp⟩ := ih1
    refine .inr ?_
    rcases ih2 with ⟨rfl, rfl⟩ | ⟨t', ht', hp'⟩
    · refine ⟨_, .single k t key v hk ht, fun s h hh => ?_⟩
      rw [calls_cons, hc s h hh, List.append_nil]
      refine (hp _ ?_ ?_).trans ?_
      · exact h
      · exact hh
      · simp [comma]
    · refine ⟨_, .more k t t' key v ms hk ht ht', fun s h hh => ?_⟩
      rw [calls_cons, hc s h hh, calls_append]
      refine (congrArg (fun s => Streamer.calls s ds) (hp _ ?_ ?_)).trans ?_
      · exact h
      · exact hh
      · refine (hp' _ ?_ ?_).trans ?_
        · exact h
        · exact hh
        · simp [comma]

/-- Compact texts are JSON texts. -/
theorem compact_value {R : List Byte → JVal → Prop} (hR : ∀ t v, R t v → Value t v) {t : List Byte} {v : JVal}
    (h : Compact R t v) : Value t v := by
  have w0 : Ws [] := by intro c hc; cases hc
  induction h using Compact.rec
    (motive_2 := fun t vs _ => Elems t vs)
    (motive_3 := fun t ms _ => Members t ms) with
  | null => exact .null
  | true => exact .true
  | false => exact .false
  | num l h => exact .num l h
  | str l s h => exact .str l s h
  | raw t v h => exact hR t v h
  | arrEmpty => exact .arrEmpty [] w0
  | arr l vs _ ih => exact .arr l vs ih
  | objEmpty => exact .objEmpty [] w0
  | obj l ms _ ih => exact .obj l ms ih
  | one t v _ ih => simpa using Elems.one [] t [] v w0 ih w0
  | cons t r v vs _ _ ih1 ih2 => simpa using Elems.cons [] t [] r v vs w0 ih1 w0 ih2
  | single k t key v hk _ ih => simpa using Members.single [] k [] [] t [] key v w0 hk w0 w0 ih w0
  | more k t r key v ms hk _ _ ih1 ih2 => simpa using Members.more [] k [] [] t [] r key v ms w0 hk w0 w0 ih1 w0 ih2

end Jzon
