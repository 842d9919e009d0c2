import Verif.Proof.Top
import Verif.Proof.Int

/-!
# C10, C11: integers
-/

set_option linter.unusedSimpArgs false

namespace Jzon.Props

open Spec Jzon

/-- `p` reads unsigned `w`-bit integers: it succeeds with `v`, leaving `r`, exactly if the unread input is white space,
an integer literal denoting the value of `v`, and `r`; if the literal denotes a number that does not fit, the result
is an `IntOverflowError`. -/
def ReadsUnsigned (w : Nat) (p : Prog (BitVec w)) : Prop :=
  ∀ (it : It) (l : List Byte) (e : Err), Unread it l e →
    (∀ v r, (∃ it', p.runM it = (.ok v, it') ∧ Unread it' r e) ↔
      ∃ ws t, Ws ws ∧ l = ws ++ (t ++ r) ∧ IntAt e t r ∧ v.toNat = dec t) ∧
    (∀ ws t r, Ws ws → l = ws ++ (t ++ r) → IntAt e t r → 2 ^ w ≤ dec t →
      ∃ typ n it', p.runM it = (.error (.intOverflow typ n), it'))

/-- `p` reads signed `w`-bit integers. -/
def ReadsSigned (w : Nat) (p : Prog (BitVec w)) : Prop :=
  ∀ (it : It) (l : List Byte) (e : Err), Unread it l e →
    (∀ v r, (∃ it', p.runM it = (.ok v, it') ∧ Unread it' r e) ↔
      ∃ ws s t z, Ws ws ∧ l = ws ++ (s ++ r) ∧ Signed s t z ∧ IntAt e t r ∧ v.toInt = z) ∧
    (∀ ws s t z r, Ws ws → l = ws ++ (s ++ r) → Signed s t z → IntAt e t r → ¬ Fits w z →
      ∃ typ n it', p.runM it = (.error (.intOverflow typ n), it'))

theorem intPart_head : ∀ c : Byte, Digit c ∨ c = 0x2D → isWs c = false := by
  apply forall_byte
  decide +kernel

theorem intAt_head {e : Err} {t r : List Byte} (h : IntAt e t r) : ∃ c u, t = c :: u ∧ isWs c = false := by
  cases h.1 with
  | zero => exact ⟨_, _, rfl, by decide⟩
  | pos d ds hd _ => exact ⟨_, _, rfl, intPart_head _ (.inl ⟨UInt8.le_trans (by decide) hd.1, hd.2⟩)⟩

theorem signed_head {e : Err} {s t r : List Byte} {z : Int} (hs : Signed s t z) (h : IntAt e t r) :
    ∃ c u, s = c :: u ∧ isWs c = false := by
  cases hs with
  | pos => exact intAt_head h
  | neg => exact ⟨_, _, rfl, by decide⟩

theorem toNat_ofNat_iff {w n : Nat} {v : BitVec w} : v.toNat = n ↔ n < 2 ^ w ∧ v = BitVec.ofNat w n := by
  constructor
  · rintro rfl
    exact ⟨v.isLt, by simp⟩
  · rintro ⟨h, rfl⟩
    simp [Nat.mod_eq_of_lt h]

theorem toInt_ofInt_iff {w : Nat} (hw : 1 ≤ w) {z : Int} {v : BitVec w} :
    v.toInt = z ↔ Fits w z ∧ v = BitVec.ofInt w z := by
  constructor
  · rintro rfl
    exact ⟨⟨BitVec.le_toInt v, BitVec.toInt_lt⟩, (BitVec.ofInt_toInt).symm⟩
  · rintro ⟨⟨h1, h2⟩, rfl⟩
    exact BitVec.toInt_ofInt_eq_self (by omega) h1 h2

theorem runF_token_then {α : Type} {env : Env} {f : Byte → Prog α} {ws l : List Byte} {c : Byte} (hws : Ws ws)
    (hc : isWs c = false) : (nextTokenTake >>= f).runF env (ws ++ c :: l) = (f c).runF env l := by
  rw [runF_bind, show nextTokenTake.runF env (ws ++ c :: l) = .ok (c, l) from
    runs_nextTokenTake.mpr ⟨ws, hws, hc, rfl⟩]

theorem readsUnsigned {w : Nat} {p : Byte → Prog (BitVec w)} (hp : UintOk w p) :
    ReadsUnsigned w (nextTokenTake >>= p) := by
  intro it l e h
  have he := env_endErr h
  constructor
  · intro v r
    rw [runM_iff h]
    simp only [runs_bind, runs_nextTokenTake]
    constructor
    · rintro ⟨c, l1, ⟨ws, hws, hc, rfl⟩, hr⟩
      obtain ⟨t, h1, h2, h3, h4⟩ := (hp.ok _ _ _ _ _).mp hr
      exact ⟨ws, t, hws, by rw [h1], he ▸ h2, toNat_ofNat_iff.mpr ⟨h3, h4⟩⟩
    · rintro ⟨ws, t, hws, rfl, h2, h3⟩
      obtain ⟨c, u, rfl, hc⟩ := intAt_head h2
      obtain ⟨h4, h5⟩ := toNat_ofNat_iff.mp h3
      exact ⟨c, u ++ r, ⟨ws, hws, hc, rfl⟩, (hp.ok _ _ _ _ _).mpr ⟨c :: u, rfl, he ▸ h2, h4, h5⟩⟩
  · rintro ws t r hws rfl h2 h3
    obtain ⟨c, u, rfl, hc⟩ := intAt_head h2
    obtain ⟨it', h⟩ := runM_of_error h (x := .intOverflow [] none) (p := nextTokenTake >>= p) (by
      rw [show ws ++ (c :: u ++ r) = ws ++ c :: (u ++ r) from rfl, runF_token_then hws hc]
      exact hp.overflow _ _ _ (c :: u) r rfl (he ▸ h2) h3)
    exact ⟨_, _, it', h⟩

theorem readsSigned {w : Nat} (hw : 1 ≤ w) {p : Byte → Prog (BitVec w)} (hp : UintOk w p) {typ : List Byte} :
    ReadsSigned w (nextTokenTake >>= readInt w typ p) := by
  intro it l e h
  have he := env_endErr h
  constructor
  · intro v r
    rw [runM_iff h]
    simp only [runs_bind, runs_nextTokenTake]
    constructor
    · rintro ⟨c, l1, ⟨ws, hws, hc, rfl⟩, hr⟩
      obtain ⟨s, t, z, h1, h2, h3, h4⟩ := readInt_sound hw hp hr
      exact ⟨ws, s, t, z, hws, by rw [h1], h2, he ▸ h3, (toInt_ofInt_iff hw).mpr h4⟩
    · rintro ⟨ws, s, t, z, hws, rfl, hs, h2, h3⟩
      obtain ⟨c, u, rfl, hc⟩ := signed_head hs h2
      obtain ⟨h4, rfl⟩ := (toInt_ofInt_iff hw).mp h3
      exact ⟨c, u ++ r, ⟨ws, hws, hc, rfl⟩, (readInt_good hw hp.good rfl hs (he ▸ h2) trivial).1 h4⟩
  · rintro ws s t z r hws rfl hs h2 h3
    obtain ⟨c, u, rfl, hc⟩ := signed_head hs h2
    have h5 := (readInt_good (typ := typ) (l := u ++ r) (r := r) hw hp.good rfl hs
      (show IntAt it.env.endErr t r from he ▸ h2) trivial).2 h3
    obtain ⟨it', h⟩ := runM_of_error h (p := nextTokenTake >>= readInt w typ p) (by
      rw [show ws ++ (c :: u ++ r) = ws ++ c :: (u ++ r) from rfl, runF_token_then hws hc]
      exact h5)
    split at h
    · exact ⟨_, _, it', h⟩
    · exact ⟨_, _, it', h⟩

/-! ## C10 -/

/-- **C10.** -/
theorem C10_ReadUint16 : ReadsUnsigned 16 ReadUint16 := readsUnsigned readUint16_ok
/-- **C10.** -/
theorem C10_ReadUint32 : ReadsUnsigned 32 ReadUint32 := readsUnsigned readUint32_ok
/-- **C10.** -/
theorem C10_ReadUint64 : ReadsUnsigned 64 ReadUint64 := readsUnsigned readUint64_ok
/-- **C10.** -/
theorem C10_ReadInt16 : ReadsSigned 16 ReadInt16 := readsSigned (by decide) readUint16_ok
/-- **C10.** -/
theorem C10_ReadInt32 : ReadsSigned 32 ReadInt32 := readsSigned (by decide) readUint32_ok
/-- **C10.** -/
theorem C10_ReadInt64 : ReadsSigned 64 ReadInt64 := readsSigned (by decide) readUint64_ok
/-- **C10**, for `int` of 64 bits. -/
theorem C10_ReadInt : ReadsSigned 64 ReadInt := C10_ReadInt64
/-- **C10**, for `uint` of 64 bits. -/
theorem C10_ReadUint : ReadsUnsigned 64 ReadUint := C10_ReadUint64

/-- Concrete case: a 40 digit number is an overflow, not a truncated value. -/
example (it : It) : ∃ typ n it',
    ReadUint64.runM (it.resetBytes (bs! " 1000000000000000000000000000000000000000,")) =
      (.error (.intOverflow typ n), it') := by
  refine (C10_ReadUint64 _ _ _ (unread_bytes it _)).2 [0x20] (bs! "1000000000000000000000000000000000000000") [0x2C]
    (by intro c hc; simp at hc; subst hc; exact .inl rfl) (by decide) ⟨?_, fun _ => ⟨?_, by simp⟩⟩ (by decide)
  · exact .pos 0x31 _ (by decide) (by decide)
  · intro c r' h; cases h; decide

/-- Concrete case: the least 16-bit value. -/
example (it : It) : ∃ it', ReadInt16.runM (it.resetBytes (bs! "-32768")) = (.ok (-32768), it') := by
  obtain ⟨it', h, _⟩ := ((C10_ReadInt16 _ _ _ (unread_bytes it (bs! "-32768"))).1 (-32768) []).mpr
    ⟨[], _, _, _, (by intro c hc; cases hc), by simp, .neg (bs! "32768"),
      ⟨.pos 0x33 _ (by decide) (by decide), fun _ => ⟨by simp, fun _ => rfl⟩⟩, by decide⟩
  exact ⟨it', h⟩

/-! ## C11 -/

/-- Some iterator object. -/
def freshIt : It := { buf := [], head := 0, offset := 0, capture := false, reader := none }

/-- **C11**, violated: a fourth digit is not looked at, `1234` reads as 123 with `4` left, not as an overflow. -/
theorem C11_violated : ¬ ReadsUnsigned 8 ReadUint8 ∧ ¬ ReadsSigned 8 ReadInt8 := by
  have hp : IntPart (bs! "1234") := .pos 0x31 _ (by decide) (by decide)
  have ha : IntAt .eof (bs! "1234") [] := ⟨hp, fun _ => ⟨by simp, fun _ => rfl⟩⟩
  constructor
  · intro h
    obtain ⟨typ, n, it', h'⟩ := (h _ _ _ (unread_bytes freshIt (bs! "1234"))).2 [] (bs! "1234") []
      (by intro c hc; cases hc) (by simp) ha (by decide)
    have := congrArg Prod.fst h'
    rw [show (ReadUint8.runM (freshIt.resetBytes (bs! "1234"))).1 = .ok 123 from rfl] at this
    cases this
  · intro h
    obtain ⟨typ, n, it', h'⟩ := (h _ _ _ (unread_bytes freshIt (bs! "1234"))).2 [] (bs! "1234") (bs! "1234") _ []
      (by intro c hc; cases hc) (by simp) (.pos _) ha (by unfold Fits; decide)
    have := congrArg Prod.fst h'
    rw [show (ReadInt8.runM (freshIt.resetBytes (bs! "1234"))).1 = .ok 123 from rfl] at this
    cases this

/-- **C11**, for literals of at most three digits (`_partial`: the property asks for any number of digits, which
`C11_violated` refutes): exact value or overflow error. -/
theorem C11_ReadUint8_partial {it : It} {ws t r : List Byte} {e : Err} (h : Unread it (ws ++ (t ++ r)) e) (hws : Ws ws)
    (ht : IntAt e t r) (hlen : t.length ≤ 3) :
    (dec t < 256 → ∃ v it', ReadUint8.runM it = (.ok v, it') ∧ v.toNat = dec t ∧ Unread it' r e) ∧
    (256 ≤ dec t → ∃ typ n it', ReadUint8.runM it = (.error (.intOverflow typ n), it')) := by
  have he := env_endErr h
  obtain ⟨c, u, rfl, hc⟩ := intAt_head ht
  constructor
  · intro hlt
    obtain ⟨it', h1, h2⟩ := runM_of_runs h (p := ReadUint8) (a := BitVec.ofNat 8 (dec (c :: u))) (r := r) (by
      unfold Runs ReadUint8
      rw [show ws ++ (c :: u ++ r) = ws ++ c :: (u ++ r) from rfl, runF_token_then hws hc]
      exact readUint8_good.ok _ _ _ _ r rfl (he ▸ ht) hlen hlt)
    exact ⟨_, it', h1, by rw [BitVec.toNat_ofNat, Nat.mod_eq_of_lt hlt], h2⟩
  · intro hge
    obtain ⟨it', h1⟩ := runM_of_error h (p := ReadUint8) (by
      unfold ReadUint8
      rw [show ws ++ (c :: u ++ r) = ws ++ c :: (u ++ r) from rfl, runF_token_then hws hc]
      exact readUint8_good.overflow _ _ _ _ r rfl (he ▸ ht) hlen hge)
    exact ⟨_, _, it', h1⟩

/-- **C11**, the same for signed integers. -/
theorem C11_ReadInt8_partial {it : It} {ws s t r : List Byte} {z : Int} {e : Err} (h : Unread it (ws ++ (s ++ r)) e)
    (hws : Ws ws) (hs : Signed s t z) (ht : IntAt e t r) (hlen : t.length ≤ 3) :
    (-128 ≤ z ∧ z < 128 → ∃ v it', ReadInt8.runM it = (.ok v, it') ∧ v.toInt = z ∧ Unread it' r e) ∧
    (¬ (-128 ≤ z ∧ z < 128) → ∃ typ n it', ReadInt8.runM it = (.error (.intOverflow typ n), it')) := by
  have he := env_endErr h
  obtain ⟨c, u, rfl, hc⟩ := signed_head hs ht
  have key := readInt_good (w := 8) (typ := bs! "int8") (by decide) readUint8_good (l := u ++ r) (r := r) rfl hs
    (show IntAt it.env.endErr t r from he ▸ ht) hlen
  have hfit : Fits 8 z ↔ -128 ≤ z ∧ z < 128 := by unfold Fits; omega
  rw [hfit] at key
  constructor
  · intro hz
    obtain ⟨it', h1, h2⟩ := runM_of_runs h (p := ReadInt8) (a := BitVec.ofInt 8 z) (r := r) (by
      unfold Runs ReadInt8
      rw [show ws ++ (c :: u ++ r) = ws ++ c :: (u ++ r) from rfl, runF_token_then hws hc]
      exact key.1 hz)
    exact ⟨_, it', h1, ((toInt_ofInt_iff (by decide)).mpr ⟨hfit.mpr hz, rfl⟩), h2⟩
  · intro hz
    have h5 := key.2 hz
    obtain ⟨it', h1⟩ := runM_of_error h (p := ReadInt8) (by
      unfold ReadInt8
      rw [show ws ++ (c :: u ++ r) = ws ++ c :: (u ++ r) from rfl, runF_token_then hws hc]
      exact h5)
    split at h1
    · exact ⟨_, _, it', h1⟩
    · exact ⟨_, _, it', h1⟩

/-- **C11**: what `ReadUint8` returns is the value of the digits it consumed, on any input: no wrap around
(`_partial`: with more digits present it should be an overflow error). -/
theorem C11_ReadUint8_noWrap_partial {it it' : It} {l r : List Byte} {e : Err} {v : BitVec 8} (h : Unread it l e)
    (hr : ReadUint8.runM it = (.ok v, it')) (h' : Unread it' r e) :
    ∃ ws t, Ws ws ∧ l = ws ++ (t ++ r) ∧ IntPart t ∧ v.toNat = dec t := by
  have := (runM_iff h).mp ⟨it', hr, h'⟩
  unfold ReadUint8 at this
  simp only [runs_bind, runs_nextTokenTake] at this
  obtain ⟨c, l1, ⟨ws, hws, hc, rfl⟩, h1⟩ := this
  obtain ⟨t, a, b, _, d⟩ := readUint8_sound h1
  exact ⟨ws, t, hws, by rw [a], b, d⟩

/-- Concrete case: 255 and 256. -/
example (it : It) : (∃ v it', ReadUint8.runM (it.resetBytes (bs! "255 ")) = (.ok v, it') ∧ v.toNat = 255) ∧
    ∃ typ n it', ReadUint8.runM (it.resetBytes (bs! "256")) = (.error (.intOverflow typ n), it') := by
  constructor
  · obtain ⟨v, it', h1, h2, _⟩ := (C11_ReadUint8_partial (ws := []) (t := bs! "255") (r := [0x20])
      (unread_bytes it _) (by intro c hc; cases hc)
      ⟨.pos 0x32 _ (by decide) (by decide), fun _ => ⟨by intro c r' h; cases h; decide, by simp⟩⟩ (by decide)).1 (by decide)
    exact ⟨v, it', h1, h2⟩
  · exact (C11_ReadUint8_partial (ws := []) (t := bs! "256") (r := []) (unread_bytes it _) (by intro c hc; cases hc)
      ⟨.pos 0x32 _ (by decide) (by decide), fun _ => ⟨by simp, fun _ => rfl⟩⟩ (by decide)).2 (by decide)

end Jzon.Props
