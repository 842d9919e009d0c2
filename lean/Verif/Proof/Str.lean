import Verif.Proof.Flat
import Verif.Model.Str

/-!
# Strings: the flat runs of the string functions against the grammar
-/

set_option linter.unusedSimpArgs false

namespace Jzon

open Spec (Chr StrBody shortEscape hexDigit codeUnit decodeChrs)

theorem escapeMap_eq : ∀ c : Byte, escapeMap c = shortEscape c := by
  apply forall_byte; decide +kernel

theorem hexValue_eq : ∀ c : Byte, hexValue c = hexDigit c := by
  apply forall_byte; decide +kernel

theorem shortEscape_u : shortEscape 117 = none := rfl

theorem runs_expectBytes {s : List Byte} (hs : s ≠ []) {env : Env} {l : List Byte} {u : Unit} {r : List Byte} :
    Runs (expectBytes s) env l u r ↔ l = s ++ r := by
  unfold expectBytes
  rw [runs_scan]
  induction s generalizing l with
  | nil => exact absurd rfl hs
  | cons e s ih =>
    cases l with
    | nil => simp [scanF, scanF_eofErr]
    | cons c l =>
      simp only [scanF, expectBody]
      by_cases hc : c = e
      · subst hc
        by_cases hs' : s = []
        · subst hs'; simp [eq_comm]
        · simp [hs', ih hs']
      · simp [hc]

/-- The text of a list of `char`s. -/
abbrev txt (cs : List Chr) : List Byte := cs.flatMap Chr.text

abbrev AllOk (cs : List Chr) : Prop := ∀ c ∈ cs, c.Ok

theorem allOk_nil : AllOk [] := by simp [AllOk]

theorem allOk_cons {x : Chr} {cs : List Chr} (hx : x.Ok) (h : AllOk cs) : AllOk (x :: cs) := by
  intro c hc
  rcases List.mem_cons.mp hc with rfl | hc
  · exact hx
  · exact h c hc

def IsRaw (c : Byte) : Prop := 0x20 ≤ c ∧ c ≠ 0x22 ∧ c ≠ 0x5C

theorem txt_raws (l : List Byte) : txt (l.map .raw) = l := by
  induction l with
  | nil => rfl
  | cons c l ih => simp [Chr.text] at ih ⊢; exact ih

theorem decodeChrs_raws (l : List Byte) (cs : List Chr) :
    decodeChrs (l.map .raw ++ cs) = l ++ decodeChrs cs := by
  induction l with
  | nil => rfl
  | cons c l ih => simp [decodeChrs, ih]

/-- Split off the leading unescaped bytes. -/
theorem split_raws (cs : List Chr) (h : AllOk cs) :
    ∃ raws cs', cs = List.map Chr.raw raws ++ cs' ∧ (∀ c ∈ raws, IsRaw c) ∧
      (cs' = [] ∨ (∃ c t, cs' = .esc c :: t) ∨ (∃ a b c d t, cs' = .uni a b c d :: t)) := by
  induction cs with
  | nil => exact ⟨[], [], rfl, by simp, .inl rfl⟩
  | cons c cs ih =>
    have hc := h c (by simp)
    cases c with
    | raw c =>
      obtain ⟨raws, cs', rfl, h1, h2⟩ := ih fun x hx => h x (by simp [hx])
      refine ⟨c :: raws, cs', rfl, ?_, h2⟩
      intro x hx
      rcases List.mem_cons.mp hx with rfl | hx
      · exact hc
      · exact h1 x hx
    | esc c => exact ⟨[], _, rfl, by simp, .inr (.inl ⟨c, cs, rfl⟩)⟩
    | uni a b c d => exact ⟨[], _, rfl, by simp, .inr (.inr ⟨a, b, c, d, cs, rfl⟩)⟩

/-! ## Skipping -/

theorem skipStrBody_cases (c : Byte) :
    (IsRaw c ∧ skipStrBody () c = .cont ()) ∨ (c = 0x22 ∧ skipStrBody () c = .stopNext .quote) ∨
    (c = 0x5C ∧ skipStrBody () c = .stopNext .backslash) ∨ (∃ e, skipStrBody () c = .err e) := by
  unfold skipStrBody IsRaw
  by_cases h1 : c = 0x22
  · simp [h1]
  · by_cases h2 : c = 0x5C
    · simp [h2]
    · by_cases h3 : c < 0x20
      · simp [h1, h2, h3]
      · simp [h1, h2, h3, UInt8.not_lt.mp h3]

theorem conts_skipStr {l : List Byte} : Conts skipStrBody () l () ↔ ∀ c ∈ l, IsRaw c := by
  induction l with
  | nil => simp [Conts]
  | cons c l ih =>
    simp only [Conts, List.forall_mem_cons]
    rcases skipStrBody_cases c with ⟨h1, h2⟩ | ⟨h1, h2⟩ | ⟨h1, h2⟩ | ⟨e, h2⟩ <;> rw [h2]
    · constructor
      · rintro ⟨_, h3, h4⟩; simp at h3; exact ⟨h1, ih.mp h4⟩
      · rintro ⟨_, h⟩; exact ⟨(), rfl, ih.mpr h⟩
    · simp [IsRaw, h1]
    · simp [IsRaw, h1]
    · simp
      intro h3
      have : skipStrBody () c = .cont () := by
        unfold skipStrBody
        obtain ⟨h4, h5, h6⟩ := h3
        simp [h5, h6, UInt8.not_lt.mpr h4]
      rw [h2] at this; cases this

theorem scan_skipStr {env : Env} {l : List Byte} {st : StrStop} {r : List Byte} :
    Runs (scan skipStrBody (fun _ => .error .eof) ()) env l st r ↔
      ∃ raws, (∀ c ∈ raws, IsRaw c) ∧
        ((st = .quote ∧ l = raws ++ 0x22 :: r) ∨ (st = .backslash ∧ l = raws ++ 0x5C :: r)) := by
  rw [runs_scan, scanF_iff]
  constructor
  · rintro ⟨pre, _, hc, ⟨c, t, rfl, h⟩ | ⟨_, _, h, _⟩⟩
    · refine ⟨pre, conts_skipStr.mp hc, ?_⟩
      rcases skipStrBody_cases c with ⟨h1, h2⟩ | ⟨h1, h2⟩ | ⟨h1, h2⟩ | ⟨e, h2⟩ <;> rw [h2] at h <;> simp at h
      · left; simp [h, h1]
      · right; simp [h, h1]
    · cases h
  · rintro ⟨raws, hr, ⟨rfl, rfl⟩ | ⟨rfl, rfl⟩⟩
    · exact ⟨raws, (), conts_skipStr.mpr hr, .inl ⟨_, _, rfl, .inr ⟨rfl, rfl⟩⟩⟩
    · exact ⟨raws, (), conts_skipStr.mpr hr, .inl ⟨_, _, rfl, .inr ⟨rfl, rfl⟩⟩⟩

theorem runs_skipU4 {env : Env} {l : List Byte} {u : Unit} {r : List Byte} :
    Runs skipU4 env l u r ↔
      ∃ a b c d, (Chr.uni a b c d).Ok ∧ l = a :: b :: c :: d :: r := by
  unfold skipU4
  rw [runs_scan]
  rcases l with _ | ⟨a, _ | ⟨b, _ | ⟨c, _ | ⟨d, l⟩⟩⟩⟩ <;>
    simp only [scanF, skipU4Body, hexValue_eq, Chr.Ok]
  · simp [scanF_eofErr]
  · cases ha : hexDigit a <;> simp [scanF_eofErr]
  · cases ha : hexDigit a <;> cases hb : hexDigit b <;> simp [scanF_eofErr]
  · cases ha : hexDigit a <;> cases hb : hexDigit b <;> cases hc : hexDigit c <;> simp [scanF_eofErr]
  · cases ha : hexDigit a <;> cases hb : hexDigit b <;> cases hc : hexDigit c <;> cases hd : hexDigit d <;>
      simp only [reduceIte, reduceCtorEq, List.cons.injEq, Option.isSome_some, Option.isSome_none,
        false_iff, Except.ok.injEq, Prod.mk.injEq, Nat.reduceSub, Nat.reduceEqDiff] <;>
      first
        | (rintro ⟨a', b', c', d', h, rfl, rfl, rfl, rfl, rfl⟩; simp_all; done)
        | (constructor
           · rintro ⟨_, rfl⟩; exact ⟨a, b, c, d, by simp [ha, hb, hc, hd], rfl, rfl, rfl, rfl, rfl⟩
           · rintro ⟨a', b', c', d', h, rfl, rfl, rfl, rfl, rfl⟩; simp)

theorem runs_skipEscapedChar {env : Env} {l : List Byte} {u : Unit} {r : List Byte} :
    Runs skipEscapedChar env l u r ↔
      (∃ c, (Chr.esc c).Ok ∧ l = c :: r) ∨
      (∃ a b c d, (Chr.uni a b c d).Ok ∧ l = 0x75 :: a :: b :: c :: d :: r) := by
  unfold skipEscapedChar
  simp only [runs_bind, runs_byte, escapeMap_eq]
  constructor
  · rintro ⟨c, l', ⟨l'', rfl, h⟩, h2⟩
    by_cases hc : shortEscape c = none
    · simp [hc] at h h2
      by_cases hu : c = 117
      · subst hu
        simp at h; subst h
        obtain ⟨a, b, c, d, h3, h4⟩ := runs_skipU4.mp h2
        exact .inr ⟨a, b, c, d, h3, by simp [h4]⟩
      · simp [hu] at h
    · simp [hc] at h h2
      subst h
      left
      refine ⟨c, ?_, by simp [h2]⟩
      simp [Chr.Ok, Option.isSome_iff_ne_none, hc]
  · rintro (⟨c, hc, rfl⟩ | ⟨a, b, c, d, hc, rfl⟩)
    · have : shortEscape c ≠ none := by simpa [Chr.Ok, Option.isSome_iff_ne_none] using hc
      refine ⟨c, r, ⟨r, rfl, ?_⟩, ?_⟩
      · simp [this]
      · simp [this]
    · refine ⟨117, a :: b :: c :: d :: r, ⟨_, rfl, ?_⟩, ?_⟩
      · simp [shortEscape_u]
      · simp only [shortEscape_u]
        exact runs_skipU4.mpr ⟨a, b, c, d, hc, rfl⟩

theorem runs_skipStringLoop {n : Nat} {env : Env} {l : List Byte} {u : Unit} {r : List Byte} (hn : l.length < n) :
    Runs (skipStringLoop n) env l u r ↔ ∃ cs, AllOk cs ∧ l = txt cs ++ 0x22 :: r := by
  induction n generalizing l with
  | zero => omega
  | succ n ih =>
    unfold skipStringLoop
    simp only [runs_bind]
    constructor
    · rintro ⟨st, l1, h1, h2⟩
      obtain ⟨raws, hr, ⟨rfl, rfl⟩ | ⟨rfl, rfl⟩⟩ := scan_skipStr.mp h1
      · simp only [runs_pure] at h2
        refine ⟨raws.map .raw, ?_, by rw [txt_raws]; simp [h2.2]⟩
        intro c hc
        simp at hc
        obtain ⟨x, hx, rfl⟩ := hc
        exact hr x hx
      · simp only [runs_bind] at h2
        obtain ⟨_, l2, h2, h3⟩ := h2
        have hlen := h2.length_le
        rw [ih (by simp at hn; omega)] at h3
        obtain ⟨cs, hcs, rfl⟩ := h3
        have hraws : AllOk (raws.map Chr.raw) := by
          intro c hc
          simp at hc
          obtain ⟨x, hx, rfl⟩ := hc
          exact hr x hx
        rcases runs_skipEscapedChar.mp h2 with ⟨c, hc, rfl⟩ | ⟨a, b, c, d, hc, rfl⟩
        · refine ⟨raws.map .raw ++ .esc c :: cs, ?_, ?_⟩
          · intro x hx
            rcases List.mem_append.mp hx with hx | hx
            · exact hraws x hx
            · rcases List.mem_cons.mp hx with rfl | hx
              · exact hc
              · exact hcs x hx
          · unfold txt
            rw [List.flatMap_append]
            have := txt_raws raws
            unfold txt at this
            rw [this]
            simp [Chr.text]
        · refine ⟨raws.map .raw ++ .uni a b c d :: cs, ?_, ?_⟩
          · intro x hx
            rcases List.mem_append.mp hx with hx | hx
            · exact hraws x hx
            · rcases List.mem_cons.mp hx with rfl | hx
              · exact hc
              · exact hcs x hx
          · unfold txt
            rw [List.flatMap_append]
            have := txt_raws raws
            unfold txt at this
            rw [this]
            simp [Chr.text]
    · rintro ⟨cs, hcs, rfl⟩
      obtain ⟨raws, cs', rfl, hr, h⟩ := split_raws cs hcs
      have ht : txt (raws.map .raw ++ cs') = raws ++ txt cs' := by
        unfold txt
        rw [List.flatMap_append]
        have := txt_raws raws
        unfold txt at this
        rw [this]
      rw [ht] at hn ⊢
      have hcs' : AllOk cs' := fun c hc => hcs c (by simp [hc])
      rcases h with rfl | ⟨c, t, rfl⟩ | ⟨a, b, c, d, t, rfl⟩
      · exact ⟨.quote, r, scan_skipStr.mpr ⟨raws, hr, .inl ⟨rfl, by simp⟩⟩, by simp⟩
      · refine ⟨.backslash, c :: (txt t ++ 0x22 :: r), scan_skipStr.mpr ⟨raws, hr, .inr ⟨rfl, by simp [Chr.text]⟩⟩, ?_⟩
        simp only [runs_bind]
        refine ⟨(), txt t ++ 0x22 :: r, runs_skipEscapedChar.mpr (.inl ⟨c, hcs' _ (by simp), rfl⟩), ?_⟩
        rw [ih]
        · exact ⟨t, fun c hc => hcs' c (by simp [hc]), rfl⟩
        · simp [Chr.text] at hn ⊢; omega
      · refine ⟨.backslash, 0x75 :: a :: b :: c :: d :: (txt t ++ 0x22 :: r),
          scan_skipStr.mpr ⟨raws, hr, .inr ⟨rfl, by simp [Chr.text]⟩⟩, ?_⟩
        simp only [runs_bind]
        refine ⟨(), txt t ++ 0x22 :: r, runs_skipEscapedChar.mpr (.inr ⟨a, b, c, d, hcs' _ (by simp), rfl⟩), ?_⟩
        rw [ih]
        · exact ⟨t, fun c hc => hcs' c (by simp [hc]), rfl⟩
        · simp [Chr.text] at hn ⊢; omega

/-- `skipString` succeeds exactly on a string body followed by a quotation mark. -/
theorem runs_skipString {env : Env} {l : List Byte} {u : Unit} {r : List Byte} :
    Runs skipString env l u r ↔ ∃ cs, AllOk cs ∧ l = txt cs ++ 0x22 :: r := by
  unfold skipString
  simp only [runs_bind, runs_remaining]
  constructor
  · rintro ⟨_, _, ⟨rfl, rfl⟩, h⟩
    exact (runs_skipStringLoop (by omega)).mp h
  · intro h
    exact ⟨_, _, ⟨rfl, rfl⟩, (runs_skipStringLoop (by omega)).mpr h⟩

/-! ## Reading -/

theorem runs_readU4 {env : Env} {l : List Byte} {v : Nat} {r : List Byte} :
    Runs readU4 env l v r ↔
      ∃ a b c d, (Chr.uni a b c d).Ok ∧ l = a :: b :: c :: d :: r ∧ v = codeUnit a b c d := by
  unfold readU4
  rw [runs_scan]
  rcases l with _ | ⟨a, _ | ⟨b, _ | ⟨c, _ | ⟨d, l⟩⟩⟩⟩ <;>
    simp only [scanF, readU4Body, hexValue_eq, Chr.Ok]
  · simp [scanF_eofErr]
  · cases ha : hexDigit a <;> simp [scanF_eofErr]
  · cases ha : hexDigit a <;> cases hb : hexDigit b <;> simp [scanF_eofErr]
  · cases ha : hexDigit a <;> cases hb : hexDigit b <;> cases hc : hexDigit c <;> simp [scanF_eofErr]
  · cases ha : hexDigit a <;> cases hb : hexDigit b <;> cases hc : hexDigit c <;> cases hd : hexDigit d <;>
      simp only [reduceIte, reduceCtorEq, List.cons.injEq, Option.isSome_some, Option.isSome_none,
        false_iff, Except.ok.injEq, Prod.mk.injEq, Nat.reduceSub, Nat.reduceEqDiff] <;>
      first
        | (rintro ⟨a', b', c', d', h, ⟨rfl, rfl, rfl, rfl, rfl⟩, _⟩; simp_all; done)
        | (constructor
           · rintro ⟨rfl, rfl⟩
             refine ⟨a, b, c, d, by simp [ha, hb, hc, hd], ⟨rfl, rfl, rfl, rfl, rfl⟩, ?_⟩
             simp [codeUnit, ha, hb, hc, hd, Nat.shiftLeft_eq]
           · rintro ⟨a', b', c', d', h, ⟨rfl, rfl, rfl, rfl, rfl⟩, h2⟩
             refine ⟨?_, rfl⟩
             rw [h2]
             simp [codeUnit, ha, hb, hc, hd, Nat.shiftLeft_eq])

theorem hexDigit_lt {c : Byte} : (hexDigit c).getD 0 < 16 := by
  revert c; apply forall_byte; decide +kernel

theorem codeUnit_lt (a b c d : Byte) : codeUnit a b c d < 0x10000 := by
  have := @hexDigit_lt a
  have := @hexDigit_lt b
  have := @hexDigit_lt c
  have := @hexDigit_lt d
  unfold codeUnit
  omega

/-! ### UTF-8 -/

theorem ofNat_and_63 (r : Nat) : UInt8.ofNat r &&& 0x3F = UInt8.ofNat (r % 64) := by
  apply UInt8.toNat_inj.mp
  have : r % 256 &&& 63 = r % 256 % 64 := Nat.and_two_pow_sub_one_eq_mod (r % 256) 6
  simp [UInt8.toNat_and, UInt8.toNat_ofNat', this]
  omega

theorem or_80 : ∀ x, x < 64 → (0x80 : Byte) ||| UInt8.ofNat x = UInt8.ofNat (0x80 + x) := by decide +kernel
theorem or_C0 : ∀ x, x < 32 → (0xC0 : Byte) ||| UInt8.ofNat x = UInt8.ofNat (0xC0 + x) := by decide +kernel
theorem or_E0 : ∀ x, x < 16 → (0xE0 : Byte) ||| UInt8.ofNat x = UInt8.ofNat (0xE0 + x) := by decide +kernel
theorem or_F0 : ∀ x, x < 8 → (0xF0 : Byte) ||| UInt8.ofNat x = UInt8.ofNat (0xF0 + x) := by decide +kernel

theorem appendRune_ok (p : List Byte) {r : Nat} (h : r ≤ 0x10FFFF) (hs : isSurrogate r = false) :
    appendRune p r = p ++ Spec.utf8 r := by
  have hs' : ¬(0xD800 ≤ r ∧ r ≤ 0xDFFF) := by
    simp [isSurrogate] at hs; omega
  unfold appendRune Spec.utf8 runeByte
  by_cases h1 : r ≤ 0x7F
  · simp [h1, Nat.lt_succ_of_le h1]
  by_cases h2 : r ≤ 0x7FF
  · rw [if_neg h1, if_pos h2, if_neg (by omega), if_pos (by omega)]
    simp only [Nat.shiftRight_eq_div_pow, ofNat_and_63]
    rw [or_C0 _ (by omega), or_80 _ (by omega)]
  by_cases h3 : r ≤ 0xFFFF
  · rw [if_neg h1, if_neg h2, if_neg (by omega), if_pos h3, if_neg (by omega), if_neg (by omega), if_pos (by omega)]
    simp only [Nat.shiftRight_eq_div_pow, ofNat_and_63]
    rw [or_E0 _ (by omega), or_80 _ (by omega), or_80 _ (by omega)]
  · rw [if_neg h1, if_neg h2, if_neg (by omega), if_neg h3, if_neg (by omega), if_neg (by omega), if_neg (by omega)]
    simp only [Nat.shiftRight_eq_div_pow, ofNat_and_63]
    rw [or_F0 _ (by omega), or_80 _ (by omega), or_80 _ (by omega), or_80 _ (by omega)]

theorem appendRune_surr (p : List Byte) {r : Nat} (hs : isSurrogate r = true) :
    appendRune p r = p ++ Spec.replacement := by
  have hs' : 0xD800 ≤ r ∧ r ≤ 0xDFFF := by
    simp [isSurrogate] at hs; omega
  unfold appendRune
  rw [if_neg (by omega), if_neg (by omega), if_pos (by omega)]
  rfl

theorem isSurrogate_eq (r : Nat) : isSurrogate r = (Spec.isHigh r || Spec.isLow r) := by
  rw [Bool.eq_iff_iff]; simp [isSurrogate, Spec.isHigh, Spec.isLow]; omega

theorem utf16DecodeRune_pair {r1 r2 : Nat} (h1 : Spec.isHigh r1) (h2 : Spec.isLow r2) :
    utf16DecodeRune r1 r2 = 0x10000 + (r1 - 0xD800) * 0x400 + (r2 - 0xDC00) := by
  simp [Spec.isHigh, Spec.isLow] at h1 h2
  unfold utf16DecodeRune
  rw [if_pos (by omega)]
  have := Nat.two_pow_add_eq_or_of_lt (i := 10) (b := r2 - 0xDC00) (by omega) (r1 - 0xD800)
  rw [Nat.shiftLeft_eq, Nat.mul_comm, ← this]
  omega

theorem utf16DecodeRune_nopair {r1 r2 : Nat} (h : (Spec.isHigh r1 && Spec.isLow r2) = false) :
    utf16DecodeRune r1 r2 = runeError := by
  unfold utf16DecodeRune
  rw [if_neg]
  simp [Spec.isHigh, Spec.isLow] at h
  omega

/-! ### The escape loop -/

/-- What one code unit contributes when it is not the first half of a pair. -/
def unitBytes (v : Nat) : List Byte := if Spec.isHigh v || Spec.isLow v then Spec.replacement else Spec.utf8 v

theorem appendRune_unit (p : List Byte) {v : Nat} (h : v < 0x10000) : appendRune p v = p ++ unitBytes v := by
  unfold unitBytes
  rw [← isSurrogate_eq]
  cases hs : isSurrogate v
  · simp; exact appendRune_ok p (by omega) hs
  · simp; exact appendRune_surr p hs

/-- `t` does not start with a `\u` escape. -/
def NoUni (t : List Chr) : Prop := ∀ a b c d t', t ≠ .uni a b c d :: t'

theorem decode_uni_noUni (a b c d : Byte) {t : List Chr} (h : NoUni t) :
    decodeChrs (.uni a b c d :: t) = unitBytes (codeUnit a b c d) ++ decodeChrs t := by
  cases t with
  | nil => simp only [decodeChrs, unitBytes]; split <;> rfl
  | cons x t =>
    cases x with
    | raw x => simp only [decodeChrs, unitBytes]; split <;> rfl
    | esc x => simp only [decodeChrs, unitBytes]; split <;> rfl
    | uni a' b' c' d' => exact absurd rfl (h a' b' c' d' t)

theorem decode_uni_nosurr (a b c d : Byte) (t : List Chr) (h : isSurrogate (codeUnit a b c d) = false) :
    decodeChrs (.uni a b c d :: t) = unitBytes (codeUnit a b c d) ++ decodeChrs t := by
  rw [isSurrogate_eq] at h
  simp only [Bool.or_eq_false_iff] at h
  cases t with
  | nil => simp only [decodeChrs, unitBytes]; split <;> rfl
  | cons x t =>
    cases x with
    | raw x => simp only [decodeChrs, unitBytes]; split <;> rfl
    | esc x => simp only [decodeChrs, unitBytes]; split <;> rfl
    | uni a' b' c' d' => simp [decodeChrs, unitBytes, h]

theorem decode_uni_uni (a b c d a' b' c' d' : Byte) (t : List Chr)
    (h : (Spec.isHigh (codeUnit a b c d) && Spec.isLow (codeUnit a' b' c' d')) = false) :
    decodeChrs (.uni a b c d :: .uni a' b' c' d' :: t) =
      unitBytes (codeUnit a b c d) ++ decodeChrs (.uni a' b' c' d' :: t) := by
  simp only [decodeChrs, unitBytes, h]
  simp only [Bool.false_eq_true, if_false]
  split <;> rfl

theorem decode_uni_pair (a b c d a' b' c' d' : Byte) (t : List Chr)
    (h : (Spec.isHigh (codeUnit a b c d) && Spec.isLow (codeUnit a' b' c' d')) = true) :
    decodeChrs (.uni a b c d :: .uni a' b' c' d' :: t) =
      Spec.utf8 (utf16DecodeRune (codeUnit a b c d) (codeUnit a' b' c' d')) ++ decodeChrs t := by
  simp only [Bool.and_eq_true] at h
  rw [utf16DecodeRune_pair h.1 h.2]
  simp only [decodeChrs, h]
  rfl

theorem decodeRune_ne_error {r1 r2 : Nat} (h : (Spec.isHigh r1 && Spec.isLow r2) = true) :
    utf16DecodeRune r1 r2 ≠ runeError ∧ utf16DecodeRune r1 r2 ≤ 0x10FFFF ∧
      isSurrogate (utf16DecodeRune r1 r2) = false := by
  simp only [Bool.and_eq_true] at h
  rw [utf16DecodeRune_pair h.1 h.2]
  simp [Spec.isHigh, Spec.isLow] at h
  simp [runeError, isSurrogate]
  omega

/-- Whatever `char`s the escape loop consumed, its output is what they denote, given how the string goes on. -/
theorem retry_sound {n : Nat} {env : Env} {l : List Byte} {b b' : List Byte} {r : List Byte} {a0 b0 c0 d0 : Byte}
    (h : Runs (readEscapedRetry n b (codeUnit a0 b0 c0 d0)) env l b' r) :
    ∃ cs, AllOk cs ∧ l = txt cs ++ r ∧
      ∀ t q, r = txt t ++ 0x22 :: q → b ++ decodeChrs (.uni a0 b0 c0 d0 :: (cs ++ t)) = b' ++ decodeChrs t := by
  induction n generalizing b l a0 b0 c0 d0 with
  | zero => simp [readEscapedRetry, Prog.throw] at h
  | succ n ih =>
    unfold readEscapedRetry at h
    split at h
    · rename_i hs
      simp only [runs_bind, runs_byte] at h
      obtain ⟨c, l1, ⟨l2, rfl, h1⟩, h⟩ := h
      by_cases hc : c = 92
      · subst hc
        simp at h1; subst h1
        simp only [ne_eq, not_true_eq_false, if_false, runs_bind, runs_byte, escapeMap_eq] at h
        obtain ⟨c, l3, ⟨l4, rfl, h1⟩, h⟩ := h
        by_cases hu : c = 117
        · subst hu
          simp at h1; subst h1
          simp only [ne_eq, not_true_eq_false, if_false, runs_bind, runs_readU4] at h
          obtain ⟨v, l5, ⟨a1, b1, c1, d1, hok, rfl, rfl⟩, h⟩ := h
          cases hp : Spec.isHigh (codeUnit a0 b0 c0 d0) && Spec.isLow (codeUnit a1 b1 c1 d1)
          · rw [utf16DecodeRune_nopair hp] at h
            simp only [if_true] at h
            obtain ⟨cs, hcs, rfl, hd⟩ := ih h
            refine ⟨.uni a1 b1 c1 d1 :: cs, ?_, by simp [Chr.text], ?_⟩
            · intro x hx
              rcases List.mem_cons.mp hx with rfl | hx
              · exact hok
              · exact hcs x hx
            · intro t q hq
              have := hd t q hq
              rw [List.cons_append, decode_uni_uni _ _ _ _ _ _ _ _ _ hp, ← List.append_assoc,
                ← appendRune_unit _ (codeUnit_lt _ _ _ _)]
              exact this
          · obtain ⟨h2, h3, h4⟩ := decodeRune_ne_error hp
            rw [if_neg h2] at h
            simp only [runs_pure] at h
            obtain ⟨rfl, rfl⟩ := h
            refine ⟨[.uni a1 b1 c1 d1], allOk_cons hok allOk_nil, by simp [Chr.text], ?_⟩
            intro t q _
            rw [List.cons_append, List.nil_append, decode_uni_pair _ _ _ _ _ _ _ _ _ hp, appendRune_ok _ h3 h4]
            simp
        · simp only [ne_eq, hu, not_false_eq_true, if_true] at h h1
          cases he : shortEscape c with
          | none => simp [he] at h1
          | some e =>
            simp [he] at h1 h
            subst h1
            obtain ⟨rfl, rfl⟩ := h
            refine ⟨[.esc c], allOk_cons (by simp [Chr.Ok, he]) allOk_nil, by simp [Chr.text], ?_⟩
            intro t q _
            rw [decode_uni_noUni]
            · simp [decodeChrs, he, appendRune_unit _ (codeUnit_lt _ _ _ _)]
            · intro a b c d t'; simp
      · simp [hc] at h1 h
        subst h1
        obtain ⟨rfl, rfl⟩ := h
        refine ⟨[], allOk_nil, by simp, ?_⟩
        intro t q hq
        rw [List.nil_append, decode_uni_noUni, appendRune_unit _ (codeUnit_lt _ _ _ _)]
        · simp
        · rintro a b c' d t' rfl
          simp [Chr.text] at hq
          exact hc hq.1
    · rename_i hs
      simp only [runs_pure] at h
      obtain ⟨rfl, rfl⟩ := h
      refine ⟨[], allOk_nil, by simp, ?_⟩
      intro t q _
      rw [List.nil_append, decode_uni_nosurr _ _ _ _ _ (by simpa using hs), appendRune_unit _ (codeUnit_lt _ _ _ _)]
      simp

theorem retry_complete {n : Nat} {env : Env} {b q : List Byte} {cs : List Chr} {a0 b0 c0 d0 : Byte}
    (hcs : AllOk cs) (hn : (txt cs).length < n) :
    ∃ cs1 cs2 b', cs = cs1 ++ cs2 ∧
      Runs (readEscapedRetry n b (codeUnit a0 b0 c0 d0)) env (txt cs ++ 0x22 :: q) b' (txt cs2 ++ 0x22 :: q) ∧
      b ++ decodeChrs (.uni a0 b0 c0 d0 :: cs) = b' ++ decodeChrs cs2 := by
  induction n generalizing b cs a0 b0 c0 d0 with
  | zero => omega
  | succ n ih =>
    unfold readEscapedRetry
    split
    · rename_i hs
      have stop : ∀ c l, txt cs ++ 0x22 :: q = c :: l → c ≠ 92 → NoUni cs →
          ∃ cs1 cs2 b', cs = cs1 ++ cs2 ∧
            Runs (do
              let c ← byte fun c => if c ≠ b! '\\' then .leave else .take
              if c ≠ b! '\\' then pure (appendRune b (codeUnit a0 b0 c0 d0))
              else
                let c ← byte fun c =>
                  if c ≠ b! 'u' then
                    if escapeMap c = none then .fail (.invalidEscapeChar c) else .take
                  else .take
                if c ≠ b! 'u' then
                  match escapeMap c with
                  | none => .throw (.invalidEscapeChar c)
                  | some e => pure (appendRune b (codeUnit a0 b0 c0 d0) ++ [e])
                else
                  let r2 ← readU4
                  let combined := utf16DecodeRune (codeUnit a0 b0 c0 d0) r2
                  if combined = runeError then readEscapedRetry n (appendRune b (codeUnit a0 b0 c0 d0)) r2
                  else pure (appendRune b combined) : Prog (List Byte)) env (txt cs ++ 0x22 :: q) b' (txt cs2 ++ 0x22 :: q) ∧
            b ++ decodeChrs (.uni a0 b0 c0 d0 :: cs) = b' ++ decodeChrs cs2 := by
        intro c l hl hc hnu
        refine ⟨[], cs, appendRune b (codeUnit a0 b0 c0 d0), rfl, ?_, ?_⟩
        · simp only [runs_bind, runs_byte]
          refine ⟨c, c :: l, ⟨l, hl, by simp [hc]⟩, ?_⟩
          simp [hc, hl]
        · rw [decode_uni_noUni _ _ _ _ hnu, appendRune_unit _ (codeUnit_lt _ _ _ _)]; simp
      cases cs with
      | nil => exact stop 0x22 q (by simp) (by decide) (by intro a b c d t; simp)
      | cons x t =>
        have ht : AllOk t := fun y hy => hcs y (by simp [hy])
        cases x with
        | raw x =>
          have hx := hcs (.raw x) (by simp)
          exact stop x _ (by simp [Chr.text]; rfl) hx.2.2 (by intro a b c d t; simp)
        | esc x =>
          have hx := hcs (.esc x) (by simp)
          obtain ⟨e, he⟩ := Option.isSome_iff_exists.mp hx
          have hxu : x ≠ 117 := by rintro rfl; simp [shortEscape_u] at he
          refine ⟨[.esc x], t, appendRune b (codeUnit a0 b0 c0 d0) ++ [e], rfl, ?_, ?_⟩
          · simp only [runs_bind, runs_byte, escapeMap_eq]
            refine ⟨92, x :: (txt t ++ 0x22 :: q), ⟨_, by simp [Chr.text]; rfl, by simp⟩, ?_⟩
            simp only [ne_eq, not_true_eq_false, if_false, runs_bind, runs_byte]
            refine ⟨x, txt t ++ 0x22 :: q, ⟨_, rfl, by simp [hxu, he]⟩, ?_⟩
            simp [hxu, he]
          · rw [decode_uni_noUni]
            · simp [decodeChrs, he, appendRune_unit _ (codeUnit_lt _ _ _ _)]
            · intro a b c d t'; simp
        | uni a1 b1 c1 d1 =>
          have hok := hcs (.uni a1 b1 c1 d1) (by simp)
          cases hp : Spec.isHigh (codeUnit a0 b0 c0 d0) && Spec.isLow (codeUnit a1 b1 c1 d1)
          · obtain ⟨cs1, cs2, b', rfl, h1, h2⟩ := ih (b := appendRune b (codeUnit a0 b0 c0 d0)) (cs := t)
              (a0 := a1) (b0 := b1) (c0 := c1) (d0 := d1) ht (by simp [Chr.text] at hn ⊢; omega)
            refine ⟨.uni a1 b1 c1 d1 :: cs1, cs2, b', rfl, ?_, ?_⟩
            · simp only [runs_bind, runs_byte, escapeMap_eq]
              refine ⟨92, 117 :: a1 :: b1 :: c1 :: d1 :: (txt (cs1 ++ cs2) ++ 0x22 :: q), ⟨_, by simp [Chr.text]; rfl, by simp⟩, ?_⟩
              simp only [ne_eq, not_true_eq_false, if_false, runs_bind, runs_byte]
              refine ⟨117, a1 :: b1 :: c1 :: d1 :: (txt (cs1 ++ cs2) ++ 0x22 :: q), ⟨_, rfl, by simp⟩, ?_⟩
              simp only [ne_eq, not_true_eq_false, if_false, runs_bind, runs_readU4]
              refine ⟨_, _, ⟨a1, b1, c1, d1, hok, rfl, rfl⟩, ?_⟩
              rw [utf16DecodeRune_nopair hp]
              simpa using h1
            · rw [decode_uni_uni _ _ _ _ _ _ _ _ _ hp, ← List.append_assoc,
                ← appendRune_unit _ (codeUnit_lt _ _ _ _)]
              exact h2
          · obtain ⟨h2, h3, h4⟩ := decodeRune_ne_error hp
            refine ⟨[.uni a1 b1 c1 d1], t, appendRune b (utf16DecodeRune (codeUnit a0 b0 c0 d0) (codeUnit a1 b1 c1 d1)), rfl, ?_, ?_⟩
            · simp only [runs_bind, runs_byte, escapeMap_eq]
              refine ⟨92, 117 :: a1 :: b1 :: c1 :: d1 :: (txt t ++ 0x22 :: q), ⟨_, by simp [Chr.text]; rfl, by simp⟩, ?_⟩
              simp only [ne_eq, not_true_eq_false, if_false, runs_bind, runs_byte]
              refine ⟨117, a1 :: b1 :: c1 :: d1 :: (txt t ++ 0x22 :: q), ⟨_, rfl, by simp⟩, ?_⟩
              simp only [ne_eq, not_true_eq_false, if_false, runs_bind, runs_readU4]
              refine ⟨_, _, ⟨a1, b1, c1, d1, hok, rfl, rfl⟩, ?_⟩
              rw [if_neg h2]
              simp
            · rw [decode_uni_pair _ _ _ _ _ _ _ _ _ hp, appendRune_ok _ h3 h4]; simp
    · rename_i hs
      refine ⟨[], cs, appendRune b (codeUnit a0 b0 c0 d0), rfl, by simp, ?_⟩
      rw [decode_uni_nosurr _ _ _ _ _ (by simpa using hs), appendRune_unit _ (codeUnit_lt _ _ _ _)]
      simp

theorem readEscapedChar_sound {env : Env} {l b b' r : List Byte} (h : Runs (readEscapedChar b) env l b' r) :
    ∃ x cs, AllOk (x :: cs) ∧ 0x5C :: l = txt (x :: cs) ++ r ∧
      ∀ t q, r = txt t ++ 0x22 :: q → b ++ decodeChrs (x :: (cs ++ t)) = b' ++ decodeChrs t := by
  unfold readEscapedChar at h
  simp only [runs_bind, runs_byte, escapeMap_eq] at h
  obtain ⟨c, l1, ⟨l2, rfl, h1⟩, h⟩ := h
  cases he : shortEscape c with
  | some e =>
    simp [he] at h1 h
    subst h1
    obtain ⟨rfl, rfl⟩ := h
    refine ⟨.esc c, [], allOk_cons (by simp [Chr.Ok, he]) allOk_nil, by simp [Chr.text], ?_⟩
    intro t q _
    simp [decodeChrs, he]
  | none =>
    simp only [he, ne_eq, not_true_eq_false, if_false] at h1 h
    by_cases hu : c = 117
    · subst hu
      simp at h1; subst h1
      simp only [runs_bind, runs_readU4, runs_remaining] at h
      obtain ⟨v, l3, ⟨a, b1, c, d, hok, rfl, rfl⟩, n, l4, ⟨rfl, rfl⟩, h⟩ := h
      obtain ⟨cs, hcs, rfl, hd⟩ := retry_sound h
      refine ⟨.uni a b1 c d, cs, ?_, by simp [Chr.text], hd⟩
      intro x hx
      rcases List.mem_cons.mp hx with rfl | hx
      · exact hok
      · exact hcs x hx
    · simp [hu] at h1

theorem readEscapedChar_complete {env : Env} {b q : List Byte} {x : Chr} {cs : List Chr} {l : List Byte}
    (hcs : AllOk (x :: cs)) (hl : 0x5C :: l = txt (x :: cs) ++ 0x22 :: q) :
    ∃ cs1 cs2 b', cs = cs1 ++ cs2 ∧ Runs (readEscapedChar b) env l b' (txt cs2 ++ 0x22 :: q) ∧
      b ++ decodeChrs (x :: cs) = b' ++ decodeChrs cs2 := by
  have hx := hcs x (by simp)
  unfold readEscapedChar
  simp only [runs_bind, runs_byte, escapeMap_eq]
  cases x with
  | raw c =>
    simp [Chr.text] at hl
    exact absurd hl.1.symm hx.2.2
  | esc c =>
    obtain ⟨e, he⟩ := Option.isSome_iff_exists.mp hx
    simp [Chr.text] at hl
    subst hl
    refine ⟨[], cs, b ++ [e], rfl, ⟨c, _, ⟨_, rfl, .inl ⟨by simp [he], rfl⟩⟩, by simp [he]⟩, by simp [decodeChrs, he]⟩
  | uni a0 b0 c0 d0 =>
    simp [Chr.text] at hl
    subst hl
    obtain ⟨cs1, cs2, b', rfl, h1, h2⟩ := retry_complete (env := env) (b := b) (q := q) (a0 := a0) (b0 := b0) (c0 := c0) (d0 := d0)
      (n := (txt cs ++ 0x22 :: q).length + 1) (cs := cs) (fun y hy => hcs y (by simp [hy])) (by simp; omega)
    refine ⟨cs1, cs2, b', rfl, ⟨117, _, ⟨_, rfl, .inl ⟨by simp [shortEscape_u], rfl⟩⟩, ?_⟩, h2⟩
    simp only [shortEscape_u, runs_bind, runs_readU4, runs_remaining]
    exact ⟨_, _, ⟨a0, b0, c0, d0, hx, rfl, rfl⟩, _, _, ⟨rfl, rfl⟩, h1⟩

/-! ### The string loop -/

theorem readStrBody_cases (buf : List Byte) (c : Byte) :
    (IsRaw c ∧ readStrBody buf c = .cont (buf ++ [c])) ∨ (c = 0x22 ∧ readStrBody buf c = .stopNext (buf, .quote)) ∨
    (c = 0x5C ∧ readStrBody buf c = .stopNext (buf, .backslash)) ∨ (¬ IsRaw c ∧ ∃ e, readStrBody buf c = .err e) := by
  unfold readStrBody IsRaw
  by_cases h1 : c = 0x22
  · simp [h1]
  · by_cases h2 : c = 0x5C
    · simp [h2]
    · by_cases h3 : c < 0x20
      · simp [h1, h2, h3]
      · simp [h1, h2, h3, UInt8.not_lt.mp h3]

theorem conts_readStr {l buf buf' : List Byte} :
    Conts readStrBody buf l buf' ↔ (∀ c ∈ l, IsRaw c) ∧ buf' = buf ++ l := by
  induction l generalizing buf with
  | nil => simp [Conts]
  | cons c l ih =>
    simp only [Conts, List.forall_mem_cons]
    rcases readStrBody_cases buf c with ⟨h1, h2⟩ | ⟨h1, h2⟩ | ⟨h1, h2⟩ | ⟨h1, e, h2⟩ <;> rw [h2]
    · constructor
      · rintro ⟨s, h3, h4⟩
        simp at h3; subst h3
        have := ih.mp h4
        exact ⟨⟨h1, this.1⟩, by simp [this.2]⟩
      · rintro ⟨⟨_, h⟩, rfl⟩; exact ⟨_, rfl, ih.mpr ⟨h, by simp⟩⟩
    · simp [IsRaw, h1]
    · simp [IsRaw, h1]
    · simp [h1]

theorem scan_readStr {env : Env} {l buf buf' : List Byte} {st : StrStop} {r : List Byte} :
    Runs (scan readStrBody (fun _ => .error .eof) buf) env l (buf', st) r ↔
      ∃ raws, (∀ c ∈ raws, IsRaw c) ∧ buf' = buf ++ raws ∧
        ((st = .quote ∧ l = raws ++ 0x22 :: r) ∨ (st = .backslash ∧ l = raws ++ 0x5C :: r)) := by
  rw [runs_scan, scanF_iff]
  constructor
  · rintro ⟨pre, s, hc, ⟨c, t, rfl, h⟩ | ⟨_, _, h, _⟩⟩
    · obtain ⟨hr, rfl⟩ := conts_readStr.mp hc
      rcases readStrBody_cases (buf ++ pre) c with ⟨h1, h2⟩ | ⟨h1, h2⟩ | ⟨h1, h2⟩ | ⟨_, e, h2⟩ <;> rw [h2] at h <;> simp at h
      · obtain ⟨⟨rfl, rfl⟩, rfl⟩ := h
        exact ⟨pre, hr, rfl, .inl ⟨rfl, by simp [h1]⟩⟩
      · obtain ⟨⟨rfl, rfl⟩, rfl⟩ := h
        exact ⟨pre, hr, rfl, .inr ⟨rfl, by simp [h1]⟩⟩
    · cases h
  · rintro ⟨raws, hr, rfl, ⟨rfl, rfl⟩ | ⟨rfl, rfl⟩⟩
    · exact ⟨raws, _, conts_readStr.mpr ⟨hr, rfl⟩, .inl ⟨_, _, rfl, .inr ⟨rfl, rfl⟩⟩⟩
    · exact ⟨raws, _, conts_readStr.mpr ⟨hr, rfl⟩, .inl ⟨_, _, rfl, .inr ⟨rfl, rfl⟩⟩⟩

theorem txt_append (a b : List Chr) : txt (a ++ b) = txt a ++ txt b := by
  simp [txt, List.flatMap_append]

theorem allOk_raws {raws : List Byte} (hr : ∀ c ∈ raws, IsRaw c) : AllOk (raws.map Chr.raw) := by
  intro c hc
  simp at hc
  obtain ⟨x, hx, rfl⟩ := hc
  exact hr x hx

theorem allOk_append {a b : List Chr} (ha : AllOk a) (hb : AllOk b) : AllOk (a ++ b) := by
  intro c hc
  rcases List.mem_append.mp hc with h | h
  · exact ha c h
  · exact hb c h

theorem runs_readStringLoop {n : Nat} {env : Env} {l buf s r : List Byte} (hn : l.length < n) :
    Runs (readStringLoop n buf) env l s r ↔
      ∃ cs, AllOk cs ∧ l = txt cs ++ 0x22 :: r ∧ s = buf ++ decodeChrs cs := by
  induction n generalizing l buf with
  | zero => omega
  | succ n ih =>
    unfold readStringLoop
    simp only [runs_bind]
    constructor
    · rintro ⟨⟨buf1, st⟩, l1, h1, h2⟩
      obtain ⟨raws, hr, rfl, ⟨rfl, rfl⟩ | ⟨rfl, rfl⟩⟩ := scan_readStr.mp h1
      · simp only [runs_pure] at h2
        obtain ⟨rfl, rfl⟩ := h2
        refine ⟨raws.map .raw, allOk_raws hr, by rw [txt_raws], ?_⟩
        have := decodeChrs_raws raws []
        simp only [List.append_nil, decodeChrs] at this
        rw [this]
      · simp only [runs_bind] at h2
        obtain ⟨buf2, l2, h2, h3⟩ := h2
        have hlen := h2.length_le
        rw [ih (by simp at hn; omega)] at h3
        obtain ⟨cs, hcs, rfl, rfl⟩ := h3
        obtain ⟨x, cs1, hok, hl, hd⟩ := readEscapedChar_sound h2
        refine ⟨raws.map .raw ++ (x :: cs1 ++ cs), allOk_append (allOk_raws hr) (allOk_append hok hcs), ?_, ?_⟩
        · rw [txt_append, txt_raws, txt_append, hl]; simp [txt]
        · rw [decodeChrs_raws, ← List.append_assoc, List.cons_append, hd cs r rfl]
    · rintro ⟨cs, hcs, rfl, rfl⟩
      obtain ⟨raws, cs', rfl, hr, h⟩ := split_raws cs hcs
      rw [txt_append, txt_raws] at hn ⊢
      have hcs' : AllOk cs' := fun c hc => hcs c (by simp [hc])
      have esc : ∀ x t l, cs' = x :: t → 0x5C :: l = txt cs' ++ 0x22 :: r →
          ∃ a l', Runs (scan readStrBody (fun _ => .error .eof) buf) env (raws ++ txt cs' ++ 34 :: r) a l' ∧
            Runs (match a with
              | (buf, StrStop.quote) => pure buf
              | (buf, StrStop.backslash) => do
                let buf ← readEscapedChar buf
                readStringLoop n buf : Prog (List Byte)) env l' (buf ++ decodeChrs (List.map Chr.raw raws ++ cs')) r := by
        rintro x t l rfl hl
        refine ⟨(buf ++ raws, .backslash), l, scan_readStr.mpr ⟨raws, hr, rfl, .inr ⟨rfl, by rw [hl]; simp⟩⟩, ?_⟩
        simp only [runs_bind]
        obtain ⟨cs1, cs2, b', rfl, h1, h2⟩ := readEscapedChar_complete (env := env) (b := buf ++ raws) hcs' hl
        refine ⟨b', _, h1, ?_⟩
        have hlen := h1.length_le
        have hlen2 : l.length + 1 = (txt (x :: (cs1 ++ cs2)) ++ 0x22 :: r).length := by rw [← hl]; simp
        rw [ih]
        · refine ⟨cs2, fun c hc => hcs' c (by simp [hc]), rfl, ?_⟩
          rw [decodeChrs_raws, ← List.append_assoc, h2]
        · rw [List.append_assoc, List.length_append] at hn
          omega
      rcases h with rfl | ⟨c, t, rfl⟩ | ⟨a, b, c, d, t, rfl⟩
      · refine ⟨(buf ++ raws, .quote), r, scan_readStr.mpr ⟨raws, hr, rfl, .inl ⟨rfl, by simp⟩⟩, ?_⟩
        rw [decodeChrs_raws]
        simp [decodeChrs]
      · exact esc _ t (c :: (txt t ++ 0x22 :: r)) rfl (by simp [Chr.text])
      · exact esc _ t (0x75 :: a :: b :: c :: d :: (txt t ++ 0x22 :: r)) rfl (by simp [Chr.text])

theorem runs_readStringAsSliceSlow {env : Env} {l buf s r : List Byte} :
    Runs (readStringAsSliceSlow buf) env l s r ↔
      ∃ cs, AllOk cs ∧ l = txt cs ++ 0x22 :: r ∧ s = buf ++ decodeChrs cs := by
  unfold readStringAsSliceSlow
  simp only [runs_bind, runs_remaining]
  constructor
  · rintro ⟨_, _, ⟨rfl, rfl⟩, h⟩
    exact (runs_readStringLoop (by omega)).mp h
  · intro h
    exact ⟨_, _, ⟨rfl, rfl⟩, (runs_readStringLoop (by omega)).mpr h⟩

/-- `readStringAsSlice` succeeds exactly on a string body followed by a quotation mark, and returns what it denotes. -/
theorem runs_readString {env : Env} {l s r : List Byte} :
    Runs readStringAsSlice env l s r ↔ ∃ b, StrBody b s ∧ l = b ++ 0x22 :: r := by
  unfold readStringAsSlice
  rw [runs_readStringAsSliceSlow]
  constructor
  · rintro ⟨cs, h1, h2, h3⟩; exact ⟨_, ⟨cs, h1, rfl, by simpa using h3⟩, h2⟩
  · rintro ⟨_, ⟨cs, h1, rfl, h3⟩, h2⟩; exact ⟨cs, h1, h2, by simpa using h3⟩

theorem runs_skipString' {env : Env} {l r : List Byte} {u : Unit} :
    Runs skipString env l u r ↔ ∃ b s, StrBody b s ∧ l = b ++ 0x22 :: r := by
  rw [runs_skipString]
  constructor
  · rintro ⟨cs, h1, h2⟩; exact ⟨_, _, ⟨cs, h1, rfl, rfl⟩, h2⟩
  · rintro ⟨_, _, ⟨cs, h1, rfl, h3⟩, h2⟩; exact ⟨cs, h1, h2⟩

end Jzon
