import Verif.Model.Encode
import Verif.Spec.Encode

/-!
# Strings are written as JSON strings
-/

set_option linter.unusedSimpArgs false

namespace Jzon

open Spec

/-! ## UTF-8 decoding -/

theorem ofNat_eq_iff {n : Nat} {c : Byte} (h : n < 256) : UInt8.ofNat n = c ↔ c.toNat = n := by
  rw [← UInt8.toNat_inj, UInt8.toNat_ofNat']
  omega

theorem utf8_length (n : Nat) : 1 ≤ (utf8 n).length ∧ (utf8 n).length ≤ 4 := by
  unfold utf8
  split
  · simp
  · split
    · simp
    · split <;> simp

theorem decodeRune_utf8 {n : Nat} (hn : Scalar n) (l : List Byte) :
    decodeRune (utf8 n ++ l) = (n, (utf8 n).length) := by
  have lt {a b : Byte} : a < b ↔ a.toNat < b.toNat := UInt8.lt_iff_toNat_lt
  have le {a b : Byte} : a ≤ b ↔ a.toNat ≤ b.toNat := UInt8.le_iff_toNat_le
  have inj {a b : Byte} : a = b ↔ a.toNat = b.toNat := UInt8.toNat_inj.symm
  unfold Scalar at hn
  unfold utf8
  by_cases h1 : n < 0x80
  · rw [if_pos h1]
    simp only [List.cons_append, List.nil_append, decodeRune, lt, UInt8.toNat_ofNat']
    rw [if_pos (by simp; omega)]
    simp; omega
  · rw [if_neg h1]
    by_cases h2 : n < 0x800
    · rw [if_pos h2]
      simp only [List.cons_append, List.nil_append, decodeRune, lt, le, UInt8.toNat_ofNat']
      rw [if_neg (by simp; omega), if_neg (by simp; omega), if_pos (by simp; omega), if_pos (by simp; omega)]
      simp; omega
    · rw [if_neg h2]
      by_cases h3 : n < 0x10000
      · rw [if_pos h3]
        simp only [List.cons_append, List.nil_append, decodeRune, lt, le, UInt8.toNat_ofNat']
        rw [if_neg (by simp; omega), if_neg (by simp; omega), if_neg (by simp; omega), if_pos (by simp; omega), if_pos]
        · simp; omega
        · simp only [inj, UInt8.toNat_ofNat', Bool.and_eq_true, decide_eq_true_eq]
          refine ⟨⟨?_, ?_⟩, by simp; omega⟩
          · split
            · simp at *; omega
            · split <;> simp at * <;> omega
          · split
            · simp at *; omega
            · split <;> simp at * <;> omega
      · rw [if_neg h3]
        simp only [List.cons_append, List.nil_append, decodeRune, lt, le, UInt8.toNat_ofNat']
        rw [if_neg (by simp; omega), if_neg (by simp; omega), if_neg (by simp; omega), if_neg (by simp; omega), if_pos]
        · simp; omega
        · simp only [inj, UInt8.toNat_ofNat', Bool.and_eq_true, decide_eq_true_eq]
          refine ⟨⟨⟨?_, ?_⟩, by simp; omega⟩, by simp; omega⟩
          · split
            · simp at *; omega
            · split <;> simp at * <;> omega
          · split
            · simp at *; omega
            · split <;> simp at * <;> omega

theorem decodeRune_cases (l : List Byte) (hl : l ≠ []) :
    decodeRune l = (0xFFFD, 1) ∨ ∃ n t, Scalar n ∧ l = utf8 n ++ t ∧ decodeRune l = (n, (utf8 n).length) := by
  have lt {a b : Byte} : a < b ↔ a.toNat < b.toNat := UInt8.lt_iff_toNat_lt
  have le {a b : Byte} : a ≤ b ↔ a.toNat ≤ b.toNat := UInt8.le_iff_toNat_le
  have inj {a b : Byte} : a = b ↔ a.toNat = b.toNat := UInt8.toNat_inj.symm
  have key : ∀ n t, Scalar n → l = utf8 n ++ t → decodeRune l = (0xFFFD, 1) ∨
      ∃ n t, Scalar n ∧ l = utf8 n ++ t ∧ decodeRune l = (n, (utf8 n).length) := by
    rintro n t hn rfl
    exact .inr ⟨n, t, hn, rfl, decodeRune_utf8 hn t⟩
  cases l with
  | nil => exact absurd rfl hl
  | cons c0 s =>
    by_cases g1 : c0 < 0x80
    · refine key c0.toNat s (.inl ?_) ?_
      · rw [lt] at g1; simp at g1; omega
      · rw [lt] at g1; simp at g1
        rw [utf8, if_pos g1]; simp
    · by_cases g2 : c0 < 0xC2 ∨ 0xF4 < c0
      · left; simp only [decodeRune]; rw [if_neg g1, if_pos g2]
      · by_cases g3 : c0 < 0xE0
        · cases s with
          | nil => left; simp only [decodeRune]; rw [if_neg g1, if_neg g2, if_pos g3]
          | cons c1 s =>
            by_cases g4 : (0x80 ≤ c1 && c1 ≤ 0xBF) = true
            · simp [lt, le] at g1 g2 g3 g4
              refine key ((c0.toNat - 0xC0) * 0x40 + (c1.toNat - 0x80)) s (.inl (by omega)) ?_
              rw [utf8, if_neg (by omega), if_pos (by omega)]
              simp only [List.cons_append, List.nil_append, List.cons.injEq, and_true]
              exact ⟨((ofNat_eq_iff (by omega)).mpr (by omega)).symm, ((ofNat_eq_iff (by omega)).mpr (by omega)).symm⟩
            · left; simp only [decodeRune]; rw [if_neg g1, if_neg g2, if_pos g3, if_neg g4]
        · by_cases g5 : c0 < 0xF0
          · match s with
            | [] => left; simp only [decodeRune]; rw [if_neg g1, if_neg g2, if_neg g3, if_pos g5]
            | [c1] => left; simp only [decodeRune]; rw [if_neg g1, if_neg g2, if_neg g3, if_pos g5]
            | c1 :: c2 :: s =>
              by_cases g6 : (((if c0 = 0xE0 then 0xA0 else if c0 = 0xF0 then 0x90 else 0x80 : Byte) ≤ c1 &&
                  c1 ≤ (if c0 = 0xED then 0x9F else if c0 = 0xF4 then 0x8F else 0xBF : Byte)) && (0x80 ≤ c2 && c2 ≤ 0xBF)) = true
              · simp only [Bool.and_eq_true, decide_eq_true_eq] at g6
                obtain ⟨⟨a1, a2⟩, a3, a4⟩ := g6
                have h2 := c2.toNat_lt
                have b1 : 0x80 ≤ c1.toNat ∧ c1.toNat ≤ 0xBF ∧ (c0.toNat = 0xE0 → 0xA0 ≤ c1.toNat) ∧
                    (c0.toNat = 0xED → c1.toNat ≤ 0x9F) := by
                  simp only [le, inj, lt] at *
                  split at a1 <;> split at a2 <;> (try split at a1) <;> (try split at a2) <;> simp at * <;> omega
                simp [lt, le] at g1 g2 g3 g5 a3 a4
                refine key ((c0.toNat - 0xE0) * 0x1000 + (c1.toNat - 0x80) * 0x40 + (c2.toNat - 0x80)) s (by unfold Scalar; omega) ?_
                rw [utf8, if_neg (by omega), if_neg (by omega), if_pos (by omega)]
                simp only [List.cons_append, List.nil_append, List.cons.injEq, and_true]
                exact ⟨((ofNat_eq_iff (by omega)).mpr (by omega)).symm, ((ofNat_eq_iff (by omega)).mpr (by omega)).symm,
                  ((ofNat_eq_iff (by omega)).mpr (by omega)).symm⟩
              · left; simp only [decodeRune]; rw [if_neg g1, if_neg g2, if_neg g3, if_pos g5, if_neg g6]
          · match s with
            | [] => left; simp only [decodeRune]; rw [if_neg g1, if_neg g2, if_neg g3, if_neg g5]
            | [c1] => left; simp only [decodeRune]; rw [if_neg g1, if_neg g2, if_neg g3, if_neg g5]
            | [c1, c2] => left; simp only [decodeRune]; rw [if_neg g1, if_neg g2, if_neg g3, if_neg g5]
            | c1 :: c2 :: c3 :: s =>
              by_cases g6 : (((if c0 = 0xE0 then 0xA0 else if c0 = 0xF0 then 0x90 else 0x80 : Byte) ≤ c1 &&
                  c1 ≤ (if c0 = 0xED then 0x9F else if c0 = 0xF4 then 0x8F else 0xBF : Byte)) && (0x80 ≤ c2 && c2 ≤ 0xBF) &&
                  (0x80 ≤ c3 && c3 ≤ 0xBF)) = true
              · simp only [Bool.and_eq_true, decide_eq_true_eq] at g6
                obtain ⟨⟨⟨a1, a2⟩, a3, a4⟩, a5, a6⟩ := g6
                have b1 : 0x80 ≤ c1.toNat ∧ c1.toNat ≤ 0xBF ∧ (c0.toNat = 0xF0 → 0x90 ≤ c1.toNat) ∧
                    (c0.toNat = 0xF4 → c1.toNat ≤ 0x8F) := by
                  simp only [le, inj, lt] at *
                  split at a1 <;> split at a2 <;> (try split at a1) <;> (try split at a2) <;> simp at * <;> omega
                simp [lt, le] at g1 g2 g3 g5 a3 a4 a5 a6
                refine key ((c0.toNat - 0xF0) * 0x40000 + (c1.toNat - 0x80) * 0x1000 + (c2.toNat - 0x80) * 0x40 + (c3.toNat - 0x80))
                  s (by unfold Scalar; omega) ?_
                rw [utf8, if_neg (by omega), if_neg (by omega), if_neg (by omega)]
                simp only [List.cons_append, List.nil_append, List.cons.injEq, and_true]
                exact ⟨((ofNat_eq_iff (by omega)).mpr (by omega)).symm, ((ofNat_eq_iff (by omega)).mpr (by omega)).symm,
                  ((ofNat_eq_iff (by omega)).mpr (by omega)).symm, ((ofNat_eq_iff (by omega)).mpr (by omega)).symm⟩
              · left; simp only [decodeRune]; rw [if_neg g1, if_neg g2, if_neg g3, if_neg g5, if_neg g6]

/-! ## One round of the loop -/

def hexDig (n : Nat) : Byte := (hexAt n).getD 0

/-- What the loop writes for the next character, and how many bytes it consumes. -/
def piece (html : Bool) (l : List Byte) : List Byte × Nat :=
  match l with
  | [] => ([], 0)
  | c :: _ =>
    if c < 0x80 then
      if 0x20 ≤ c then (if safeSet html c ≠ [] then safeSet html c else [c], 1)
      else (if safeSet true c ≠ [] then safeSet true c
        else (bs! "\\u00") ++ [hexDig (c >>> 4).toNat, hexDig (c &&& 0xF).toNat], 1)
    else
      let r := decodeRune l
      if r.1 = 0xFFFD ∧ r.2 = 1 then (bs! "\\ufffd", 1)
      else if r.1 = 0x2028 ∨ r.1 = 0x2029 then ((bs! "\\u202") ++ [hexDig (r.1 % 16)], r.2)
      else (l.take r.2, r.2)

theorem decodeRune_size {l : List Byte} (hl : l ≠ []) : 1 ≤ (decodeRune l).2 ∧ (decodeRune l).2 ≤ l.length := by
  rcases decodeRune_cases l hl with h | ⟨n, t, _, rfl, h⟩
  · rw [h]
    cases l with
    | nil => exact absurd rfl hl
    | cons => simp
  · rw [h]
    have := utf8_length n
    simp; omega

theorem piece_size {html : Bool} {l : List Byte} (hl : l ≠ []) : 1 ≤ (piece html l).2 ∧ (piece html l).2 ≤ l.length := by
  have h0 := decodeRune_size hl
  unfold piece
  cases l with
  | nil => exact absurd rfl hl
  | cons c t =>
    simp only
    split
    · split <;> simp
    · split
      · simp
      · split
        · exact h0
        · exact h0

/-- The whole output. -/
def pieces (html : Bool) : Nat → List Byte → List Byte
  | 0, _ => []
  | n + 1, l => if l = [] then [] else (piece html l).1 ++ pieces html n (l.drop (piece html l).2)

theorem hexAt_some {n : Nat} (h : n < 16) : hexAt n = some (hexDig n) := by
  have : ∀ i : _root_.Fin 16, hexAt i.val = some (hexDig i.val) := by decide +kernel
  exact this ⟨n, h⟩

theorem nibbles : ∀ c : Byte, (c >>> 4).toNat < 16 ∧ (c &&& 0xF).toNat < 16 := by
  apply forall_byte; decide +kernel

theorem sliceOf_some {s : List Byte} {a b : Nat} (h1 : a ≤ b) (h2 : b ≤ s.length) :
    sliceOf s a b = some ((s.take b).drop a) := by
  rw [sliceOf, if_pos ⟨h1, h2⟩]

theorem slice_extend {s : List Byte} {a b k : Nat} (h1 : a ≤ b) (_h2 : b + k ≤ s.length) :
    (s.take (b + k)).drop a = (s.take b).drop a ++ (s.drop b).take k := by
  rw [List.drop_take, List.drop_take]
  rw [show b + k - a = (b - a) + k by omega, List.take_add, List.drop_drop, show a + (b - a) = b by omega]

theorem loop_eq {html : Bool} {str : List Byte} {n : Nat} {buffer : List Byte} {offset i : Nat} (ho : offset ≤ i)
    (hi : i ≤ str.length) (hn : str.length < n + i) :
    encodeStringLoop html str n buffer offset i =
      some (buffer ++ (str.take i).drop offset ++ pieces html n (str.drop i) ++ [0x22]) := by
  induction n generalizing buffer offset i with
  | zero => omega
  | succ n ih =>
    unfold encodeStringLoop
    split
    · rename_i hlt
      have hc : str[i]? = some str[i] := List.getElem?_eq_getElem hlt
      have hd : str.drop i = str[i] :: str.drop (i + 1) := List.drop_eq_getElem_cons hlt
      have hne : str.drop i ≠ [] := by intro h; rw [h] at hd; cases hd
      have fresh : ∀ (b : List Byte) (k : Nat), 1 ≤ k → i + k ≤ str.length →
          encodeStringLoop html str n b (i + k) (i + k) = some (b ++ pieces html n (str.drop (i + k)) ++ [0x22]) := by
        intro b k hk hik
        rw [ih (Nat.le_refl _) hik (by omega)]
        rw [List.drop_eq_nil_of_le (as := str.take (i + k)) (by rw [List.length_take]; omega)]
        simp
      have keep : ∀ (k : Nat), 1 ≤ k → i + k ≤ str.length →
          encodeStringLoop html str n buffer offset (i + k) =
            some (buffer ++ (str.take i).drop offset ++ ((str.drop i).take k ++ pieces html n (str.drop (i + k))) ++ [0x22]) := by
        intro k hk hik
        rw [ih (by omega) hik (by omega), slice_extend ho hik]
        simp
      have hp : pieces html (n + 1) (str.drop i) =
          (piece html (str.drop i)).1 ++ pieces html n ((str.drop i).drop (piece html (str.drop i)).2) := by
        rw [pieces, if_neg hne]
      rw [hp]
      generalize hc0 : str[i] = c at *
      have e0 : piece html (str.drop i) = piece html (c :: str.drop (i + 1)) := by rw [hd]
      simp only [hc, Option.bind_eq_bind, Option.bind_some, sliceOf_some ho (Nat.le_of_lt hlt)]
      rw [List.drop_drop]
      by_cases h1 : c < 0x80
      · simp only [h1, if_true]
        by_cases h2 : 0x20 ≤ c
        · simp only [ge_iff_le, h2, if_true]
          by_cases h3 : safeSet html c = []
          · have hpc : piece html (str.drop i) = ([c], 1) := by rw [e0]; simp [piece, h1, h2, h3]
            rw [hpc]
            simp only [h3, ne_eq, not_true_eq_false, if_false]
            rw [keep 1 (by omega) (by omega), hd]
            simp
          · have hpc : piece html (str.drop i) = (safeSet html c, 1) := by rw [e0]; simp [piece, h1, h2, h3]
            rw [hpc]
            simp only [h3, ne_eq, not_false_eq_true, if_true]
            rw [fresh _ 1 (by omega) (by omega)]
            simp
        · simp only [ge_iff_le, h2, if_false]
          by_cases h3 : safeSet true c = []
          · have hpc : piece html (str.drop i) =
                ((bs! "\\u00") ++ [hexDig (c >>> 4).toNat, hexDig (c &&& 0xF).toNat], 1) := by
              rw [e0]; simp [piece, h1, h2, h3]
            rw [hpc]
            simp only [h3, ne_eq, not_true_eq_false, if_false]
            rw [hexAt_some (nibbles c).1, hexAt_some (nibbles c).2]
            simp only [Option.bind_some]
            rw [fresh _ 1 (by omega) (by omega)]
            simp
          · have hpc : piece html (str.drop i) = (safeSet true c, 1) := by rw [e0]; simp [piece, h1, h2, h3]
            rw [hpc]
            simp only [h3, ne_eq, not_false_eq_true, if_true]
            rw [fresh _ 1 (by omega) (by omega)]
            simp
      · simp only [h1, if_false]
        rw [sliceOf_some (Nat.le_of_lt hlt) (Nat.le_refl _)]
        simp only [Option.bind_some, List.take_length]
        have hs := decodeRune_size hne
        simp only [List.length_drop] at hs
        have e1 : decodeRune (c :: str.drop (i + 1)) = decodeRune (str.drop i) := by rw [hd]
        generalize hr : decodeRune (str.drop i) = r at *
        obtain ⟨r, size⟩ := r
        simp only at hs ⊢
        by_cases h4 : r = 0xFFFD ∧ size = 1
        · have hpc : piece html (str.drop i) = (bs! "\\ufffd", 1) := by
            rw [e0]; simp only [piece, e1, h1, if_false]; simp [h4]
          rw [hpc]
          simp only [h4, and_self, if_true]
          rw [fresh _ 1 (by omega) (by omega)]
          simp
        · rw [if_neg h4]
          by_cases h5 : r = 0x2028 ∨ r = 0x2029
          · have hpc : piece html (str.drop i) = ((bs! "\\u202") ++ [hexDig (r % 16)], size) := by
              rw [e0]; simp only [piece, e1, h1, if_false]; simp only [h4, h5, if_false, if_true]
            rw [hpc]
            simp only [h5, if_true]
            rw [hexAt_some (Nat.mod_lt _ (by omega))]
            simp only [Option.bind_some]
            rw [fresh _ size (by omega) (by omega)]
            simp
          · have hpc : piece html (str.drop i) = ((str.drop i).take size, size) := by
              rw [e0]; simp only [piece, e1, h1, if_false]; simp only [h4, h5, if_false, hd]
            rw [hpc]
            simp only [h5, if_false]
            rw [keep size (by omega) (by omega)]
    · have : i = str.length := by omega
      subst this
      rw [sliceOf_some ho (Nat.le_refl _)]
      simp [pieces]

theorem encodeString_eq (buffer str : List Byte) (html : Bool) :
    encodeString buffer str html = some (buffer ++ (0x22 :: (pieces html (str.length + 1) str ++ [0x22]))) := by
  unfold encodeString
  rw [loop_eq (Nat.le_refl _) (Nat.zero_le _) (by omega)]
  simp

/-! ## What a round writes -/

instance (ch : Chr) : Decidable ch.Ok := by cases ch <;> unfold Chr.Ok <;> infer_instance

/-- Not a surrogate escape. -/
def plain : Chr → Bool
  | .uni a b c d => !isHigh (codeUnit a b c d) && !isLow (codeUnit a b c d)
  | _ => true

theorem decodeChrs_plain {ch : Chr} (h : plain ch = true) (t : List Chr) :
    decodeChrs (ch :: t) = decodeChrs [ch] ++ decodeChrs t := by
  cases ch with
  | raw c => simp [decodeChrs]
  | esc c => simp [decodeChrs]
  | uni a b c d =>
    simp only [plain, Bool.and_eq_true, Bool.not_eq_true'] at h
    cases t with
    | nil => simp [decodeChrs]
    | cons x t =>
      cases x with
      | raw c => simp [decodeChrs, h]
      | esc c => simp [decodeChrs, h]
      | uni a' b' c' d' =>
        rw [decodeChrs]
        simp [h]
        rw [decodeChrs]
        simp [h]
        · rfl
        · intro _ _ _ _ _ h; cases h

/-- The `char` written for an ASCII byte. -/
def chrOf (html : Bool) (c : Byte) : Chr :=
  if c = 0x0A then .esc 0x6E
  else if c = 0x0D then .esc 0x72
  else if c = 0x09 then .esc 0x74
  else if c = 0x22 then .esc 0x22
  else if c = 0x5C then .esc 0x5C
  else if c < 0x20 || (html && (c == 0x3C || c == 0x3E || c == 0x26)) then
    .uni 0x30 0x30 (hexDig (c >>> 4).toNat) (hexDig (c &&& 0xF).toNat)
  else .raw c

def asciiOut (html : Bool) (c : Byte) : Bool :=
  0x20 ≤ c && c < 0x80 && (!html || (c != 0x3C && c != 0x3E && c != 0x26))

theorem ascii_table (html : Bool) : ∀ c : Byte, c < 0x80 →
    (piece html [c]) = ((chrOf html c).text, 1) ∧ (chrOf html c).Ok ∧ plain (chrOf html c) = true ∧
      decodeChrs [chrOf html c] = [c] ∧ (chrOf html c).text.all (asciiOut html) = true := by
  cases html <;> (apply forall_byte; decide +kernel)

theorem const_table (html : Bool) :
    (Chr.uni 0x66 0x66 0x66 0x64).Ok ∧ decodeChrs [Chr.uni 0x66 0x66 0x66 0x64] = replacement ∧
    (Chr.uni 0x32 0x30 0x32 0x38).Ok ∧ decodeChrs [Chr.uni 0x32 0x30 0x32 0x38] = utf8 0x2028 ∧
    (Chr.uni 0x32 0x30 0x32 0x39).Ok ∧ decodeChrs [Chr.uni 0x32 0x30 0x32 0x39] = utf8 0x2029 ∧
    (Chr.uni 0x66 0x66 0x66 0x64).text.all (asciiOut html) = true ∧
    (Chr.uni 0x32 0x30 0x32 0x38).text.all (asciiOut html) = true ∧
    (Chr.uni 0x32 0x30 0x32 0x39).text.all (asciiOut html) = true := by
  cases html <;> decide +kernel

theorem ascii_utf8 {html : Bool} {l : List Byte} (h : l.all (asciiOut html) = true) :
    ∃ ns : List Nat, (∀ n ∈ ns, OutChar html n) ∧ l = ns.flatMap utf8 := by
  refine ⟨l.map UInt8.toNat, ?_, ?_⟩
  · intro n hn
    obtain ⟨c, hc, rfl⟩ := List.mem_map.mp hn
    have := List.all_eq_true.mp h c hc
    have key : ∀ c : Byte, ∀ html, asciiOut html c = true →
        c.toNat < 0x80 ∧ 0x20 ≤ c.toNat ∧ (html = true → c.toNat ≠ 0x3C ∧ c.toNat ≠ 0x3E ∧ c.toNat ≠ 0x26) := by
      apply forall_byte; decide +kernel
    obtain ⟨h1, h2, h3⟩ := key c html this
    exact ⟨.inl (by omega), h2, by omega, by omega, h3⟩
  · induction l with
    | nil => rfl
    | cons c l ih =>
      simp only [List.all_cons, Bool.and_eq_true] at h
      have key : ∀ c : Byte, ∀ html, asciiOut html c = true → utf8 c.toNat = [c] := by
        apply forall_byte; decide +kernel
      simp only [List.map_cons, List.flatMap_cons, key c html h.1]
      rw [← ih h.2]
      rfl

theorem utf8_high {n : Nat} (hn : Scalar n) (h : 0x80 ≤ n) : ∀ c ∈ utf8 n, 0x80 ≤ c := by
  have le {a b : Byte} : a ≤ b ↔ a.toNat ≤ b.toNat := UInt8.le_iff_toNat_le
  unfold Scalar at hn
  intro c hc
  rw [le]
  unfold utf8 at hc
  rw [if_neg (by omega)] at hc
  split at hc
  · simp only [List.mem_cons, List.not_mem_nil, or_false] at hc
    rcases hc with rfl | rfl <;> simp <;> omega
  · split at hc
    · simp only [List.mem_cons, List.not_mem_nil, or_false] at hc
      rcases hc with rfl | rfl | rfl <;> simp <;> omega
    · simp only [List.mem_cons, List.not_mem_nil, or_false] at hc
      rcases hc with rfl | rfl | rfl | rfl <;> simp <;> omega

theorem raws {l : List Byte} (h : ∀ c ∈ l, (0x80 : Byte) ≤ c) :
    (∀ ch ∈ l.map Chr.raw, ch.Ok ∧ plain ch = true) ∧ l = (l.map Chr.raw).flatMap Chr.text ∧ decodeChrs (l.map Chr.raw) = l := by
  refine ⟨?_, ?_, ?_⟩
  · intro ch hch
    obtain ⟨c, hc, rfl⟩ := List.mem_map.mp hch
    have key : ∀ c : Byte, 0x80 ≤ c → 0x20 ≤ c ∧ c ≠ 0x22 ∧ c ≠ 0x5C := by apply forall_byte; decide +kernel
    exact ⟨key c (h c hc), rfl⟩
  · clear h
    induction l with
    | nil => rfl
    | cons c l ih => simpa [Chr.text] using ih
  · clear h
    induction l with
    | nil => rfl
    | cons c l ih => simp [decodeChrs, ih]

theorem decodeChrs_append {cs : List Chr} (h : ∀ ch ∈ cs, plain ch = true) (t : List Chr) :
    decodeChrs (cs ++ t) = decodeChrs cs ++ decodeChrs t := by
  induction cs with
  | nil => rfl
  | cons ch cs ih =>
    have h1 := h ch (by simp)
    rw [List.cons_append, decodeChrs_plain h1, decodeChrs_plain h1 cs, ih (fun x hx => h x (by simp [hx]))]
    simp

/-- `out` is written for `l = pre ++ rest`, which denotes `x` up to `rest`. -/
structure Round (html : Bool) (l out x rest : List Byte) : Prop where
  chrs : ∃ cs : List Chr, (∀ ch ∈ cs, ch.Ok ∧ plain ch = true) ∧ out = cs.flatMap Chr.text ∧ decodeChrs cs = x
  chars : ∃ ns : List Nat, (∀ n ∈ ns, OutChar html n) ∧ out = ns.flatMap utf8
  input : (∃ n, Scalar n ∧ l = utf8 n ++ rest ∧ x = utf8 n) ∨
    (∃ c, l = c :: rest ∧ (∀ n, Scalar n → ¬ utf8 n <+: l) ∧ x = replacement)

theorem utf8_prefix_unique {n m : Nat} (hn : Scalar n) (hm : Scalar m) {l : List Byte} (h1 : utf8 n <+: l) (h2 : utf8 m <+: l) :
    n = m := by
  obtain ⟨a, rfl⟩ := h1
  obtain ⟨b, h2⟩ := h2
  have e1 := decodeRune_utf8 hn a
  rw [← h2, decodeRune_utf8 hm b] at e1
  exact (Prod.mk.inj e1).1.symm

theorem piece_round (html : Bool) {l : List Byte} (hl : l ≠ []) :
    ∃ x, Round html l (piece html l).1 x (l.drop (piece html l).2) := by
  obtain ⟨c, t, rfl⟩ : ∃ c t, l = c :: t := by
    cases l with
    | nil => exact absurd rfl hl
    | cons c t => exact ⟨c, t, rfl⟩
  by_cases h1 : c < 0x80
  · obtain ⟨e1, e2, e3, e4, e5⟩ := ascii_table html c h1
    have : piece html (c :: t) = piece html [c] := by simp only [piece, h1, if_true]
    rw [this, e1]
    refine ⟨[c], ⟨[chrOf html c], by simp [e2, e3], by simp, e4⟩, ascii_utf8 e5, .inl ⟨c.toNat, ?_, ?_, ?_⟩⟩
    · rw [UInt8.lt_iff_toNat_lt] at h1
      simp at h1
      exact .inl (by omega)
    all_goals
      have key : ∀ c : Byte, c < 0x80 → utf8 c.toNat = [c] := by apply forall_byte; decide +kernel
      rw [key c h1]
      try simp
  · obtain ⟨k1, k2, k3, k4, k5, k6, k7, k8, k9⟩ := const_table html
    rcases decodeRune_cases (c :: t) hl with h | ⟨n, t', hn, h2, h⟩
    · have : piece html (c :: t) = (bs! "\\ufffd", 1) := by simp only [piece, h1, if_false, h]; simp
      rw [this]
      refine ⟨replacement, ⟨[.uni 0x66 0x66 0x66 0x64], by simp [k1]; rfl, rfl, k2⟩, ascii_utf8 k7,
        .inr ⟨c, rfl, ?_, rfl⟩⟩
      rintro n hn ⟨r, hr⟩
      rw [← hr, decodeRune_utf8 hn] at h
      obtain ⟨rfl, h⟩ := Prod.mk.inj h
      simp [utf8] at h
    · have hn80 : 0x80 ≤ n := by
        apply Nat.le_of_not_lt
        intro hlt
        rw [utf8, if_pos hlt] at h2
        cases h2
        exact h1 (by rw [UInt8.lt_iff_toNat_lt]; simp; omega)
      have hlen := (utf8_length n)
      have nb : ¬ (n = 0xFFFD ∧ (utf8 n).length = 1) := by
        rintro ⟨rfl, h⟩
        simp [utf8] at h
      by_cases h5 : n = 0x2028 ∨ n = 0x2029
      · have : piece html (c :: t) = ((bs! "\\u202") ++ [hexDig (n % 16)], (utf8 n).length) := by
          simp only [piece, h1, if_false, h, nb, h5, if_true]
        rw [this, h2]
        refine ⟨utf8 n, ?_, ?_, .inl ⟨n, hn, by simp, rfl⟩⟩
        · rcases h5 with rfl | rfl
          · exact ⟨[.uni 0x32 0x30 0x32 0x38], by simp [k3]; rfl, rfl, k4⟩
          · exact ⟨[.uni 0x32 0x30 0x32 0x39], by simp [k5]; rfl, rfl, k6⟩
        · rcases h5 with rfl | rfl
          · exact ascii_utf8 k8
          · exact ascii_utf8 k9
      · have : piece html (c :: t) = ((c :: t).take (utf8 n).length, (utf8 n).length) := by
          simp only [piece, h1, if_false, h, nb, h5]
        rw [this, h2]
        have hr := raws (utf8_high hn hn80)
        refine ⟨utf8 n, ⟨(utf8 n).map .raw, hr.1, by simpa using hr.2.1, hr.2.2⟩, ⟨[n], ?_, by simp⟩,
          .inl ⟨n, hn, by simp, rfl⟩⟩
        intro m hm
        simp at hm
        subst hm
        exact ⟨hn, by omega, by omega, by omega, by omega⟩

theorem pieces_spec (html : Bool) {n : Nat} {l : List Byte} (hn : l.length < n) :
    ∃ s, Sanitized l s ∧ StrBody (pieces html n l) s ∧
      ∃ ns : List Nat, (∀ n ∈ ns, OutChar html n) ∧ pieces html n l = ns.flatMap utf8 := by
  suffices ∃ s, Sanitized l s ∧ (∃ cs : List Chr, (∀ c ∈ cs, c.Ok ∧ plain c = true) ∧ pieces html n l = cs.flatMap Chr.text ∧ s = decodeChrs cs) ∧
      ∃ ns : List Nat, (∀ n ∈ ns, OutChar html n) ∧ pieces html n l = ns.flatMap utf8 by
    obtain ⟨s, h1, ⟨cs, h2, h3⟩, h4⟩ := this
    exact ⟨s, h1, ⟨cs, fun c hc => (h2 c hc).1, h3⟩, h4⟩
  induction n generalizing l with
  | zero => omega
  | succ n ih =>
    by_cases hl : l = []
    · subst hl
      exact ⟨[], .nil, ⟨[], by simp, by simp [pieces], rfl⟩, [], by simp, by simp [pieces]⟩
    · rw [pieces, if_neg hl]
      have hsz := piece_size (html := html) hl
      obtain ⟨x, ⟨cs, c1, c2, c3⟩, ⟨ns, n1, n2⟩, hin⟩ := piece_round html hl
      obtain ⟨s, i1, ⟨cs', c1', c2', c3'⟩, ns', n1', n2'⟩ := ih (l := l.drop (piece html l).2) (by simp; omega)
      refine ⟨x ++ s, ?_, ⟨cs ++ cs', ?_, ?_, ?_⟩, ns ++ ns', ?_, ?_⟩
      · rcases hin with ⟨m, hm, e1, rfl⟩ | ⟨c, e1, hb, rfl⟩
        · rw [e1]; exact .char m _ _ hm i1
        · rw [e1] at hb ⊢; exact .bad c _ _ hb i1
      · intro c hc
        rcases List.mem_append.mp hc with h | h
        · exact c1 c h
        · exact c1' c h
      · rw [c2', c2]; simp
      · rw [decodeChrs_append (fun c hc => (c1 c hc).2), c3, c3']
      · intro c hc
        rcases List.mem_append.mp hc with h | h
        · exact n1 c h
        · exact n1' c h
      · rw [n2', n2]; simp

/-! ## `Sanitized` is a function, and the identity on valid UTF-8 -/

theorem sanitized_unique {l s s' : List Byte} (h : Sanitized l s) (h' : Sanitized l s') : s = s' := by
  induction h generalizing s' with
  | nil =>
    generalize hl : ([] : List Byte) = l at h'
    cases h' with
    | nil => rfl
    | char n l s hn h =>
      have h1 := utf8_length n
      have h2 := congrArg List.length hl
      rw [List.length_append, List.length_nil] at h2
      omega
    | bad => cases hl
  | char n l s hn h ih =>
    generalize hl : utf8 n ++ l = l' at h'
    cases h' with
    | nil =>
      have h1 := utf8_length n
      have h2 := congrArg List.length hl
      rw [List.length_append, List.length_nil] at h2
      omega
    | char m l1 s1 hm h1 =>
      have : n = m := utf8_prefix_unique hn hm ⟨l, rfl⟩ (by rw [hl]; exact ⟨l1, rfl⟩)
      subst this
      have := List.append_cancel_left hl
      subst this
      rw [ih h1]
    | bad c l1 s1 hc h1 => exact absurd ⟨l, hl⟩ (hc n hn)
  | bad c l s hc h ih =>
    generalize hl : c :: l = l' at h'
    cases h' with
    | nil => cases hl
    | char m l1 s1 hm h1 => exact absurd ⟨l1, hl.symm⟩ (hc m hm)
    | bad c' l1 s1 hc' h1 =>
      cases hl
      rw [ih h1]

theorem sanitized_valid {l : List Byte} (h : ValidUtf8 l) : Sanitized l l := by
  obtain ⟨ns, h1, rfl⟩ := h
  induction ns with
  | nil => exact .nil
  | cons n ns ih => exact .char n _ _ (h1 n (by simp)) (ih fun m hm => h1 m (by simp [hm]))

theorem sanitized_utf8 {l s : List Byte} (h : Sanitized l s) : ValidUtf8 s := by
  induction h with
  | nil => exact ⟨[], by simp, rfl⟩
  | char n l s hn h ih =>
    obtain ⟨ns, h1, rfl⟩ := ih
    exact ⟨n :: ns, by simpa [hn] using h1, rfl⟩
  | bad c l s hc h ih =>
    obtain ⟨ns, h1, rfl⟩ := ih
    refine ⟨0xFFFD :: ns, ?_, ?_⟩
    · intro n hn
      rcases List.mem_cons.mp hn with rfl | hn
      · exact .inr (by omega)
      · exact h1 n hn
    · rfl

end Jzon
