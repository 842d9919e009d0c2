import Verif.Model.ErrText
import Verif.Proof.Fold
import Verif.Proof.EncInt

/-!
# Reading back quoted texts
-/

set_option linter.unusedSimpArgs false

namespace Jzon

open Spec

/-! ## Hexadecimal digits -/

/-- The value of a lower case hexadecimal digit. -/
def lowerHexValue (c : Byte) : Nat := if c.toNat < 0x40 then c.toNat - 0x30 else c.toNat - 0x57

def unhex (l : List Byte) : Nat := l.foldl (fun a c => a * 16 + lowerHexValue c) 0

theorem lowerHexValue_lower {n : Nat} (h : n < 16) : lowerHexValue (lowerHex n) = n := by
  have : ∀ n : Fin 16, lowerHexValue (lowerHex n.val) = n.val := by decide +kernel
  exact this ⟨n, h⟩

theorem hexDigits_length (k n : Nat) : (hexDigits k n).length = k := by
  induction k generalizing n with
  | zero => rfl
  | succ k ih => simp [hexDigits, ih]

theorem unhex_digits (k n : Nat) : unhex (hexDigits k n) = n % 16 ^ k := by
  induction k generalizing n with
  | zero => simp [hexDigits, unhex, Nat.mod_one]
  | succ k ih =>
    have h := ih (n / 16)
    unfold unhex at h ⊢
    simp only [hexDigits, List.foldl_append, List.foldl_cons, List.foldl_nil, h, lowerHexValue_lower (Nat.mod_lt _ (by decide : 16 > 0))]
    rw [Nat.pow_succ', Nat.mod_mul]
    omega

theorem take_hex (k n : Nat) (h : n < 16 ^ k) (X : List Byte) : unhex ((hexDigits k n ++ X).take k) = n ∧ (hexDigits k n ++ X).drop k = X := by
  have hl := hexDigits_length k n
  constructor
  · rw [List.take_append_of_le_length (by omega), List.take_of_length_le (by omega), unhex_digits, Nat.mod_eq_of_lt h]
  · rw [List.drop_append_of_le_length (by omega), List.drop_of_length_le (by omega)]; rfl

/-- A byte that is neither a control character nor DEL. -/
def Shown (c : Byte) : Prop := 0x20 ≤ c ∧ c ≠ 0x7F

instance (c : Byte) : Decidable (Shown c) := by unfold Shown; infer_instance

theorem shown_hex (k n : Nat) : ∀ c ∈ hexDigits k n, Shown c := by
  induction k generalizing n with
  | zero => simp [hexDigits]
  | succ k ih =>
    intro c hc
    simp only [hexDigits, List.mem_append, List.mem_singleton] at hc
    rcases hc with hc | rfl
    · exact ih _ c hc
    · have : ∀ n : Fin 16, Shown (lowerHex n.val) := by decide +kernel
      exact this ⟨n % 16, Nat.mod_lt _ (by decide)⟩

/-! ## Quoted characters -/

/-- Reads one character back: its bytes and the rest. -/
def unquoteChar : List Byte → List Byte × List Byte
  | 0x5C :: c :: X =>
    if c = b! 'x' then ([UInt8.ofNat (unhex (X.take 2))], X.drop 2)
    else if c = b! 'u' then (utf8 (unhex (X.take 4)), X.drop 4)
    else if c = b! 'U' then (utf8 (unhex (X.take 8)), X.drop 8)
    else if c = b! 'a' then ([7], X)
    else if c = b! 'b' then ([8], X)
    else if c = b! 'f' then ([12], X)
    else if c = b! 'n' then ([10], X)
    else if c = b! 'r' then ([13], X)
    else if c = b! 't' then ([9], X)
    else if c = b! 'v' then ([11], X)
    else ([c], X)
  | l => (l.take (decodeRune l).2, l.drop (decodeRune l).2)

theorem utf8_head (n : Nat) (hn : Scalar n) : ∃ c s, utf8 n = c :: s ∧ (c.toNat < 0x80 → c.toNat = n) := by
  unfold Scalar at hn
  unfold utf8
  by_cases h1 : n < 0x80
  · rw [if_pos h1]; exact ⟨_, _, rfl, by simp; omega⟩
  · rw [if_neg h1]
    by_cases h2 : n < 0x800
    · rw [if_pos h2]; exact ⟨_, _, rfl, by simp; omega⟩
    · rw [if_neg h2]
      by_cases h3 : n < 0x10000
      · rw [if_pos h3]; exact ⟨_, _, rfl, by simp; omega⟩
      · rw [if_neg h3]; exact ⟨_, _, rfl, by simp; omega⟩

theorem unquoteChar_plain {l : List Byte} (h : ∀ s, l ≠ 0x5C :: s) : unquoteChar l = (l.take (decodeRune l).2, l.drop (decodeRune l).2) := by
  unfold unquoteChar
  split
  · exact absurd rfl (h _)
  · rfl

theorem unquoteChar_utf8 {n : Nat} (hn : Scalar n) (h : n ≠ 0x5C) (X : List Byte) : unquoteChar (utf8 n ++ X) = (utf8 n, X) := by
  obtain ⟨c, s, hc, h1⟩ := utf8_head n hn
  rw [unquoteChar_plain, decodeRune_utf8 hn]
  · simp
  · intro t ht
    rw [hc] at ht
    simp at ht
    rw [ht.1] at h1
    exact h (h1 (by decide)).symm

theorem unquoteChar_escaped {pr : Nat → Bool} {q : Byte} (hq : q = 0x22 ∨ q = 0x27) {r : Nat} (hr : Scalar r) (X : List Byte) :
    unquoteChar (escapedRune pr q r ++ X) = (utf8 r, X) := by
  unfold escapedRune
  by_cases h0 : r = q.toNat ∨ r = 0x5C
  · rw [if_pos h0]
    rcases hq with rfl | rfl <;> rcases h0 with rfl | rfl <;> rfl
  rw [if_neg h0]
  by_cases hp : pr r = true
  · rw [if_pos hp, appendRune_scalar hr, List.nil_append, unquoteChar_utf8 hr (fun h => h0 (.inr h))]
  rw [if_neg hp]
  by_cases h1 : r = 7
  · subst h1; rfl
  rw [if_neg h1]
  by_cases h1 : r = 8
  · subst h1; rfl
  rw [if_neg h1]
  by_cases h1 : r = 12
  · subst h1; rfl
  rw [if_neg h1]
  by_cases h1 : r = 10
  · subst h1; rfl
  rw [if_neg h1]
  by_cases h1 : r = 13
  · subst h1; rfl
  rw [if_neg h1]
  by_cases h1 : r = 9
  · subst h1; rfl
  rw [if_neg h1]
  by_cases h1 : r = 11
  · subst h1; rfl
  rw [if_neg h1]
  have h16 : r < 0x110000 := by unfold Scalar at hr; omega
  by_cases h2 : r < 0x20 ∨ r = 0x7F
  · rw [if_pos h2]
    obtain ⟨ht, hd⟩ := take_hex 2 r (by omega) X
    simp only [List.cons_append, List.nil_append, unquoteChar, if_true, ht, hd]
    rw [utf8, if_pos (by omega)]
  rw [if_neg h2]
  by_cases h3 : r < 0x10000
  · rw [if_pos h3]
    obtain ⟨ht, hd⟩ := take_hex 4 r (by omega) X
    simp only [List.cons_append, List.nil_append, unquoteChar, if_true, ht, hd]
    simp
  · rw [if_neg h3]
    obtain ⟨ht, hd⟩ := take_hex 8 r (by omega) X
    simp only [List.cons_append, List.nil_append, unquoteChar, if_true, ht, hd]
    simp

theorem utf8_not_ascii {n : Nat} (h : ¬ n < 0x80) (hn : Scalar n) : ∀ c ∈ utf8 n, 0x80 ≤ c.toNat := by
  unfold Scalar at hn
  intro c hc
  unfold utf8 at hc
  rw [if_neg h] at hc
  by_cases h2 : n < 0x800
  · rw [if_pos h2] at hc; simp at hc; rcases hc with rfl | rfl <;> simp <;> omega
  · rw [if_neg h2] at hc
    by_cases h3 : n < 0x10000
    · rw [if_pos h3] at hc; simp at hc; rcases hc with rfl | rfl | rfl <;> simp <;> omega
    · rw [if_neg h3] at hc; simp at hc; rcases hc with rfl | rfl | rfl | rfl <;> simp <;> omega

/-- What is printable is not a control character. -/
def NoControl (pr : Nat → Bool) : Prop := ∀ r, r < 0x20 ∨ r = 0x7F → pr r = false

theorem shown_escaped {pr : Nat → Bool} (hpr : NoControl pr) {q : Byte} (hq : q = 0x22 ∨ q = 0x27) {r : Nat} (hr : Scalar r) :
    ∀ c ∈ escapedRune pr q r, Shown c := by
  intro c hc
  unfold escapedRune at hc
  by_cases h0 : r = q.toNat ∨ r = 0x5C
  · rw [if_pos h0] at hc
    rcases hq with rfl | rfl <;> rcases h0 with rfl | rfl <;> revert c <;> decide
  rw [if_neg h0] at hc
  by_cases hp : pr r = true
  · rw [if_pos hp, appendRune_scalar hr, List.nil_append] at hc
    have h1 : ¬ (r < 0x20 ∨ r = 0x7F) := fun h => by rw [hpr r h] at hp; cases hp
    by_cases h2 : r < 0x80
    · rw [utf8, if_pos h2] at hc
      simp at hc
      subst hc
      refine ⟨?_, fun h => ?_⟩
      · rw [UInt8.le_iff_toNat_le]; simp; omega
      · have := congrArg UInt8.toNat h; simp at this; omega
    · have := utf8_not_ascii h2 hr c hc
      refine ⟨?_, ?_⟩
      · rw [UInt8.le_iff_toNat_le]; simp; omega
      · rintro rfl; simp at this
  rw [if_neg hp] at hc
  by_cases h1 : r = 7
  · subst h1; revert c; decide
  rw [if_neg h1] at hc
  by_cases h1 : r = 8
  · subst h1; revert c; decide
  rw [if_neg h1] at hc
  by_cases h1 : r = 12
  · subst h1; revert c; decide
  rw [if_neg h1] at hc
  by_cases h1 : r = 10
  · subst h1; revert c; decide
  rw [if_neg h1] at hc
  by_cases h1 : r = 13
  · subst h1; revert c; decide
  rw [if_neg h1] at hc
  by_cases h1 : r = 9
  · subst h1; revert c; decide
  rw [if_neg h1] at hc
  by_cases h1 : r = 11
  · subst h1; revert c; decide
  rw [if_neg h1] at hc
  by_cases h2 : r < 0x20 ∨ r = 0x7F
  · rw [if_pos h2] at hc
    rcases List.mem_append.mp hc with hc | hc
    · simp only [List.mem_cons, List.not_mem_nil, or_false] at hc; rcases hc with rfl | rfl <;> decide
    · exact shown_hex _ _ c hc
  rw [if_neg h2] at hc
  by_cases h3 : r < 0x10000
  · rw [if_pos h3] at hc
    rcases List.mem_append.mp hc with hc | hc
    · simp only [List.mem_cons, List.not_mem_nil, or_false] at hc; rcases hc with rfl | rfl <;> decide
    · exact shown_hex _ _ c hc
  · rw [if_neg h3] at hc
    rcases List.mem_append.mp hc with hc | hc
    · simp only [List.mem_cons, List.not_mem_nil, or_false] at hc; rcases hc with rfl | rfl <;> decide
    · exact shown_hex _ _ c hc

/-- The code of a character does not begin with the quote. -/
theorem escaped_head {pr : Nat → Bool} {q : Byte} (hq : q = 0x22 ∨ q = 0x27) {r : Nat} (hr : Scalar r) :
    ∃ c s, escapedRune pr q r = c :: s ∧ c ≠ q := by
  have h5C : (0x5C : Byte) ≠ q := by rcases hq with rfl | rfl <;> decide
  unfold escapedRune
  by_cases h0 : r = q.toNat ∨ r = 0x5C
  · rw [if_pos h0]; exact ⟨_, _, rfl, h5C⟩
  rw [if_neg h0]
  by_cases hp : pr r = true
  · rw [if_pos hp, appendRune_scalar hr, List.nil_append]
    obtain ⟨c, s, h1, h2⟩ := utf8_head r hr
    refine ⟨c, s, h1, ?_⟩
    rintro rfl
    exact h0 (.inl (h2 (by rcases hq with rfl | rfl <;> decide)).symm)
  rw [if_neg hp]
  repeat' split
  all_goals exact ⟨_, _, rfl, h5C⟩

theorem byte_scalar (c : Byte) : Scalar c.toNat := by
  have := c.toNat_lt
  unfold Scalar
  omega

theorem utf8_inj {a b : Nat} (ha : Scalar a) (hb : Scalar b) (h : utf8 a = utf8 b) : a = b := by
  have h1 := decodeRune_utf8 ha []
  have h2 := decodeRune_utf8 hb []
  rw [h, h2] at h1
  simp only [Prod.mk.injEq] at h1
  exact h1.1.symm

/-- A quoted byte can be read back. -/
theorem fmtQByte_inj {pr : Nat → Bool} {a b : Byte} {X Y : List Byte} (h : fmtQByte pr a ++ X = fmtQByte pr b ++ Y) : a = b ∧ X = Y := by
  unfold fmtQByte at h
  simp only [List.cons_append, List.append_assoc, List.nil_append, List.cons.injEq, true_and] at h
  have h1 := congrArg unquoteChar h
  rw [unquoteChar_escaped (.inr rfl) (byte_scalar a), unquoteChar_escaped (.inr rfl) (byte_scalar b)] at h1
  simp at h1
  exact ⟨UInt8.toNat_inj.mp (utf8_inj (byte_scalar a) (byte_scalar b) h1.1), h1.2⟩

/-! ## Quoted strings -/

theorem quoteBody_step (pr : Nat → Bool) (n : Nat) {s : List Byte} (hs : s ≠ []) :
    ∃ code a rest, s = a ++ rest ∧ a ≠ [] ∧ quoteBody pr (n + 1) s = code ++ quoteBody pr n rest ∧
      (∀ X, unquoteChar (code ++ X) = (a, X)) ∧ (∃ c t, code = c :: t ∧ c ≠ 0x22) ∧
      (NoControl pr → ∀ c ∈ code, Shown c) := by
  have bad : ∀ (c : Byte) s, quoteBody pr (n + 1) (c :: s) = bs! "\\x" ++ hexDigits 2 c.toNat ++ quoteBody pr n s →
    ∃ code a rest, c :: s = a ++ rest ∧ a ≠ [] ∧ quoteBody pr (n + 1) (c :: s) = code ++ quoteBody pr n rest ∧
      (∀ X, unquoteChar (code ++ X) = (a, X)) ∧ (∃ c t, code = c :: t ∧ c ≠ 0x22) ∧ (NoControl pr → ∀ c ∈ code, Shown c) := by
    intro c s h
    refine ⟨bs! "\\x" ++ hexDigits 2 c.toNat, [c], s, rfl, by simp, h, ?_, ⟨_, _, rfl, by decide⟩, ?_⟩
    · intro X
      obtain ⟨ht, hd⟩ := take_hex 2 c.toNat c.toNat_lt X
      simp only [List.cons_append, List.nil_append, unquoteChar, if_true, ht, hd]
      simp
    · intro _ d hd
      rcases List.mem_append.mp hd with hd | hd
      · simp only [List.mem_cons, List.not_mem_nil, or_false] at hd; rcases hd with rfl | rfl <;> decide
      · exact shown_hex _ _ d hd
  have good : ∀ (r : Nat) t, Scalar r → s = utf8 r ++ t → quoteBody pr (n + 1) s = escapedRune pr (b! '"') r ++ quoteBody pr n t →
    ∃ code a rest, s = a ++ rest ∧ a ≠ [] ∧ quoteBody pr (n + 1) s = code ++ quoteBody pr n rest ∧
      (∀ X, unquoteChar (code ++ X) = (a, X)) ∧ (∃ c t, code = c :: t ∧ c ≠ 0x22) ∧ (NoControl pr → ∀ c ∈ code, Shown c) := by
    intro r t hr h1 h2
    refine ⟨_, utf8 r, t, h1, ?_, h2, fun X => unquoteChar_escaped (.inl rfl) hr X, escaped_head (.inl rfl) hr, fun hp => shown_escaped hp (.inl rfl) hr⟩
    intro h
    have := (utf8_length r).1
    rw [h] at this
    simp at this
  cases s with
  | nil => exact absurd rfl hs
  | cons c s =>
    by_cases hc : c < 0x80
    · have hlt : c.toNat < 0x80 := by rw [UInt8.lt_iff_toNat_lt] at hc; simpa using hc
      refine good c.toNat s (byte_scalar c) (by rw [utf8, if_pos hlt]; simp) ?_
      simp only [quoteBody]
      rw [if_pos hc]
      simp only [runeError]
      rw [if_neg (by omega)]
      rfl
    · have hd : quoteBody pr (n + 1) (c :: s) =
          if (decodeRune (c :: s)).2 = 1 ∧ (decodeRune (c :: s)).1 = runeError then
            bs! "\\x" ++ hexDigits 2 c.toNat ++ quoteBody pr n ((c :: s).drop (decodeRune (c :: s)).2)
          else escapedRune pr (b! '"') (decodeRune (c :: s)).1 ++ quoteBody pr n ((c :: s).drop (decodeRune (c :: s)).2) := by
        simp only [quoteBody]
        rw [if_neg hc]
      by_cases hb : (decodeRune (c :: s)).2 = 1 ∧ (decodeRune (c :: s)).1 = runeError
      · rw [if_pos hb, hb.1] at hd
        exact bad c s hd
      · rw [if_neg hb] at hd
        rcases decodeRune_cases (c :: s) (by simp) with h | ⟨r, t, hr, h1, h2⟩
        · exact absurd (by rw [h]; exact ⟨rfl, rfl⟩) hb
        · refine good r t hr h1 ?_
          rw [hd, h2]
          congr 2
          rw [h1]
          simp

theorem quoteBody_nil (pr : Nat → Bool) (n : Nat) : quoteBody pr n [] = [] := by cases n <;> rfl

/-- A quoted string can be read back. -/
theorem quoteBody_inj (pr : Nat → Bool) {n m : Nat} {s t X Y : List Byte} (hn : s.length ≤ n) (hm : t.length ≤ m)
    (h : quoteBody pr n s ++ 0x22 :: X = quoteBody pr m t ++ 0x22 :: Y) : s = t ∧ X = Y := by
  induction n generalizing s t m with
  | zero =>
    have : s = [] := by cases s <;> simp_all
    subst this
    cases t with
    | nil => rw [quoteBody_nil, quoteBody_nil] at h; simpa using h
    | cons d t =>
      cases m with
      | zero => simp at hm
      | succ m =>
        obtain ⟨code, a, rest, _, _, h2, _, ⟨c, u, rfl, hc⟩, _⟩ := quoteBody_step pr m (s := d :: t) (by simp)
        rw [quoteBody_nil, h2] at h
        simp at h
        exact absurd h.1.symm hc
  | succ n ih =>
    by_cases hs : s = []
    · subst hs
      exact ih (s := []) (t := t) (m := m) (by simp) hm (by rw [quoteBody_nil] at h ⊢; exact h)
    · obtain ⟨code, a, rest, h1, ha, h2, h3, ⟨c, u, hcu, hc⟩, _⟩ := quoteBody_step pr n hs
      cases t with
      | nil =>
        rw [quoteBody_nil, h2, hcu] at h
        simp at h
        exact absurd h.1 hc
      | cons d t =>
        cases m with
        | zero => simp at hm
        | succ m =>
          obtain ⟨code', a', rest', h1', ha', h2', h3', _, _⟩ := quoteBody_step pr m (s := d :: t) (by simp)
          rw [h2, h2', List.append_assoc, List.append_assoc] at h
          have h4 := congrArg unquoteChar h
          rw [h3, h3'] at h4
          simp only [Prod.mk.injEq] at h4
          obtain ⟨h5, h6⟩ := h4
          have hal : 1 ≤ a.length := by cases a; exact absurd rfl ha; simp
          have hal' : 1 ≤ a'.length := by cases a'; exact absurd rfl ha'; simp
          have e1 := congrArg List.length h1
          have e2 := congrArg List.length h1'
          simp at e1 e2 hm
          obtain ⟨h7, h8⟩ := ih (by omega) (by omega) h6
          exact ⟨by rw [h1, h1', h5, h7], h8⟩

theorem fmtQ_inj {pr : Nat → Bool} {s t X Y : List Byte} (h : fmtQ pr s ++ X = fmtQ pr t ++ Y) : s = t ∧ X = Y := by
  unfold fmtQ at h
  simp only [List.cons_append, List.append_assoc, List.nil_append, List.cons.injEq, true_and] at h
  exact quoteBody_inj pr (Nat.le_refl _) (Nat.le_refl _) h

theorem shown_quoteBody {pr : Nat → Bool} (hp : NoControl pr) (n : Nat) (s : List Byte) : ∀ c ∈ quoteBody pr n s, Shown c := by
  induction n generalizing s with
  | zero => simp [quoteBody]
  | succ n ih =>
    by_cases hs : s = []
    · subst hs; simp [quoteBody]
    · obtain ⟨code, a, rest, _, _, h2, _, _, h5⟩ := quoteBody_step pr n hs
      rw [h2]
      intro c hc
      rcases List.mem_append.mp hc with hc | hc
      · exact h5 hp c hc
      · exact ih _ c hc

theorem shown_fmtQ {pr : Nat → Bool} (hp : NoControl pr) (s : List Byte) : ∀ c ∈ fmtQ pr s, Shown c := by
  intro c hc
  simp only [fmtQ, List.cons_append, List.mem_cons, List.mem_append, List.mem_singleton] at hc
  rcases hc with rfl | hc | hc
  · decide
  · exact shown_quoteBody hp _ _ c hc
  · rcases hc with rfl | hc
    · decide
    · cases hc

theorem shown_fmtQByte {pr : Nat → Bool} (hp : NoControl pr) (b : Byte) : ∀ c ∈ fmtQByte pr b, Shown c := by
  intro c hc
  simp only [fmtQByte, List.cons_append, List.mem_cons, List.mem_append] at hc
  rcases hc with rfl | hc | hc
  · decide
  · exact shown_escaped hp (.inr rfl) (byte_scalar b) c hc
  · rcases hc with rfl | hc
    · decide
    · cases hc

theorem fmtX_inj : ∀ a b : Byte, fmtX a = fmtX b → a = b := by
  intro a b h
  have ha := a.toNat_lt
  have hb := b.toNat_lt
  unfold fmtX at h
  have key : ∀ {k n j m}, hexDigits k n = hexDigits j m → n < 16 ^ k → m < 16 ^ j → n = m := by
    intro k n j m h h1 h2
    have h3 := congrArg unhex h
    rwa [unhex_digits, unhex_digits, Nat.mod_eq_of_lt h1, Nat.mod_eq_of_lt h2] at h3
  apply UInt8.toNat_inj.mp
  split at h <;> split at h <;> exact key h (by omega) (by omega)

theorem shown_fmtX (b : Byte) : ∀ c ∈ fmtX b, Shown c := by
  unfold fmtX
  split <;> exact shown_hex _ _

theorem formatUint_eq (n : Nat) : formatUint n = decimal n := by
  induction n using Nat.strongRecOn with
  | ind n ih =>
    unfold formatUint decimal
    split
    · rfl
    · rw [ih _ (by omega)]

theorem overflowValue_some (z : Int) : overflowValue (some z) = decimalInt z := by
  simp only [overflowValue, decimalInt, formatUint_eq]

end Jzon
