import Verif.Proof.Grammar
import Verif.Proof.TypedBase

/-!
# Skipping that needs more input can be completed

`Stuck n p env l`: the program `p` reports the error `io n`, which is the one behind the bytes `l`.
-/

set_option linter.unusedSimpArgs false

namespace Jzon

open Spec

/-- The program has used up the bytes `l` and reports the error behind them. -/
def Stuck {α : Type} (n : Nat) (p : Prog α) (env : Env) (l : List Byte) : Prop := env.endErr = .io n ∧ p.runF env l = .error (.io n)

section
variable {n : Nat} {env : Env}

theorem stuck_bind {α β : Type} {p : Prog α} {k : α → Prog β} {l : List Byte} (h : Stuck n (p >>= k) env l) :
    Stuck n p env l ∨ ∃ a l', Runs p env l a l' ∧ Stuck n (k a) env l' := by
  obtain ⟨he, h⟩ := h
  rw [runF_bind] at h
  cases hp : p.runF env l with
  | error e => rw [hp] at h; exact .inl ⟨he, by rw [hp]; simpa using h⟩
  | ok x => rw [hp] at h; exact .inr ⟨x.1, x.2, hp, he, h⟩

theorem stuck_pure {α : Type} {a : α} {l : List Byte} (h : Stuck n (pure a : Prog α) env l) : False := by cases h.2

theorem stuck_throw {α : Type} {e : Err} {l : List Byte} (h : Stuck n (Prog.throw e : Prog α) env l) : e = .io n := by
  have := h.2
  simp only [Prog.throw, runF_fail, Except.error.injEq] at this
  exact this

theorem stuck_ofExcept {α : Type} {a : α} {l : List Byte} (h : Stuck n (Prog.ofExcept (.ok a) : Prog α) env l) : False := by cases h.2

theorem stuck_remaining {l : List Byte} (h : Stuck n remaining env l) : False := by
  have := h.2
  unfold remaining at this
  rw [runF_op, Op.runF] at this
  cases this

theorem dec_stuck {d : Byte → Dec} (hd : ∀ c e, d c = .fail e → ∀ n, e ≠ .io n) {c : Byte} {l : List Byte}
    (h : (d c).runF c l = .error (.io n)) : False := by
  cases hc : d c with
  | take => rw [hc] at h; cases h
  | leave => rw [hc] at h; cases h
  | fail e =>
    rw [hc] at h
    simp only [Dec.runF, Except.error.injEq] at h
    exact hd c e hc n h

theorem stuck_token {d : Byte → Dec} (hd : ∀ c e, d c = .fail e → ∀ n, e ≠ .io n) {l : List Byte} (h : Stuck n (token d) env l) : Ws l := by
  have := h.2
  unfold token at this
  rw [runF_op, Op.runF] at this
  cases hl : dropWs l with
  | nil => exact dropWs_eq_nil.mp hl
  | cons c l' =>
    rw [hl] at this
    exact (dec_stuck hd this).elim

theorem stuck_nextToken {l : List Byte} (h : Stuck n nextTokenTake env l) : Ws l := stuck_token (by intro c e h; cases h) h

theorem stuck_byte {d : Byte → Dec} (hd : ∀ c e, d c = .fail e → ∀ n, e ≠ .io n) {l : List Byte} (h : Stuck n (byte d) env l) : l = [] := by
  have := h.2
  unfold byte at this
  rw [runF_op] at this
  cases l with
  | nil => rfl
  | cons c l' => exact (dec_stuck hd this).elim

theorem stuck_nextByte {l : List Byte} (h : Stuck n nextByteTake env l) : l = [] := stuck_byte (by intro c e h; cases h) h

theorem stuck_scan {σ β : Type} {body : σ → Byte → Act σ β} (hb : ∀ s c e, body s c = .err e → ∀ n, e ≠ .io n) {onEOF : σ → Except Err β} {s : σ}
    {l : List Byte} (h : Stuck n (scan body onEOF s) env l) : ∃ s', Conts body s l s' := by
  obtain ⟨he, h⟩ := h
  unfold scan at h
  rw [runF_op, Op.runF, he] at h
  induction l generalizing s with
  | nil => exact ⟨s, rfl⟩
  | cons c l ih =>
    rw [scanF] at h
    cases hc : body s c with
    | cont s1 =>
      rw [hc] at h
      obtain ⟨s', h'⟩ := ih h
      exact ⟨s', s1, hc, h'⟩
    | stop b => rw [hc] at h; cases h
    | stopNext b => rw [hc] at h; cases h
    | err e =>
      rw [hc] at h
      simp only [Except.error.injEq] at h
      exact (hb s c e hc n h).elim

/-! ## Strings -/

theorem digit_zero : Digit 0x30 := by decide

theorem digits_zero : Digits [0x30] := ⟨by simp, by simp [digit_zero]⟩

theorem txt_cons (a : Chr) (b : List Chr) : txt (a :: b) = a.text ++ txt b := by simp [txt]

theorem hex_zero : (hexDigit 0x30).isSome = true := by decide

theorem stuck_skipU4 {l : List Byte} (h : Stuck n skipU4 env l) : ∃ q a b c d, (Chr.uni a b c d).Ok ∧ l ++ q = [a, b, c, d] := by
  have h := stuck_scan (by
    intro s c e h
    unfold skipU4Body at h
    split at h
    · cases h; simp
    · split at h <;> cases h) h
  obtain ⟨s', h⟩ := h
  have hx : ∀ {s s' : Nat} {c : Byte}, skipU4Body s c = .cont s' → s ≠ 1 ∧ s' = s - 1 ∧ (hexDigit c).isSome = true := by
    intro s s' c h
    unfold skipU4Body at h
    rw [hexValue_eq] at h
    split at h
    · cases h
    · split at h
      · cases h
      · cases h
        refine ⟨by assumption, rfl, ?_⟩
        rename_i h1 _
        cases hh : hexDigit c with
        | none => exact absurd hh h1
        | some v => rfl
  rcases l with _ | ⟨a, _ | ⟨b, _ | ⟨c, _ | ⟨d, l⟩⟩⟩⟩
  · exact ⟨[0x30, 0x30, 0x30, 0x30], _, _, _, _, ⟨hex_zero, hex_zero, hex_zero, hex_zero⟩, rfl⟩
  · obtain ⟨_, h1, _⟩ := h
    exact ⟨[0x30, 0x30, 0x30], _, _, _, _, ⟨(hx h1).2.2, hex_zero, hex_zero, hex_zero⟩, rfl⟩
  · obtain ⟨_, h1, _, h2, _⟩ := h
    exact ⟨[0x30, 0x30], _, _, _, _, ⟨(hx h1).2.2, (hx h2).2.2, hex_zero, hex_zero⟩, rfl⟩
  · obtain ⟨_, h1, _, h2, _, h3, _⟩ := h
    exact ⟨[0x30], _, _, _, _, ⟨(hx h1).2.2, (hx h2).2.2, (hx h3).2.2, hex_zero⟩, rfl⟩
  · obtain ⟨_, h1, _, h2, _, h3, _, h4, _⟩ := h
    have e1 := (hx h1).2.1
    have e2 := (hx h2).2.1
    have e3 := (hx h3).2.1
    exact absurd (by omega) (hx h4).1

theorem stuck_skipEscapedChar {l : List Byte} (h : Stuck n skipEscapedChar env l) : ∃ q x, Chr.Ok x ∧ 0x5C :: (l ++ q) = x.text := by
  unfold skipEscapedChar at h
  replace h := stuck_bind h
  rcases h with h | ⟨c, l1, h1, h⟩
  · have := stuck_byte (by
      intro c e h
      split at h
      · cases h
      · split at h
        · cases h; simp
        · cases h) h
    subst this
    exact ⟨[0x6E], .esc 0x6E, by simp [Chr.Ok, shortEscape], rfl⟩
  · split at h
    · exact (stuck_pure h).elim
    · rename_i hn
      replace h1 := runs_byte.mp h1
      obtain ⟨l2, rfl, h1⟩ := h1
      simp only [hn, if_false] at h1
      by_cases hu : c = 0x75
      · subst hu
        simp at h1
        subst h1
        obtain ⟨q, a, b, c, d, ho, hq⟩ := stuck_skipU4 h
        exact ⟨q, .uni a b c d, ho, by simp [Chr.text, hq]⟩
      · simp [hu] at h1

theorem stuck_skipStringLoop {k : Nat} {l : List Byte} (h : Stuck n (skipStringLoop k) env l) :
    ∃ q cs, AllOk cs ∧ l ++ q = txt cs ++ [0x22] := by
  induction k generalizing l with
  | zero => cases stuck_throw h
  | succ k ih =>
    unfold skipStringLoop at h
    replace h := stuck_bind h
    rcases h with h | ⟨st, l1, h1, h⟩
    · obtain ⟨_, h⟩ := stuck_scan (by
        intro s c e h
        unfold skipStrBody at h
        split at h
        · cases h
        · split at h
          · cases h
          · split at h
            · cases h; simp
            · cases h) h
      exact ⟨[0x22], l.map .raw, allOk_raws (conts_skipStr.mp h), by rw [txt_raws]⟩
    · obtain ⟨raws, hr, ⟨rfl, rfl⟩ | ⟨rfl, rfl⟩⟩ := scan_skipStr.mp h1
      · exact (stuck_pure h).elim
      · replace h := stuck_bind h
        rcases h with h | ⟨_, l2, h2, h⟩
        · obtain ⟨q, x, hx, hq⟩ := stuck_skipEscapedChar h
          refine ⟨q ++ [0x22], raws.map .raw ++ [x], allOk_append (allOk_raws hr) (by simpa [AllOk] using hx), ?_⟩
          rw [txt_append, txt_raws, txt_cons, ← hq]
          simp [txt]
        · obtain ⟨q, cs, hcs, hq⟩ := ih h
          rcases runs_skipEscapedChar.mp h2 with ⟨c, hc, rfl⟩ | ⟨a, b, c, d, hc, rfl⟩
          · refine ⟨q, raws.map .raw ++ .esc c :: cs, allOk_append (allOk_raws hr) (allOk_cons hc hcs), ?_⟩
            rw [txt_append, txt_raws, txt_cons]
            simp [Chr.text, hq]
          · refine ⟨q, raws.map .raw ++ .uni a b c d :: cs, allOk_append (allOk_raws hr) (allOk_cons hc hcs), ?_⟩
            rw [txt_append, txt_raws, txt_cons]
            simp [Chr.text, hq]

theorem stuck_skipString {l : List Byte} (h : Stuck n skipString env l) : ∃ q b s, StrBody b s ∧ l ++ q = b ++ [0x22] := by
  unfold skipString at h
  replace h := stuck_bind h
  rcases h with h | ⟨_, _, h1, h⟩
  · exact (stuck_remaining h).elim
  · obtain ⟨rfl, rfl⟩ := runs_remaining.mp h1
    obtain ⟨q, cs, hcs, hq⟩ := stuck_skipStringLoop h
    exact ⟨q, txt cs, _, ⟨cs, hcs, rfl, rfl⟩, hq⟩

/-! ## Literals -/

theorem stuck_expectBytes {s : List Byte} {l : List Byte} (h : Stuck n (expectBytes s) env l) : ∃ q, l ++ q = s := by
  replace h := stuck_scan (by
    intro s c e h
    unfold expectBody at h
    split at h
    · cases h; simp
    · split at h
      · cases h; simp
      · split at h <;> cases h) h
  obtain ⟨s', h⟩ := h
  induction l generalizing s with
  | nil => exact ⟨s, rfl⟩
  | cons c l ih =>
    obtain ⟨s1, h1, h2⟩ := h
    cases s with
    | nil => cases h1
    | cons e s =>
      simp only [expectBody] at h1
      split at h1
      · cases h1
      · rename_i hc
        split at h1
        · cases h1
        · cases h1
          obtain ⟨q, hq⟩ := ih h2
          exact ⟨q, by simp [hq, Classical.not_not.mp hc]⟩

/-! ## Numbers -/

theorem stuck_exponentDigits {c : Byte} {l : List Byte} (h : Stuck n (skipExponentDigits c) env l) : Digits (c :: l) := by
  unfold skipExponentDigits at h
  split at h
  · cases stuck_throw h
  · rename_i hc
    obtain ⟨_, h⟩ := stuck_scan (by
      intro s c e h
      unfold expBody at h
      split at h <;> cases h) h
    refine ⟨by simp, fun x hx => ?_⟩
    rcases List.mem_cons.mp hx with rfl | hx
    · exact Classical.byContradiction fun hn => hc (intDigit_none.mpr hn)
    · exact conts_exp.mp h x hx

theorem stuck_exponent {l : List Byte} (h : Stuck n skipExponentPart env l) :
    ∃ q sign ds, (sign = [] ∨ sign = [0x2B] ∨ sign = [0x2D]) ∧ Digits ds ∧ l ++ q = sign ++ ds := by
  unfold skipExponentPart at h
  replace h := stuck_bind h
  rcases h with h | ⟨c, l1, h1, h⟩
  · cases stuck_nextByte h
    exact ⟨[0x30], [], [0x30], .inl rfl, digits_zero, rfl⟩
  · rw [runs_nextByteTake] at h1
    subst h1
    split at h
    · rename_i hc
      have hc' : [c] = [0x2B] ∨ [c] = [0x2D] := by simpa using hc
      replace h := stuck_bind h
      rcases h with h | ⟨c2, l2, h2, h⟩
      · cases stuck_nextByte h
        exact ⟨[0x30], [c], [0x30], .inr hc', digits_zero, rfl⟩
      · rw [runs_nextByteTake] at h2
        subst h2
        exact ⟨[], [c], c2 :: l2, .inr hc', stuck_exponentDigits h, by simp⟩
    · exact ⟨[], [], c :: l1, .inl rfl, stuck_exponentDigits h, by simp⟩

theorem stuck_fraction {l : List Byte} (h : Stuck n skipFractionPart env l) : ∃ q ds e, Digits ds ∧ ExpPart e ∧ l ++ q = ds ++ e := by
  unfold skipFractionPart at h
  replace h := stuck_bind h
  rcases h with h | ⟨c, l1, h1, h⟩
  · cases stuck_byte (by intro c e h; split at h <;> cases h; simp) h
    exact ⟨[0x30], [0x30], [], digits_zero, .none, rfl⟩
  · replace h1 := runs_byte.mp h1
    obtain ⟨l2, rfl, h1⟩ := h1
    by_cases hd : Digit c
    · simp [intDigit_digit hd] at h1
      subst h1
      have hD : ∀ {ds : List Byte}, (∀ c ∈ ds, Digit c) → Digits (c :: ds) := fun h => ⟨by simp, by
        intro x hx; rcases List.mem_cons.mp hx with rfl | hx
        · exact hd
        · exact h x hx⟩
      replace h := stuck_bind h
      rcases h with h | ⟨st, l3, h3, h⟩
      · obtain ⟨_, h⟩ := stuck_scan (by
          intro s c e h
          unfold fracBody at h
          split at h <;> cases h) h
        exact ⟨[], c :: l1, [], hD (conts_frac.mp h), .none, by simp⟩
      · replace h3 := scan_frac.mp h3
        obtain ⟨ds, hds, ⟨rfl, rfl, _⟩ | ⟨rfl, c', hc', rfl⟩⟩ := h3
        · exact (stuck_pure h).elim
        · obtain ⟨q, sign, ds', hs, hd', hq⟩ := stuck_exponent h
          exact ⟨q, c :: ds, _, hD hds, .some c' sign ds' hc' hs hd', by simp [hq]⟩
    · simp [intDigit_none.mpr hd] at h1

theorem stuck_unsigned {c : Byte} (hc : Digit c) {l : List Byte} (h : Stuck n (skipUnsigned c) env l) : ∃ q, Unsigned (c :: (l ++ q)) := by
  unfold skipUnsigned at h
  by_cases h0 : c = 0x30
  · subst h0
    rw [if_pos rfl] at h
    replace h := stuck_bind h
    rcases h with h | ⟨o, l1, h1, h⟩
    · have : l = [] := by
        have := h.2
        unfold byteEOF scan at this
        rw [runF_op, Op.runF] at this
        cases l with
        | nil => rfl
        | cons x l =>
          rw [scanF] at this
          split at this <;> rename_i hx <;> split at hx <;> cases hx <;> cases this
      subst this
      exact ⟨[], [0x30], [], [], rfl, .zero, .none, .none⟩
    · replace h1 := runs_byteEOF.mp h1
      rcases h1 with ⟨rfl, _⟩ | ⟨x, t, rfl, rfl, h1⟩
      · exact (stuck_pure h).elim
      · rcases floatDigit_cases x with ⟨h3, m, h4⟩ | ⟨rfl, h4⟩ | ⟨h3, h4⟩ | ⟨h3, h5, h6, h7, h4⟩ <;>
          simp only [h4, decide_false, decide_true, reduceCtorEq, or_false, or_true, false_and, true_and, false_or,
            Bool.true_eq_false, Bool.false_eq_true] at h h1 <;> subst h1
        · exact (stuck_pure h).elim
        · obtain ⟨q, ds, e, hd, hE, hq⟩ := stuck_fraction h
          exact ⟨q, [0x30], 0x2E :: ds, e, by simp [hq], .zero, .some ds hd, hE⟩
        · obtain ⟨q, sign, ds, hs, hd, hq⟩ := stuck_exponent h
          exact ⟨q, [0x30], [], _, by simp [hq], .zero, .none, .some x sign ds h3 hs hd⟩
        · exact (stuck_pure h).elim
  · rw [if_neg h0] at h
    have hp := pos_of_digit hc h0
    replace h := stuck_bind h
    rcases h with h | ⟨st, l1, h1, h⟩
    · obtain ⟨_, h⟩ := stuck_scan (by
        intro s c e h
        unfold intBody at h
        split at h <;> cases h) h
      exact ⟨[], c :: l, [], [], by simp, .pos c l hp (conts_int.mp h), .none, .none⟩
    · replace h1 := scan_int.mp h1
      obtain ⟨ds, hds, ⟨rfl, rfl, _⟩ | ⟨rfl, rfl⟩ | ⟨rfl, c', hc', rfl⟩⟩ := h1
      · exact (stuck_pure h).elim
      · obtain ⟨q, ds', e, hd, hE, hq⟩ := stuck_fraction h
        exact ⟨q, c :: ds, 0x2E :: ds', e, by simp [hq], .pos c ds hp hds, .some ds' hd, hE⟩
      · obtain ⟨q, sign, ds', hs, hd, hq⟩ := stuck_exponent h
        exact ⟨q, c :: ds, [], _, by simp [hq], .pos c ds hp hds, .none, .some c' sign ds' hc' hs hd⟩

theorem stuck_skipNumber {c : Byte} (hc : isNumberStart c = true) {l : List Byte} (h : Stuck n (skipNumber c) env l) :
    ∃ q, Number (c :: (l ++ q)) := by
  unfold skipNumber at h
  split at h
  · rename_i hm; subst hm
    replace h := stuck_bind h
    rcases h with h | ⟨c, l1, h1, h⟩
    · cases stuck_byte (by intro c e h; split at h <;> cases h; simp) h
      exact ⟨[0x30], .inr ⟨[0x30], rfl, [0x30], [], [], rfl, .zero, .none, .none⟩⟩
    · replace h1 := runs_byte.mp h1
      obtain ⟨l2, rfl, h1⟩ := h1
      by_cases hd : Digit c
      · simp [intDigit_digit hd] at h1
        subst h1
        obtain ⟨q, hq⟩ := stuck_unsigned hd h
        exact ⟨q, .inr ⟨_, rfl, by simpa using hq⟩⟩
      · simp [intDigit_none.mpr hd] at h1
  · rename_i hm
    have hd : Digit c := by simpa [isNumberStart, hm, Digit] using hc
    obtain ⟨q, hq⟩ := stuck_unsigned hd h
    exact ⟨q, .inl hq⟩

/-! ## Scalars -/

theorem stuck_scalar {c : Byte} {l : List Byte} (h : Stuck n (skipScalar c) env l) : ∃ q v, Value (c :: (l ++ q)) v := by
  unfold skipScalar at h
  split at h
  · rename_i hc; subst hc
    obtain ⟨q, b, s, hb, hq⟩ := stuck_skipString h
    exact ⟨q, .str s, .str _ _ ⟨b, hb, by rw [hq]⟩⟩
  · split at h
    · rename_i hc; subst hc
      obtain ⟨q, hq⟩ := stuck_expectBytes h
      exact ⟨q, .null, by rw [hq]; exact .null⟩
    · split at h
      · rename_i hc; subst hc
        obtain ⟨q, hq⟩ := stuck_expectBytes h
        exact ⟨q, .bool true, by rw [hq]; exact .true⟩
      · split at h
        · rename_i hc; subst hc
          obtain ⟨q, hq⟩ := stuck_expectBytes h
          exact ⟨q, .bool false, by rw [hq]; exact .false⟩
        · split at h
          · rename_i hc
            obtain ⟨q, hq⟩ := stuck_skipNumber hc h
            exact ⟨q, .num _, .num _ hq⟩
          · cases stuck_throw h

theorem ends_delim {t : List Byte} {v : JVal} (hv : Value t v) {x : Byte} (hx : Delim x ∨ isWs x = true) (r : List Byte) :
    Ends env t v (x :: r) := by
  cases hv with
  | num _ h => exact ⟨final_of_notNext h (notNext_cons.mpr (delim_notNum hx)), endOk_cons⟩
  | _ => trivial

/-- A value that was cut off can be completed. -/
theorem stuck_scalar_val {c : Byte} {l : List Byte} (h : Stuck n (skipScalar c) env l) :
    ∃ q, ∀ (x : Byte) (r : List Byte), (Delim x ∨ isWs x = true) → SVal env c (l ++ (q ++ x :: r)) (x :: r) := by
  obtain ⟨q, v, hv⟩ := stuck_scalar h
  exact ⟨q, fun x r hx => sval_iff.mpr ⟨_, v, by simp, hv, ends_delim hv hx r⟩⟩

/-! ## What was read before the end stays what it is -/

theorem dropWs_more {l : List Byte} {c : Byte} {r : List Byte} (h : dropWs l = c :: r) (x : List Byte) :
    dropWs (l ++ x) = c :: (r ++ x) := by
  obtain ⟨w, hw, hc, rfl⟩ := dropWs_eq_cons.mp h
  exact dropWs_eq_cons.mpr ⟨w, hw, hc, by simp⟩

theorem field_more {l k r : List Byte} (h : Runs readObjectField env l k r) (x : List Byte) :
    Runs readObjectField env (l ++ x) k (r ++ x) := by
  obtain ⟨b, w, hb, hw, rfl⟩ := readField_iff.mp h
  exact readField_iff.mpr ⟨b, w, hb, hw, by simp⟩

theorem sval_more (he : env.endErr = .io n) {c : Byte} {l r : List Byte} (h : SVal env c l r) (x : List Byte) :
    SVal env c (l ++ x) (r ++ x) := by
  obtain ⟨t, v, h1, hv, h2⟩ := sval_iff.mp h
  refine sval_iff.mpr ⟨t, v, by rw [← List.cons_append, h1]; simp, hv, ?_⟩
  cases hv with
  | num _ _ =>
    obtain ⟨hf, ho⟩ := h2
    cases r with
    | nil =>
      have := ho rfl
      rw [he] at this
      cases this
    | cons c' r =>
      refine ⟨fun c'' r' hr => ?_, endOk_cons⟩
      simp only [List.cons_append, List.cons.injEq] at hr
      exact hf c'' r (by rw [hr.1])
  | _ => trivial

/-! ## Closing what is open -/

/-- The brackets that close open containers. -/
def closers : List Bool → List Byte
  | [] => []
  | true :: bs => 0x5D :: closers bs
  | false :: bs => 0x7D :: closers bs

theorem sarr_close {b : Bool} {w : List Byte} (hw : Ws w) (r : List Byte) : SArr env b (w ++ 0x5D :: r) r :=
  ⟨[], .close (dropWs_ws hw rfl r)⟩

theorem sobj_close {b : Bool} {w : List Byte} (hw : Ws w) (r : List Byte) : SObj env b (w ++ 0x7D :: r) r :=
  ⟨[], .oclose (dropWs_ws hw rfl r)⟩

theorem finS_closers (bits : List Bool) (r : List Byte) : FinS env bits (closers bits ++ r) r := by
  induction bits with
  | nil => rfl
  | cons b bits ih =>
    cases b with
    | true => exact ⟨_, sarr_close ws_nil _, ih⟩
    | false => exact ⟨_, sobj_close ws_nil _, ih⟩

theorem sval_zero {x : Byte} (hx : Delim x ∨ isWs x = true) (r : List Byte) : SVal env 0x30 (x :: r) (x :: r) := by
  have hv : Value [0x30] (.num [0x30]) := .num _ (.inl ⟨[0x30], [], [], rfl, .zero, .none, .none⟩)
  exact sval_iff.mpr ⟨_, _, rfl, hv, ends_delim hv hx r⟩

theorem delim_arr : Delim 0x5D := .inr (.inl rfl)
theorem delim_obj : Delim 0x7D := .inr (.inr (.inl rfl))

theorem stuck_field {l : List Byte} (h : Stuck n skipObjectField env l) :
    ∃ q k, ∀ r, Runs readObjectField env (l ++ (q ++ r)) k r := by
  unfold skipObjectField at h
  replace h := stuck_bind h
  rcases h with h | ⟨_, l1, h1, h⟩
  · obtain ⟨q, b, s, hb, hq⟩ := stuck_skipString h
    refine ⟨q ++ [0x3A], s, fun r => readField_iff.mpr ⟨b, [], hb, ws_nil, ?_⟩⟩
    rw [List.append_assoc, ← List.append_assoc, hq]
    simp
  · replace h := stuck_bind h
    obtain ⟨b, s, hb, rfl⟩ := runs_skipString'.mp h1
    rcases h with h | ⟨_, l2, h2, h⟩
    · have hw := stuck_token (by intro c e h; split at h <;> cases h; simp) h
      exact ⟨[0x3A], s, fun r => readField_iff.mpr ⟨b, l1, hb, hw, by simp⟩⟩
    · exact (stuck_pure h).elim

/-! ## Containers -/

structure StuckOk (n : Nat) (env : Env) (k : Nat) : Prop where
  arr : ∀ (top : StackElem) (b : Bool) (s : Stack) (bits : List Bool) (l : List Byte),
    (top = if b then .arrayBegin else .array) → s.Abs bits → Stuck n (skipWithStack k top s) env l →
    ∃ q, ∀ r, ∃ l1, SArr env b (l ++ (q ++ r)) l1 ∧ FinS env bits l1 r
  obj : ∀ (top : StackElem) (b : Bool) (s : Stack) (bits : List Bool) (l : List Byte),
    (top = if b then .objectBegin else .object) → s.Abs bits → Stuck n (skipWithStack k top s) env l →
    ∃ q, ∀ r, ∃ l1, SObj env b (l ++ (q ++ r)) l1 ∧ FinS env bits l1 r

theorem stuck_element {k : Nat} (ih : StuckOk n env k) {s : Stack} {bits : List Bool} {c : Byte} {l : List Byte}
    (hs : s.Abs bits) (h : Stuck n (skipElement (skipWithStack k) s c) env l) :
    ∃ q, ∀ r, ∃ l1 l2, SVal env c (l ++ (q ++ r)) l1 ∧ SArr env false l1 l2 ∧ FinS env bits l2 r := by
  obtain ⟨s', hp, ha⟩ := pushArray_abs hs
  unfold skipElement at h
  rw [hp] at h
  split at h
  · rename_i hc; subst hc
    replace h := stuck_bind h
    rcases h with h | ⟨_, _, h1, h⟩
    · exact (stuck_ofExcept h).elim
    · obtain ⟨e, rfl⟩ := runs_ofExcept.mp h1
      cases e
      obtain ⟨q, hq⟩ := ih.arr _ true _ _ _ rfl ha h
      refine ⟨q, fun r => ?_⟩
      obtain ⟨l1, h1, l2, h2, h3⟩ := hq r
      exact ⟨l1, l2, sval_arr.mpr h1, h2, h3⟩
  · split at h
    · rename_i hc; subst hc
      replace h := stuck_bind h
      rcases h with h | ⟨_, _, h1, h⟩
      · exact (stuck_ofExcept h).elim
      · obtain ⟨e, rfl⟩ := runs_ofExcept.mp h1
        cases e
        obtain ⟨q, hq⟩ := ih.obj _ true _ _ _ rfl ha h
        refine ⟨q, fun r => ?_⟩
        obtain ⟨l1, h1, l2, h2, h3⟩ := hq r
        exact ⟨l1, l2, sval_obj.mpr h1, h2, h3⟩
    · rename_i hc1 hc2
      have he := h.1
      replace h := stuck_bind h
      rcases h with h | ⟨_, l1, h1, h⟩
      · obtain ⟨q, hq⟩ := stuck_scalar_val h
        exact ⟨q ++ 0x5D :: closers bits, fun r => ⟨_, _, by simpa using hq 0x5D (closers bits ++ r) (.inl delim_arr),
          sarr_close ws_nil _, finS_closers _ _⟩⟩
      · obtain ⟨q, hq⟩ := ih.arr _ false _ _ _ rfl hs h
        refine ⟨q, fun r => ?_⟩
        obtain ⟨l2, h2, h3⟩ := hq r
        exact ⟨_, l2, sval_more he ((sval_scalar hc1 hc2).mpr h1) _, h2, h3⟩

theorem stuck_member {k : Nat} (ih : StuckOk n env k) {s : Stack} {bits : List Bool} {l : List Byte}
    (hs : s.Abs bits) (h : Stuck n (skipMember (skipWithStack k) s) env l) :
    ∃ q, ∀ r, ∃ key l0 c l1 l2 l3, Runs readObjectField env (l ++ (q ++ r)) key l0 ∧ dropWs l0 = c :: l1 ∧ SVal env c l1 l2 ∧
      SObj env false l2 l3 ∧ FinS env bits l3 r := by
  obtain ⟨s', hp, ha⟩ := pushObject_abs hs
  unfold skipMember at h
  rw [hp] at h
  have he := h.1
  replace h := stuck_bind h
  rcases h with h | ⟨_, l0, h0, h⟩
  · obtain ⟨q, key, hq⟩ := stuck_field h
    refine ⟨q ++ 0x30 :: 0x7D :: closers bits, fun r => ⟨key, _, 0x30, _, _, _, by simpa using hq _, rfl, sval_zero (.inl delim_obj) _,
      sobj_close ws_nil _, finS_closers _ _⟩⟩
  · obtain ⟨key, h0⟩ := skipObjectField_iff.mp h0
    replace h := stuck_bind h
    rcases h with h | ⟨c, l1, h1, h⟩
    · have hw := stuck_nextToken h
      exact ⟨0x30 :: 0x7D :: closers bits, fun r => ⟨key, _, 0x30, _, _, _, field_more h0 _, dropWs_ws hw rfl _, sval_zero (.inl delim_obj) _,
        sobj_close ws_nil _, finS_closers _ _⟩⟩
    · rw [runs_nextToken] at h1
      split at h
      · rename_i hc; subst hc
        replace h := stuck_bind h
        rcases h with h | ⟨_, _, h2, h⟩
        · exact (stuck_ofExcept h).elim
        · obtain ⟨e, rfl⟩ := runs_ofExcept.mp h2
          cases e
          obtain ⟨q, hq⟩ := ih.arr _ true _ _ _ rfl ha h
          refine ⟨q, fun r => ?_⟩
          obtain ⟨l2, h2, l3, h3, h4⟩ := hq r
          exact ⟨key, _, _, _, l2, l3, field_more h0 _, dropWs_more h1 _, sval_arr.mpr h2, h3, h4⟩
      · split at h
        · rename_i hc; subst hc
          replace h := stuck_bind h
          rcases h with h | ⟨_, _, h2, h⟩
          · exact (stuck_ofExcept h).elim
          · obtain ⟨e, rfl⟩ := runs_ofExcept.mp h2
            cases e
            obtain ⟨q, hq⟩ := ih.obj _ true _ _ _ rfl ha h
            refine ⟨q, fun r => ?_⟩
            obtain ⟨l2, h2, l3, h3, h4⟩ := hq r
            exact ⟨key, _, _, _, l2, l3, field_more h0 _, dropWs_more h1 _, sval_obj.mpr h2, h3, h4⟩
        · rename_i hc1 hc2
          replace h := stuck_bind h
          rcases h with h | ⟨_, l2, h2, h⟩
          · obtain ⟨q, hq⟩ := stuck_scalar_val h
            exact ⟨q ++ 0x7D :: closers bits, fun r => ⟨key, _, _, _, _, _, field_more h0 _, dropWs_more h1 _,
              by simpa using hq 0x7D (closers bits ++ r) (.inl delim_obj), sobj_close ws_nil _, finS_closers _ _⟩⟩
          · obtain ⟨q, hq⟩ := ih.obj _ false _ _ _ rfl hs h
            refine ⟨q, fun r => ?_⟩
            obtain ⟨l3, h3, h4⟩ := hq r
            exact ⟨key, _, _, _, _, l3, field_more h0 _, dropWs_more h1 _, sval_more he ((sval_scalar hc1 hc2).mpr h2) _, h3, h4⟩

theorem stuck_close {k : Nat} (ih : StuckOk n env k) {s : Stack} {bits : List Bool} {l : List Byte} (hs : s.Abs bits)
    (h : Stuck n (do
      let (top, s) ← Prog.ofExcept s.pop
      if top = .none then pure () else skipWithStack k top s) env l) : ∃ q, ∀ r, FinS env bits (l ++ (q ++ r)) r := by
  cases bits with
  | nil =>
    rw [pop_nil hs] at h
    replace h := stuck_bind h
    rcases h with h | ⟨_, _, h1, h⟩
    · exact (stuck_ofExcept h).elim
    · obtain ⟨e, rfl⟩ := runs_ofExcept.mp h1
      cases e
      exact (stuck_pure h).elim
  | cons b bits =>
    obtain ⟨s', hp, ha⟩ := pop_cons hs
    rw [hp] at h
    replace h := stuck_bind h
    rcases h with h | ⟨_, _, h1, h⟩
    · exact (stuck_ofExcept h).elim
    · obtain ⟨e, rfl⟩ := runs_ofExcept.mp h1
      cases e
      cases b with
      | true => exact ih.arr .array false _ _ _ rfl ha (by simpa [elemOf] using h)
      | false => exact ih.obj .object false _ _ _ rfl ha (by simpa [elemOf] using h)

theorem stuckOk (n : Nat) (env : Env) (k : Nat) : StuckOk n env k := by
  induction k with
  | zero => exact ⟨fun _ _ _ _ _ _ _ h => (by cases stuck_throw h), fun _ _ _ _ _ _ _ h => (by cases stuck_throw h)⟩
  | succ k ih =>
    constructor
    · intro top b s bits l htop hs h
      have hobj : top.isObject = false := by cases b <;> simp [htop, StackElem.isObject]
      unfold skipWithStack at h
      simp only [hobj, Bool.false_eq_true, if_false] at h
      replace h := stuck_bind h
      rcases h with h | ⟨c, l1, hc, h⟩
      · exact ⟨0x5D :: closers bits, fun r => ⟨_, sarr_close (stuck_nextToken h) _, finS_closers _ _⟩⟩
      · rw [runs_nextToken] at hc
        split at h
        · rename_i h1; subst h1
          obtain ⟨q, hq⟩ := stuck_close ih hs h
          exact ⟨q, fun r => ⟨_, ⟨[], .close (dropWs_more hc _)⟩, hq r⟩⟩
        · cases b
          · simp only [Bool.false_eq_true, if_false] at htop
            rw [if_pos htop] at h
            split at h
            · cases stuck_throw h
            · rename_i h2
              have h2 := Classical.not_not.mp h2; subst h2
              replace h := stuck_bind h
              rcases h with h | ⟨c, l2, hc2, h⟩
              · have hw := stuck_nextToken h
                refine ⟨0x30 :: 0x5D :: closers bits, fun r => ?_⟩
                obtain ⟨g, hz⟩ := sval_zero (env := env) (.inl delim_arr) (closers bits ++ r)
                exact ⟨_, ⟨_, .next (dropWs_more hc _) (dropWs_ws hw rfl _) hz (.close rfl)⟩, finS_closers _ _⟩
              · rw [runs_nextToken] at hc2
                obtain ⟨q, hq⟩ := stuck_element ih hs h
                refine ⟨q, fun r => ?_⟩
                obtain ⟨l3, l4, ⟨g, h3⟩, ⟨gs, h4⟩, h5⟩ := hq r
                exact ⟨l4, ⟨g :: gs, .next (dropWs_more hc _) (dropWs_more hc2 _) h3 h4⟩, h5⟩
          · simp only [if_true] at htop
            rw [if_neg (by rw [htop]; decide)] at h
            obtain ⟨q, hq⟩ := stuck_element ih hs h
            refine ⟨q, fun r => ?_⟩
            obtain ⟨l3, l4, ⟨g, h3⟩, ⟨gs, h4⟩, h5⟩ := hq r
            exact ⟨l4, ⟨g :: gs, .first (dropWs_more hc _) h3 h4⟩, h5⟩
    · intro top b s bits l htop hs h
      have hobj : top.isObject = true := by cases b <;> simp [htop, StackElem.isObject]
      unfold skipWithStack at h
      simp only [hobj, if_true] at h
      replace h := stuck_bind h
      rcases h with h | ⟨c, l1, hc, h⟩
      · exact ⟨0x7D :: closers bits, fun r => ⟨_, sobj_close (stuck_nextToken h) _, finS_closers _ _⟩⟩
      · rw [runs_nextToken] at hc
        split at h
        · rename_i h1; subst h1
          obtain ⟨q, hq⟩ := stuck_close ih hs h
          exact ⟨q, fun r => ⟨_, ⟨[], .oclose (dropWs_more hc _)⟩, hq r⟩⟩
        · cases b
          · simp only [Bool.false_eq_true, if_false] at htop
            rw [if_pos htop] at h
            split at h
            · cases stuck_throw h
            · rename_i h2
              have h2 := Classical.not_not.mp h2; subst h2
              replace h := stuck_bind h
              rcases h with h | ⟨c, l2, hc2, h⟩
              · have hw := stuck_nextToken h
                refine ⟨0x22 :: 0x22 :: 0x3A :: 0x30 :: 0x7D :: closers bits, fun r => ?_⟩
                obtain ⟨g, hz⟩ := sval_zero (env := env) (.inl delim_obj) (closers bits ++ r)
                have hk : Runs readObjectField env (0x22 :: 0x3A :: 0x30 :: 0x7D :: (closers bits ++ r)) [] (0x30 :: 0x7D :: (closers bits ++ r)) :=
                  readField_iff.mpr ⟨[], [], ⟨[], by simp, rfl, rfl⟩, ws_nil, rfl⟩
                exact ⟨_, ⟨_, .onext (dropWs_more hc _) (dropWs_ws hw rfl _) hk rfl hz (.oclose rfl)⟩, finS_closers _ _⟩
              · rw [runs_nextToken] at hc2
                split at h
                · cases stuck_throw h
                · rename_i h2
                  have h2 := Classical.not_not.mp h2; subst h2
                  obtain ⟨q, hq⟩ := stuck_member ih hs h
                  refine ⟨q, fun r => ?_⟩
                  obtain ⟨key, l0, c, l1, l2, l3, h0, h1, ⟨_, h3⟩, ⟨_, h4⟩, h5⟩ := hq r
                  exact ⟨l3, ⟨_, .onext (dropWs_more hc _) (dropWs_more hc2 _) h0 h1 h3 h4⟩, h5⟩
          · simp only [if_true] at htop
            rw [if_neg (by rw [htop]; decide)] at h
            split at h
            · cases stuck_throw h
            · rename_i h2
              have h2 := Classical.not_not.mp h2; subst h2
              obtain ⟨q, hq⟩ := stuck_member ih hs h
              refine ⟨q, fun r => ?_⟩
              obtain ⟨key, l0, c, l1, l2, l3, h0, h1, ⟨_, h3⟩, ⟨_, h4⟩, h5⟩ := hq r
              exact ⟨l3, ⟨_, .ofirst (dropWs_more hc _) h0 h1 h3 h4⟩, h5⟩

theorem stuck_arrayLoop (pool : Stack) {k : Nat} {c : Byte} {l : List Byte} (h : Stuck n (skipArrayLoop pool k c) env l) :
    ∃ q, ∀ r, ∃ l1, SVal env c (l ++ (q ++ r)) l1 ∧ SArr env false l1 r := by
  induction k generalizing c l with
  | zero => cases stuck_throw h
  | succ k ih =>
    have ha := initArray_abs pool
    have he := h.1
    unfold skipArrayLoop at h
    split at h
    · rename_i hc; subst hc
      replace h := stuck_bind h
      rcases h with h | ⟨_, _, h1, h⟩
      · exact (stuck_remaining h).elim
      · obtain ⟨rfl, rfl⟩ := runs_remaining.mp h1
        obtain ⟨q, hq⟩ := (stuckOk n env _).obj .objectBegin true _ _ _ rfl ha h
        refine ⟨q, fun r => ?_⟩
        obtain ⟨l1, h1, l2, h2, rfl⟩ := hq r
        exact ⟨l1, sval_obj.mpr h1, h2⟩
    · split at h
      · rename_i hc; subst hc
        replace h := stuck_bind h
        rcases h with h | ⟨_, _, h1, h⟩
        · exact (stuck_remaining h).elim
        · obtain ⟨rfl, rfl⟩ := runs_remaining.mp h1
          obtain ⟨q, hq⟩ := (stuckOk n env _).arr .arrayBegin true _ _ _ rfl ha h
          refine ⟨q, fun r => ?_⟩
          obtain ⟨l1, h1, l2, h2, rfl⟩ := hq r
          exact ⟨l1, sval_arr.mpr h1, h2⟩
      · rename_i hc1 hc2
        replace h := stuck_bind h
        rcases h with h | ⟨_, l1, h1, h⟩
        · obtain ⟨q, hq⟩ := stuck_scalar_val h
          exact ⟨q ++ [0x5D], fun r => ⟨_, by simpa using hq 0x5D r (.inl delim_arr), sarr_close ws_nil _⟩⟩
        · have hv := fun x => sval_more he ((sval_scalar hc2 hc1).mpr h1) x
          replace h := stuck_bind h
          rcases h with h | ⟨c1, l2, h2, h⟩
          · exact ⟨[0x5D], fun r => ⟨_, hv _, sarr_close (stuck_nextToken h) _⟩⟩
          · rw [runs_nextToken] at h2
            split at h
            · exact (stuck_pure h).elim
            · split at h
              · cases stuck_throw h
              · rename_i hx
                have hx := Classical.not_not.mp hx; subst hx
                replace h := stuck_bind h
                rcases h with h | ⟨c3, l3, h3, h⟩
                · have hw := stuck_nextToken h
                  refine ⟨[0x30, 0x5D], fun r => ⟨_, hv _, ?_⟩⟩
                  obtain ⟨g, hz⟩ := sval_zero (env := env) (.inl delim_arr) r
                  exact ⟨_, .next (dropWs_more h2 _) (dropWs_ws hw rfl _) hz (.close rfl)⟩
                · rw [runs_nextToken] at h3
                  obtain ⟨q, hq⟩ := ih h
                  refine ⟨q, fun r => ⟨_, hv _, ?_⟩⟩
                  obtain ⟨l4, ⟨g, h4⟩, gs, h5⟩ := hq r
                  exact ⟨_, .next (dropWs_more h2 _) (dropWs_more h3 _) h4 h5⟩

theorem stuck_objectLoop (pool : Stack) {k : Nat} {l : List Byte} (h : Stuck n (skipObjectLoop pool k) env l) :
    ∃ q, ∀ r, ∃ key l0 c l1 l2, Runs readObjectField env (l ++ (q ++ r)) key l0 ∧ dropWs l0 = c :: l1 ∧ SVal env c l1 l2 ∧
      SObj env false l2 r := by
  induction k generalizing l with
  | zero => cases stuck_throw h
  | succ k ih =>
    have ha := initObject_abs pool
    have he := h.1
    unfold skipObjectLoop at h
    replace h := stuck_bind h
    rcases h with h | ⟨_, l0, h0, h⟩
    · obtain ⟨q, key, hq⟩ := stuck_field h
      exact ⟨q ++ [0x30, 0x7D], fun r => ⟨key, _, 0x30, _, _, by simpa using hq _, rfl, sval_zero (.inl delim_obj) _, sobj_close ws_nil _⟩⟩
    · obtain ⟨key, h0⟩ := skipObjectField_iff.mp h0
      replace h := stuck_bind h
      rcases h with h | ⟨c, l1, h1, h⟩
      · exact ⟨[0x30, 0x7D], fun r => ⟨key, _, 0x30, _, _, field_more h0 _, dropWs_ws (stuck_nextToken h) rfl _, sval_zero (.inl delim_obj) _,
          sobj_close ws_nil _⟩⟩
      · rw [runs_nextToken] at h1
        split at h
        · rename_i hc; subst hc
          replace h := stuck_bind h
          rcases h with h | ⟨_, _, h2, h⟩
          · exact (stuck_remaining h).elim
          · obtain ⟨rfl, rfl⟩ := runs_remaining.mp h2
            obtain ⟨q, hq⟩ := (stuckOk n env _).obj .objectBegin true _ _ _ rfl ha h
            refine ⟨q, fun r => ?_⟩
            obtain ⟨l2, h2, l3, h3, rfl⟩ := hq r
            exact ⟨key, _, _, _, l2, field_more h0 _, dropWs_more h1 _, sval_obj.mpr h2, h3⟩
        · split at h
          · rename_i hc; subst hc
            replace h := stuck_bind h
            rcases h with h | ⟨_, _, h2, h⟩
            · exact (stuck_remaining h).elim
            · obtain ⟨rfl, rfl⟩ := runs_remaining.mp h2
              obtain ⟨q, hq⟩ := (stuckOk n env _).arr .arrayBegin true _ _ _ rfl ha h
              refine ⟨q, fun r => ?_⟩
              obtain ⟨l2, h2, l3, h3, rfl⟩ := hq r
              exact ⟨key, _, _, _, l2, field_more h0 _, dropWs_more h1 _, sval_arr.mpr h2, h3⟩
          · rename_i hc1 hc2
            replace h := stuck_bind h
            rcases h with h | ⟨_, l2, h2, h⟩
            · obtain ⟨q, hq⟩ := stuck_scalar_val h
              exact ⟨q ++ [0x7D], fun r => ⟨key, _, _, _, _, field_more h0 _, dropWs_more h1 _, by simpa using hq 0x7D r (.inl delim_obj),
                sobj_close ws_nil _⟩⟩
            · have hv := fun x => sval_more he ((sval_scalar hc2 hc1).mpr h2) x
              replace h := stuck_bind h
              rcases h with h | ⟨c1, l3, h3, h⟩
              · exact ⟨[0x7D], fun r => ⟨key, _, _, _, _, field_more h0 _, dropWs_more h1 _, hv _, sobj_close (stuck_nextToken h) _⟩⟩
              · rw [runs_nextToken] at h3
                split at h
                · exact (stuck_pure h).elim
                · split at h
                  · cases stuck_throw h
                  · rename_i hx
                    have hx := Classical.not_not.mp hx; subst hx
                    replace h := stuck_bind h
                    rcases h with h | ⟨c2, l4, h4, h⟩
                    · have hw := stuck_token (by intro c e h; split at h <;> cases h; simp) h
                      refine ⟨[0x22, 0x22, 0x3A, 0x30, 0x7D], fun r => ⟨key, _, _, _, _, field_more h0 _, dropWs_more h1 _, hv _, ?_⟩⟩
                      obtain ⟨g, hz⟩ := sval_zero (env := env) (.inl delim_obj) r
                      have hk : Runs readObjectField env (0x22 :: 0x3A :: 0x30 :: 0x7D :: r) [] (0x30 :: 0x7D :: r) :=
                        readField_iff.mpr ⟨[], [], ⟨[], by simp, rfl, rfl⟩, ws_nil, rfl⟩
                      exact ⟨_, .onext (dropWs_more h3 _) (dropWs_ws hw rfl _) hk rfl hz (.oclose rfl)⟩
                    · rw [runs_token] at h4
                      obtain ⟨l5, h4, hd⟩ := h4
                      by_cases hqt : c2 = 0x22
                      · subst hqt
                        simp at hd
                        subst hd
                        obtain ⟨q, hq⟩ := ih h
                        refine ⟨q, fun r => ⟨key, _, _, _, _, field_more h0 _, dropWs_more h1 _, hv _, ?_⟩⟩
                        obtain ⟨k', l0', c', l1', l2', a1, a2, ⟨_, a3⟩, _, a4⟩ := hq r
                        exact ⟨_, .onext (dropWs_more h3 _) (dropWs_more h4 _) a1 a2 a3 a4⟩
                      · simp [hqt] at hd

theorem stuck_function (pool : Stack) {c : Byte} {l : List Byte} (h : Stuck n (skipFunction pool c) env l) :
    ∃ q, ∀ (x : Byte) (r : List Byte), (Delim x ∨ isWs x = true) → SVal env c (l ++ (q ++ x :: r)) (x :: r) := by
  unfold skipFunction at h
  split at h
  · rename_i hc; subst hc
    unfold skipArrayWithStack at h
    simp only [sval_arr]
    replace h := stuck_bind h
    rcases h with h | ⟨c, l1, h1, h⟩
    · exact ⟨[0x5D], fun x r _ => sarr_close (stuck_nextToken h) _⟩
    · rw [runs_nextToken] at h1
      split at h
      · exact (stuck_pure h).elim
      · replace h := stuck_bind h
        rcases h with h | ⟨_, _, h2, h⟩
        · exact (stuck_remaining h).elim
        · obtain ⟨rfl, rfl⟩ := runs_remaining.mp h2
          obtain ⟨q, hq⟩ := stuck_arrayLoop pool h
          refine ⟨q, fun x r _ => ?_⟩
          obtain ⟨l2, ⟨g, h2⟩, gs, h3⟩ := hq (x :: r)
          exact ⟨_, .first (dropWs_more h1 _) h2 h3⟩
  · split at h
    · rename_i hc; subst hc
      unfold skipObjectWithStack at h
      simp only [sval_obj]
      replace h := stuck_bind h
      rcases h with h | ⟨c, l1, h1, h⟩
      · exact ⟨[0x7D], fun x r _ => sobj_close (stuck_token (by
          intro c e h
          split at h
          · cases h
          · split at h <;> cases h; simp) h) _⟩
      · rw [runs_token] at h1
        obtain ⟨l5, h1, hd⟩ := h1
        split at h
        · exact (stuck_pure h).elim
        · rename_i hne
          simp only [if_neg hne] at hd
          by_cases hqt : c = 0x22
          · subst hqt
            simp at hd
            subst hd
            replace h := stuck_bind h
            rcases h with h | ⟨_, _, h2, h⟩
            · exact (stuck_remaining h).elim
            · obtain ⟨rfl, rfl⟩ := runs_remaining.mp h2
              obtain ⟨q, hq⟩ := stuck_objectLoop pool h
              refine ⟨q, fun x r _ => ?_⟩
              obtain ⟨k', l0', c', l1', l2', a1, a2, ⟨_, a3⟩, _, a4⟩ := hq (x :: r)
              exact ⟨_, .ofirst (dropWs_more h1 _) a1 a2 a3 a4⟩
          · simp [hqt] at hd
    · exact stuck_scalar_val h

/-- `Skip` asks for more only if the bytes can be completed to a value. -/
theorem stuck_skip (pool : Stack) {l : List Byte} (h : Stuck n (Skip pool) env l) : ∃ q w t v, Ws w ∧ Value t v ∧ l ++ q = w ++ t := by
  unfold Skip at h
  replace h := stuck_bind h
  rcases h with h | ⟨c, l1, h1, h⟩
  · exact ⟨[0x30], l, [0x30], _, stuck_nextToken h, .num _ (.inl ⟨[0x30], [], [], rfl, .zero, .none, .none⟩), rfl⟩
  · rw [runs_nextToken] at h1
    obtain ⟨w, hw, hc, rfl⟩ := dropWs_eq_cons.mp h1
    obtain ⟨q, hq⟩ := stuck_function pool h
    obtain ⟨t, v, h2, hv, _⟩ := sval_iff.mp (hq 0x20 [] (.inr rfl))
    refine ⟨q, w, t, v, hw, hv, ?_⟩
    have : (c :: (l1 ++ q)) ++ [0x20] = t ++ [0x20] := by rw [← h2]; simp
    rw [← List.append_cancel_right this]
    simp

end

end Jzon
