import Verif.Proof.Top

/-!
# C12, C13, C14: floating point literals and strings
-/

set_option linter.unusedSimpArgs false

namespace Jzon.Props

open Spec Jzon

theorem runs_expectQuote {env : Env} {l r : List Byte} {u : Unit} :
    Runs expectQuote env l u r ↔ ∃ w, Ws w ∧ l = w ++ 0x22 :: r := by
  unfold expectQuote
  simp only [runs_bind, runs_token', runs_pure]
  constructor
  · rintro ⟨c, l1, ⟨w, l', hw, _, rfl, h⟩, _, rfl⟩
    rcases h with ⟨h, rfl⟩ | ⟨h, _⟩
    · split at h
      · simp at h
      · rename_i hc; simp at hc; subst hc; exact ⟨w, hw, rfl⟩
    · split at h <;> simp at h
  · rintro ⟨w, hw, rfl⟩
    exact ⟨0x22, r, ⟨w, r, hw, by decide, rfl, .inl ⟨by simp, rfl⟩⟩, trivial, rfl⟩

/-- **C13.** `ReadString` returns `s` and leaves `r` exactly if the unread input is white space, a JSON string literal
denoting `s`, and `r`. -/
theorem C13_readString_iff {it : It} {l s r : List Byte} {e : Err} (h : Unread it l e) :
    (∃ it', ReadString.runM it = (.ok s, it') ∧ Unread it' r e) ↔
      ∃ w t, Ws w ∧ Str t s ∧ l = w ++ (t ++ r) := by
  rw [runM_iff h]
  unfold ReadString
  simp only [runs_bind, runs_expectQuote, runs_readString]
  constructor
  · rintro ⟨_, l1, ⟨w, hw, rfl⟩, b, hb, rfl⟩
    exact ⟨w, _, hw, ⟨b, hb, rfl⟩, by simp⟩
  · rintro ⟨w, t, hw, ⟨b, hb, rfl⟩, rfl⟩
    exact ⟨(), b ++ 0x22 :: r, ⟨w, hw, by simp⟩, b, hb, rfl⟩

/-- **C13.** `ReadStringAndAppend` appends the denoted bytes to its argument. -/
theorem C13_readStringAndAppend_iff {it : It} {l buf x r : List Byte} {e : Err} (h : Unread it l e) :
    (∃ it', (ReadStringAndAppend buf).runM it = (.ok x, it') ∧ Unread it' r e) ↔
      ∃ w t s, Ws w ∧ Str t s ∧ l = w ++ (t ++ r) ∧ x = buf ++ s := by
  rw [runM_iff h]
  have key : Runs (ReadStringAndAppend buf) it.env l x r ↔ ∃ s, Runs ReadString it.env l s r ∧ x = buf ++ s := by
    unfold ReadStringAndAppend ReadString
    simp only [runs_bind, runs_pure]
    constructor
    · rintro ⟨u, l1, h1, s, l2, h2, rfl, rfl⟩; exact ⟨s, ⟨u, l1, h1, h2⟩, rfl⟩
    · rintro ⟨s, ⟨u, l1, h1, h2⟩, rfl⟩; exact ⟨u, l1, h1, s, r, h2, rfl, rfl⟩
  rw [key]
  constructor
  · rintro ⟨s, h1, rfl⟩
    obtain ⟨w, t, a, b, c⟩ := (C13_readString_iff h).mp ((runM_iff h).mpr h1)
    exact ⟨w, t, s, a, b, c, rfl⟩
  · rintro ⟨w, t, s, a, b, c, rfl⟩
    exact ⟨s, (runM_iff h).mp ((C13_readString_iff h).mpr ⟨w, t, a, b, c⟩), rfl⟩

/-- Concrete case: a surrogate pair, an unpaired high surrogate before a short escape, and an unpaired low one. -/
example (it : It) : (ReadString.runM (it.resetBytes (bs! " \"\\uD83D\\uDE00\\ud800\\n\\udc00z\"]"))).1 =
    .ok ([0xF0, 0x9F, 0x98, 0x80, 0xEF, 0xBF, 0xBD, 0x0A, 0xEF, 0xBF, 0xBD, 0x7A]) := by rfl
example : Str (bs! "\"\\uD83D\\uDE00\"") [0xF0, 0x9F, 0x98, 0x80] :=
  ⟨bs! "\\uD83D\\uDE00", ⟨[.uni 0x44 0x38 0x33 0x44, .uni 0x44 0x45 0x30 0x30], by
    intro c hc; simp at hc; rcases hc with rfl | rfl <;> simp [Chr.Ok, hexDigit] <;> decide, rfl, by decide +kernel⟩, rfl⟩

/-- **C14.** `SkipString` succeeds and leaves `r` exactly if the unread input is white space, a JSON string literal, and
`r`. -/
theorem C14_skipString_iff {it : It} {l r : List Byte} {e : Err} (h : Unread it l e) :
    (∃ it', SkipString.runM it = (.ok (), it') ∧ Unread it' r e) ↔
      ∃ w t s, Ws w ∧ Str t s ∧ l = w ++ (t ++ r) := by
  rw [runM_iff h]
  have key : Runs SkipString it.env l () r ↔ Runs (expectQuote >>= fun _ => skipString) it.env l () r := by
    unfold SkipString expectQuote
    simp only [runs_bind, runs_pure]
    constructor
    · rintro ⟨c, l1, h1, h2⟩; exact ⟨(), l1, ⟨c, l1, h1, trivial, rfl⟩, h2⟩
    · rintro ⟨_, l1, ⟨c, _, h1, _, rfl⟩, h2⟩; exact ⟨c, l1, h1, h2⟩
  rw [key]
  simp only [runs_bind, runs_expectQuote, runs_skipString']
  constructor
  · rintro ⟨_, l1, ⟨w, hw, rfl⟩, b, s, hb, rfl⟩
    exact ⟨w, _, s, hw, ⟨b, hb, rfl⟩, by simp⟩
  · rintro ⟨w, t, s, hw, ⟨b, hb, rfl⟩, rfl⟩
    exact ⟨(), b ++ 0x22 :: r, ⟨w, hw, by simp⟩, b, s, hb, rfl⟩

/-- **C14.** `ReadString` and `SkipString` succeed on the same inputs and stop at the same place. -/
theorem C14_read_skip_agree {it : It} {l r : List Byte} {e : Err} (h : Unread it l e) :
    (∃ s it', ReadString.runM it = (.ok s, it') ∧ Unread it' r e) ↔
      (∃ it', SkipString.runM it = (.ok (), it') ∧ Unread it' r e) := by
  rw [C14_skipString_iff h]
  constructor
  · rintro ⟨s, hs⟩
    obtain ⟨w, t, a, b, c⟩ := (C13_readString_iff h).mp hs
    exact ⟨w, t, s, a, b, c⟩
  · rintro ⟨w, t, s, a, b, c⟩
    exact ⟨s, (C13_readString_iff h).mpr ⟨w, t, a, b, c⟩⟩

/-- A string literal denotes one byte string only. -/
theorem C13_denotation_unique {t s s' : List Byte} (h : Str t s) (h' : Str t s') : s = s' := by
  have hu := unread_bytes ⟨[], 0, 0, false, none⟩ t
  obtain ⟨it1, e1, _⟩ := (C13_readString_iff (r := []) hu).mpr ⟨[], t, (by intro c hc; cases hc), h, by simp⟩
  obtain ⟨it2, e2, _⟩ := (C13_readString_iff (r := []) hu).mpr ⟨[], t, (by intro c hc; cases hc), h', by simp⟩
  rw [e1] at e2
  cases e2
  rfl

/-- Concrete rejections: a raw control byte, an unknown escape, a short `\u`. -/
example (it : It) : (ReadString.runM (it.resetBytes [0x22, 0x0A, 0x22])).1 = .error (.invalidStringChar 0x0A) := by rfl
example (it : It) : (SkipString.runM (it.resetBytes (bs! "\"\\x\""))).1 = .error (.invalidEscapeChar 0x78) := by rfl
example (it : It) : (SkipString.runM (it.resetBytes (bs! "\"\\u12\""))).1 = .error (.invalidUnicodeChar 0x22) := by rfl

/-! ## C12 -/

/-- **C12.** `ReadFloat32/64` return `f` and leave `r` exactly if the unread input is white space, a number literal with
value `f` that cannot be continued, and `r`.  `ops.parse` is `strconv.ParseFloat`; it is applied to the literal without
its minus sign. -/
theorem C12_readFloat_iff {F : Type} {ops : FloatOps F} (hlaw : Lawful ops) {it : It} {l r : List Byte} {e : Err} {f : F}
    (h : Unread it l e) :
    (∃ it', (ReadFloat ops).runM it = (.ok f, it') ∧ Unread it' r e) ↔
      ∃ t, Number t ∧ Split e l t r ∧ literal ops t = .ok f := by
  rw [runM_iff h]
  have he := env_endErr h
  unfold ReadFloat
  simp only [runs_bind, runs_nextTokenTake]
  constructor
  · rintro ⟨c, l1, ⟨w, hw, _, rfl⟩, h1⟩
    have hc : isNumberStart c = true := by
      cases hb : isNumberStart c with
      | true => rfl
      | false =>
        exfalso
        have h2 := not_isNumberStart c hb
        simp only [readFloat, if_neg h2.1, readPositiveFloat, h2.2] at h1
        simp [Runs, Prog.runF] at h1
    obtain ⟨t, a1, a2, a3, a4, a5⟩ := (runs_readFloat hlaw hc).mp h1
    exact ⟨t, a2, ⟨w, hw, by rw [a1], fun _ => ⟨a3, he ▸ a4⟩⟩, a5⟩
  · rintro ⟨t, hn, ⟨w, hw, rfl, h4⟩, hf⟩
    obtain ⟨c, u, rfl, hc⟩ := numberStart_head hn
    exact ⟨c, u ++ r, ⟨w, hw, (numberStart_notWs hc).1, by simp⟩,
      (runs_readFloat hlaw hc).mpr ⟨c :: u, rfl, hn, (h4 hn).1, fun hr => he ▸ (h4 hn).2 hr, hf⟩⟩

/-- Concrete case: a literal cut into three chunks, with the instance that keeps the text. -/
example (it : It) : ((ReadFloat textOps).runM (it.resetReader [⟨bs! " -12", none⟩, ⟨bs! ".5E", none⟩, ⟨bs! "+7,", some .eof⟩])).1 =
    .ok (bs! "-12.5e+7") := by rfl
example : Lawful textOps := textOps_lawful

end Jzon.Props
