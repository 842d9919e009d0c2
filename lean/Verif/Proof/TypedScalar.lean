import Verif.Proof.TypedBase
import Verif.Props.Grammar
import Verif.Props.Iter
import Verif.Props.Str

/-!
# Typed decoding: types without parts
-/

set_option linter.unusedSimpArgs false

namespace Jzon

open Spec

section
variable {F : Type} {env : Env}

/-! ## null -/

theorem runs_expectThen {V : Type} {s : List Byte} (hs : s ≠ []) {v x : V} {l r : List Byte} :
    Runs (do expectBytes s; pure v) env l x r ↔ l = s ++ r ∧ x = v := by
  simp only [runs_bind, runs_expectBytes hs, runs_pure]
  constructor
  · rintro ⟨_, _, rfl, rfl, rfl⟩; exact ⟨rfl, rfl⟩
  · rintro ⟨rfl, rfl⟩; exact ⟨(), r, rfl, rfl, rfl⟩

theorem runs_nullThen {V : Type} {v x : V} {l r : List Byte} :
    Runs (nullThen v) env l x r ↔ l = ull ++ r ∧ x = v := runs_expectThen (by decide)

theorem null_split {l r : List Byte} : (0x6E : Byte) :: (ull ++ r) = nullText ++ r := rfl

theorem not_number_null : ¬ Number nullText := by
  intro h
  obtain ⟨c, u, h1, h2⟩ := number_head h
  cases h1
  revert h2; decide

theorem not_number_quote {l : List Byte} : ¬ Number (0x22 :: l) := by
  intro h
  obtain ⟨c, u, h1, h2⟩ := number_head h
  cases h1
  revert h2; decide

theorem str_head {t s : List Byte} (h : Str t s) : ∃ u, t = 0x22 :: u := by
  obtain ⟨b, _, rfl⟩ := h
  exact ⟨_, rfl⟩

/-- Relations whose texts begin as values do. -/
def Headed {V : Type} (P : List Byte → V → Prop) : Prop :=
  ∀ {t v}, P t v → ∃ c u, t = c :: u ∧ isWs c = false ∧ c ≠ 0x5D ∧ c ≠ 0x7D ∧ (c = 0x6E → t = nullText)

theorem number_headed {t : List Byte} (h : Number t) :
    ∃ c u, t = c :: u ∧ isWs c = false ∧ c ≠ 0x5D ∧ c ≠ 0x7D ∧ (c = 0x6E → t = nullText) := by
  obtain ⟨c, u, rfl, hc⟩ := number_head h
  have : isWs c = false ∧ c ≠ 0x5D ∧ c ≠ 0x7D ∧ c ≠ 0x6E := by
    revert hc; revert c
    have : ∀ c : Byte, (c = 0x2D ∨ Digit c) → isWs c = false ∧ c ≠ 0x5D ∧ c ≠ 0x7D ∧ c ≠ 0x6E := by
      apply forall_byte; decide +kernel
    intro c _ hc; exact this c hc
  exact ⟨c, u, rfl, this.1, this.2.1, this.2.2.1, fun h => absurd h this.2.2.2⟩

theorem null_headed : ∃ c u, nullText = c :: u ∧ isWs c = false ∧ c ≠ 0x5D ∧ c ≠ 0x7D ∧ (c = 0x6E → nullText = nullText) :=
  ⟨_, _, rfl, by decide, by decide, by decide, fun _ => rfl⟩

theorem quote_headed {u : List Byte} :
    ∃ c v, 0x22 :: u = c :: v ∧ isWs c = false ∧ c ≠ 0x5D ∧ c ≠ 0x7D ∧ (c = 0x6E → 0x22 :: u = nullText) :=
  ⟨_, _, rfl, by decide, by decide, by decide, fun h => absurd h (by decide)⟩

theorem cons_headed {c : Byte} {u : List Byte} (h : isWs c = false ∧ c ≠ 0x5D ∧ c ≠ 0x7D ∧ c ≠ 0x6E) :
    ∃ d v, c :: u = d :: v ∧ isWs d = false ∧ d ≠ 0x5D ∧ d ≠ 0x7D ∧ (d = 0x6E → c :: u = nullText) :=
  ⟨_, _, rfl, h.1, h.2.1, h.2.2.1, fun h' => absurd h' h.2.2.2⟩

theorem value_headed {t : List Byte} {j : JVal} (h : Value t j) :
    ∃ c u, t = c :: u ∧ isWs c = false ∧ c ≠ 0x5D ∧ c ≠ 0x7D ∧ (c = 0x6E → t = nullText) := by
  cases h with
  | null => exact null_headed
  | true => exact cons_headed (by decide)
  | false => exact cons_headed (by decide)
  | num _ h => exact number_headed h
  | str _ _ h => obtain ⟨b, _, rfl⟩ := h; exact quote_headed
  | arrEmpty => exact cons_headed (by decide)
  | arr => exact cons_headed (by decide)
  | objEmpty => exact cons_headed (by decide)
  | obj => exact cons_headed (by decide)

/-! ## bool -/

theorem bool_impl (o : DecOpts) (old : Val F) : Impl env (boolDecoder o old) (BoolRel true o old) where
  sound := by
    intro l v r h
    unfold boolDecoder at h
    simp only [runs_bind, runs_token'] at h
    obtain ⟨c, _, ⟨w, l', hw, hc, rfl, h1⟩, h2⟩ := h
    by_cases hn : c = 0x6E
    · subst hn
      simp at h1
      subst h1
      rw [if_pos rfl, runs_nullThen] at h2
      obtain ⟨rfl, rfl⟩ := h2
      exact ⟨w, nullText, hw, rfl, .inl (.inl ⟨rfl, rfl⟩)⟩
    rw [if_neg hn] at h2
    by_cases ht : c = 0x74
    · subst ht
      simp at h1
      subst h1
      rw [if_pos rfl, runs_expectThen (by decide)] at h2
      obtain ⟨rfl, rfl⟩ := h2
      exact ⟨w, trueText, hw, rfl, .inl (.inr (.inl ⟨rfl, rfl⟩))⟩
    rw [if_neg ht] at h2
    by_cases hf : c = 0x66
    · subst hf
      simp at h1
      subst h1
      rw [if_pos rfl, runs_expectThen (by decide)] at h2
      obtain ⟨rfl, rfl⟩ := h2
      exact ⟨w, falseText, hw, rfl, .inl (.inr (.inr ⟨rfl, rfl⟩))⟩
    rw [if_neg hf] at h2
    by_cases hq : c = 0x22 ∧ o.quoted = true
    · simp [hq] at h1
      subst h1
      simp only [runs_bind, runs_nextTokenTake] at h2
      obtain ⟨d, l1, ⟨w2, hw2, hd, rfl⟩, h3⟩ := h2
      have fin : ∀ u, BoolLit old u v → d :: l1 = u ++ 0x22 :: r → ∃ w_1 t, Ws w_1 ∧
          w ++ c :: (w2 ++ d :: l1) = w_1 ++ (t ++ r) ∧ BoolRel true o old t v := by
        intro u hu he
        refine ⟨w, inQuotes (w2 ++ u), hw, ?_, .inr ⟨hq.2, w2, u, .inr ⟨rfl, hw2⟩, rfl, hu⟩⟩
        rw [he, hq.1]; simp [inQuotes]
      split at h3
      · next hd' =>
        subst hd'
        obtain ⟨rfl, rfl⟩ := (runs_expectThen (by decide)).mp h3
        exact fin trueText (.inr (.inl ⟨rfl, rfl⟩)) rfl
      split at h3
      · next hd' =>
        subst hd'
        obtain ⟨rfl, rfl⟩ := (runs_expectThen (by decide)).mp h3
        exact fin falseText (.inr (.inr ⟨rfl, rfl⟩)) rfl
      split at h3
      · next hd' =>
        subst hd'
        obtain ⟨rfl, rfl⟩ := (runs_expectThen (by decide)).mp h3
        exact fin nullText (.inl ⟨rfl, rfl⟩) rfl
      · simp at h3
    · simp [hn, ht, hf, hq] at h1
  complete := by
    rintro l t v r h ⟨w, hw, rfl, -⟩
    unfold boolDecoder
    simp only [runs_bind, runs_token']
    rcases h with (⟨rfl, rfl⟩ | ⟨rfl, rfl⟩ | ⟨rfl, rfl⟩) | ⟨hq, w2, u, hw2, rfl, hu⟩
    · exact ⟨0x6E, ull ++ r, ⟨w, ull ++ r, hw, by decide, rfl, by simp⟩, runs_nullThen.mpr ⟨rfl, rfl⟩⟩
    · exact ⟨0x74, rue ++ r, ⟨w, rue ++ r, hw, by decide, rfl, by simp⟩, (runs_expectThen (by decide)).mpr ⟨rfl, rfl⟩⟩
    · exact ⟨0x66, alse ++ r, ⟨w, alse ++ r, hw, by decide, rfl, by simp⟩, (runs_expectThen (by decide)).mpr ⟨rfl, rfl⟩⟩
    · have hw2 : Ws w2 := by
        rcases hw2 with rfl | ⟨_, h⟩
        · exact ws_nil
        · exact h
      refine ⟨0x22, w2 ++ (u ++ 0x22 :: r), ⟨w, w2 ++ (u ++ 0x22 :: r), hw, by decide, by simp [inQuotes], by simp [hq]⟩, ?_⟩
      simp only [show ((0x22 : Byte) = 0x6E) = False by decide, show ((0x22 : Byte) = 0x74) = False by decide,
        show ((0x22 : Byte) = 0x66) = False by decide, if_false, runs_bind, runs_nextTokenTake]
      rcases hu with ⟨rfl, rfl⟩ | ⟨rfl, rfl⟩ | ⟨rfl, rfl⟩
      · exact ⟨0x6E, ullQ ++ r, ⟨w2, hw2, by decide, rfl⟩, (runs_expectThen (by decide)).mpr ⟨rfl, rfl⟩⟩
      · exact ⟨0x74, rueQ ++ r, ⟨w2, hw2, by decide, rfl⟩, (runs_expectThen (by decide)).mpr ⟨rfl, rfl⟩⟩
      · exact ⟨0x66, alseQ ++ r, ⟨w2, hw2, by decide, rfl⟩, (runs_expectThen (by decide)).mpr ⟨rfl, rfl⟩⟩
  head := by
    rintro t v ((⟨rfl, rfl⟩ | ⟨rfl, rfl⟩ | ⟨rfl, rfl⟩) | ⟨hq, w2, u, hw2, rfl, hu⟩)
    · exact null_headed
    · exact cons_headed (by decide)
    · exact cons_headed (by decide)
    · exact quote_headed

/-! ## string -/

theorem runs_quoteOrNull {V : Type} {f : List Byte → Prog V} {e : Byte → Err} {old x : V} {l r : List Byte} :
    Runs (do
      let c ← token fun c => if c = b! '"' ∨ c = b! 'n' then .take else .fail (e c)
      if c = b! '"' then do
        let s ← readStringAsSlice
        f s
      else nullThen old) env l x r ↔
    ∃ w, Ws w ∧ ((l = w ++ (nullText ++ r) ∧ x = old) ∨ ∃ b s r1, l = w ++ 0x22 :: (b ++ 0x22 :: r1) ∧ StrBody b s ∧ Runs (f s) env r1 x r) := by
  simp only [runs_bind, runs_token']
  constructor
  · rintro ⟨c, _, ⟨w, l', hw, hc, rfl, h1⟩, h2⟩
    by_cases hq : c = 0x22
    · subst hq
      simp at h1
      subst h1
      rw [if_pos rfl] at h2
      simp only [runs_bind, runs_readString] at h2
      obtain ⟨s, r1, ⟨b, hb, rfl⟩, h⟩ := h2
      exact ⟨w, hw, .inr ⟨b, s, r1, rfl, hb, h⟩⟩
    · by_cases hn : c = 0x6E
      · subst hn
        simp at h1
        subst h1
        rw [if_neg hq, runs_nullThen] at h2
        obtain ⟨rfl, rfl⟩ := h2
        exact ⟨w, hw, .inl ⟨rfl, rfl⟩⟩
      · simp [hq, hn] at h1
  · rintro ⟨w, hw, ⟨rfl, rfl⟩ | ⟨b, s, r1, rfl, hb, h⟩⟩
    · exact ⟨0x6E, ull ++ r, ⟨w, ull ++ r, hw, by decide, rfl, by simp⟩, runs_nullThen.mpr ⟨rfl, rfl⟩⟩
    · refine ⟨0x22, _, ⟨w, b ++ 0x22 :: r1, hw, by decide, rfl, .inl ⟨by simp, rfl⟩⟩, ?_⟩
      simp only [if_true, runs_bind, runs_readString]
      exact ⟨s, r1, ⟨b, hb, rfl⟩, h⟩

theorem unquote_iff (it : It) {s t : List Byte} (hl : s.getLast? = some 0x22) (hh : s.head? = some 0x22) :
    unquote it s = .ok t ↔ Str s t := by
  have hu := unread_bytes it s
  have key : ∀ {x : List Byte × Option Byte} {r : List Byte}, Runs (do
      let t ← ReadString
      let o ← tokenEOF
      pure (t, o) : Prog (List Byte × Option Byte)) (it.resetBytes s).env s x r ↔
      ∃ r1, (∃ w u, Ws w ∧ Str u x.1 ∧ s = w ++ (u ++ r1)) ∧ Runs tokenEOF (it.resetBytes s).env r1 x.2 r := by
    intro x r
    simp only [runs_bind, runs_pure]
    constructor
    · rintro ⟨t, r1, h1, o, r2, h2, rfl, rfl⟩
      exact ⟨r1, (Props.C13_readString_iff hu).mp ((runM_iff hu).mpr h1), h2⟩
    · rintro ⟨r1, h1, h2⟩
      exact ⟨x.1, r1, (runM_iff hu).mp ((Props.C13_readString_iff hu).mpr h1), x.2, r, h2, rfl, rfl⟩
  unfold unquote
  constructor
  · intro h
    split at h
    · next t' it' hrun =>
      cases h
      obtain ⟨r, _, h2, _⟩ := runM_ok hu hrun
      obtain ⟨r1, ⟨w, u, hw, hs, rfl⟩, h3⟩ := key.mp h2
      rcases runs_tokenEOF.mp h3 with ⟨_, _, _, hr⟩ | ⟨c, _, _, h4, _⟩
      · have hw0 : w = [] := by
          cases w with
          | nil => rfl
          | cons x w => simp at hh; subst hh; exact absurd (hw 0x22 (by simp)) (by decide)
        subst hw0
        have hr0 : r1 = [] := by
          cases hr1 : r1.reverse with
          | nil => simpa using hr1
          | cons x y =>
            have e : r1 = y.reverse ++ [x] := by rw [← List.reverse_reverse r1, hr1]; simp
            subst e
            rw [← List.append_assoc, ← List.append_assoc, List.getLast?_concat] at hl
            cases hl
            exact absurd (hr 0x22 (by simp)) (by decide)
        subst hr0
        simpa using hs
      · cases h4
    · cases h
  · intro h
    have : Runs (do
      let t ← ReadString
      let o ← tokenEOF
      pure (t, o) : Prog (List Byte × Option Byte)) (it.resetBytes s).env s (t, none) [] :=
      key.mpr ⟨[], ⟨[], s, ws_nil, h, by simp⟩, runs_tokenEOF.mpr (.inl ⟨rfl, rfl, env_endErr hu, ws_nil⟩)⟩
    obtain ⟨it', h1, _⟩ := runM_of_runs hu this
    rw [h1]

theorem strText_ends {s t : List Byte} (h : Str s t) : 2 ≤ s.length ∧ s.head? = some 0x22 ∧ s.getLast? = some 0x22 := by
  obtain ⟨b, _, rfl⟩ := h
  refine ⟨by simp, rfl, ?_⟩
  rw [← List.cons_append, List.getLast?_concat]

/-- What the string decoder does with the content. -/
theorem runs_content {pools : Pools} {o : DecOpts} {old v : Val F} {s l r : List Byte} :
    Runs (if ¬ o.quoted then pure (.str s)
    else if s.length < 2 then .throw (.badQuotedString s)
    else if s.head? = some (b! 'n') then
      if s ≠ bs! "null" then .throw (.badQuotedString s) else pure old
    else if s.head? = some (b! '"') then
      if s.getLast? ≠ some (b! '"') then .throw (.badQuotedString s)
      else do
        let t ← Prog.ofExcept (unquote pools.it s)
        pure (.str t)
    else .throw (.badQuotedString s) : Prog (Val F)) env l v r ↔
    r = l ∧ (if o.quoted then (s = nullText ∧ v = old) ∨ (∃ s', Str s s' ∧ v = .str s') else v = .str s) := by
  cases hq : o.quoted with
  | false => simp [and_comm]
  | true =>
    simp only [not_true_eq_false, if_false, if_true]
    have hnull : nullText = bs! "null" := rfl
    split
    · next h2 =>
      simp only [runs_throw, false_iff]
      rintro ⟨_, ⟨rfl, _⟩ | ⟨s', h, _⟩⟩
      · exact absurd h2 (by decide)
      · have := (strText_ends h).1; omega
    · split
      · next h3 =>
        split
        · next h4 =>
          simp only [runs_throw, false_iff]
          rintro ⟨_, ⟨h, _⟩ | ⟨s', h, _⟩⟩
          · exact h4 h
          · exact absurd (h3.symm.trans (strText_ends h).2.1) (by decide)
        · next h4 =>
          have h4 : s = nullText := Classical.byContradiction h4
          rw [runs_pure]
          constructor
          · rintro ⟨rfl, rfl⟩; exact ⟨rfl, .inl ⟨h4, rfl⟩⟩
          · rintro ⟨rfl, ⟨_, rfl⟩ | ⟨s', h, _⟩⟩
            · exact ⟨rfl, rfl⟩
            · exact absurd (h3.symm.trans (strText_ends h).2.1) (by decide)
      · next h3 =>
        have hn : s ≠ nullText := by rintro rfl; exact h3 rfl
        split
        · next h5 =>
          split
          · next h6 =>
            simp only [runs_throw, false_iff]
            rintro ⟨_, ⟨h, _⟩ | ⟨s', h, _⟩⟩
            · exact hn h
            · exact h6 (strText_ends h).2.2
          · next h6 =>
            simp only [runs_bind, runs_ofExcept, runs_pure]
            constructor
            · rintro ⟨t, _, ⟨h, rfl⟩, rfl, rfl⟩
              exact ⟨rfl, .inr ⟨t, (unquote_iff _ (by simpa using h6) h5).mp h, rfl⟩⟩
            · rintro ⟨rfl, ⟨h, _⟩ | ⟨s', h, rfl⟩⟩
              · exact absurd h hn
              · exact ⟨s', r, ⟨(unquote_iff _ (by simpa using h6) h5).mpr h, rfl⟩, rfl, rfl⟩
        · next h5 =>
          simp only [runs_throw, false_iff]
          rintro ⟨_, ⟨h, _⟩ | ⟨s', h, _⟩⟩
          · exact hn h
          · exact h5 (strText_ends h).2.1

theorem string_impl (pools : Pools) (o : DecOpts) (old : Val F) : Impl env (stringDecoder pools o old) (StrRel o old) where
  sound := by
    intro l v r h
    unfold stringDecoder at h
    obtain ⟨w, hw, ⟨rfl, rfl⟩ | ⟨b, s, r1, rfl, hb, h⟩⟩ := runs_quoteOrNull.mp h
    · exact ⟨w, nullText, hw, rfl, .inl ⟨rfl, rfl⟩⟩
    · obtain ⟨rfl, h'⟩ := runs_content.mp h
      exact ⟨w, inQuotes b, hw, by simp [inQuotes], .inr ⟨s, ⟨b, hb, rfl⟩, h'⟩⟩
  complete := by
    rintro l t v r h ⟨w, hw, rfl, -⟩
    unfold stringDecoder
    apply runs_quoteOrNull.mpr
    refine ⟨w, hw, ?_⟩
    rcases h with ⟨rfl, rfl⟩ | ⟨s, ⟨b, hb, rfl⟩, h⟩
    · exact .inl ⟨rfl, rfl⟩
    · exact .inr ⟨b, s, r, by simp, hb, runs_content.mpr ⟨rfl, h⟩⟩
  head := by
    rintro t v (⟨rfl, rfl⟩ | ⟨s, ⟨b, hb, rfl⟩, h⟩)
    · exact null_headed
    · exact quote_headed

/-- A text unmarshaler. -/
theorem text_impl (f : Val F → List Byte → Except Err (Val F)) (o : DecOpts) (old : Val F) :
    Impl env (textUnmarshalerDecoder f o old) (TextRel f o old) where
  sound := by
    intro l v r h
    unfold textUnmarshalerDecoder at h
    obtain ⟨w, hw, ⟨rfl, rfl⟩ | ⟨b, s, r1, rfl, hb, h⟩⟩ := runs_quoteOrNull.mp h
    · exact ⟨w, nullText, hw, rfl, .inl ⟨rfl, rfl⟩⟩
    · obtain ⟨h', rfl⟩ := runs_ofExcept.mp h
      exact ⟨w, inQuotes b, hw, by simp [inQuotes], .inr ⟨s, ⟨b, hb, rfl⟩, h'⟩⟩
  complete := by
    rintro l t v r h ⟨w, hw, rfl, -⟩
    unfold textUnmarshalerDecoder
    apply runs_quoteOrNull.mpr
    refine ⟨w, hw, ?_⟩
    rcases h with ⟨rfl, rfl⟩ | ⟨s, ⟨b, hb, rfl⟩, h⟩
    · exact .inl ⟨rfl, rfl⟩
    · exact .inr ⟨b, s, r, by simp, hb, runs_ofExcept.mpr ⟨h, rfl⟩⟩
  head := by
    rintro t v (⟨rfl, rfl⟩ | ⟨s, ⟨b, hb, rfl⟩, h⟩)
    · exact null_headed
    · exact quote_headed

/-! ## Any value -/

theorem raw_impl (pools : Pools) (o : DecOpts) (old : Val F) : Impl env (rawDecoder pools o old) (RawRel o old) where
  sound := by
    intro l v r h
    unfold rawDecoder AppendRaw at h
    simp only [runs_bind, Props.runs_skipRaw, runs_pure] at h
    obtain ⟨b, _, ⟨t, _, ⟨w, j, rfl, hw, hv, _⟩, rfl, rfl⟩, rfl, rfl⟩ := h
    exact ⟨w, _, hw, rfl, ⟨j, hv⟩, by simp⟩
  complete := by
    rintro l t v r ⟨⟨j, hv⟩, rfl⟩ ⟨w, hw, rfl, he⟩
    unfold rawDecoder AppendRaw
    simp only [runs_bind, Props.runs_skipRaw, runs_pure]
    exact ⟨t, r, ⟨t, r, ⟨w, j, rfl, hw, hv, (endsAt_iff hv).mpr he⟩, by simp, rfl⟩, rfl, rfl⟩
  head := by rintro t v ⟨⟨j, hv⟩, -⟩; exact value_headed hv

theorem json_impl (pools : Pools) (f : Val F → List Byte → Except Err (Val F)) (o : DecOpts) (old : Val F) :
    Impl env (jsonUnmarshalerDecoder pools f o old) (JsonRel f o old) where
  sound := by
    intro l v r h
    unfold jsonUnmarshalerDecoder at h
    simp only [runs_bind, Props.runs_skipRaw, runs_ofExcept] at h
    obtain ⟨t, _, ⟨w, j, rfl, hw, hv, _⟩, h, rfl⟩ := h
    exact ⟨w, t, hw, rfl, ⟨j, hv⟩, h⟩
  complete := by
    rintro l t v r ⟨⟨j, hv⟩, hf⟩ ⟨w, hw, rfl, he⟩
    unfold jsonUnmarshalerDecoder
    simp only [runs_bind, Props.runs_skipRaw, runs_ofExcept]
    exact ⟨t, r, ⟨w, j, rfl, hw, hv, (endsAt_iff hv).mpr he⟩, hf, rfl⟩
  head := by rintro t v ⟨⟨j, hv⟩, -⟩; exact value_headed hv

theorem any_impl {cfg : DecCfg F} (hlaw : cfg.useNumber = false → Lawful cfg.ops64) (pools : Pools) (o : DecOpts) (old : Val F) :
    Impl env (anyDecoder cfg pools o old) (AnyRel cfg o old) where
  sound := by
    intro l v r h
    unfold anyDecoder at h
    simp only [runs_bind, runs_read (Props.numSem_cfg (cfg := ⟨cfg.useNumber, cfg.ops64⟩) hlaw env), runs_pure] at h
    obtain ⟨g, _, ⟨w, t, j, rfl, hw, hv, hg, _⟩, rfl, rfl⟩ := h
    exact ⟨w, t, hw, rfl, j, g, hv, hg, rfl⟩
  complete := by
    rintro l t v r ⟨j, g, hv, hg, rfl⟩ ⟨w, hw, rfl, he⟩
    unfold anyDecoder
    simp only [runs_bind, runs_read (Props.numSem_cfg (cfg := ⟨cfg.useNumber, cfg.ops64⟩) hlaw env), runs_pure]
    exact ⟨g, r, ⟨w, t, j, rfl, hw, hv, hg, (endsAt_iff hv).mpr he⟩, rfl, rfl⟩
  head := by rintro t v ⟨j, g, hv, -⟩; exact value_headed hv

/-! ## Numbers -/

theorem number_not_n : ∀ c : Byte, isNumberStart c = true → c ≠ 0x6E ∧ isWs c = false ∧ c ≠ 0x22 := by
  apply forall_byte; decide +kernel

theorem readFloat_start {ops : FloatOps F} {c : Byte} {l r : List Byte} {f : F} (h : Runs (readFloat ops c) env l f r) :
    isNumberStart c = true := by
  cases hc : isNumberStart c with
  | true => rfl
  | false =>
    obtain ⟨h1, h2⟩ := not_isNumberStart c hc
    unfold readFloat readPositiveFloat at h
    rw [if_neg h1, h2] at h
    simp at h

theorem float_impl {ops : FloatOps F} (hlaw : Lawful ops) (o : DecOpts) (old : Val F) :
    Impl env (floatDecoder ops o old) (FloatRel ops o old) where
  sound := by
    intro l v r h
    unfold floatDecoder at h
    simp only [runs_bind, runs_token_or] at h
    obtain ⟨c, l1, ⟨h1, rfl⟩ | ⟨hc, h1, l', rfl⟩, h2⟩ := h
    · rw [if_pos rfl, runs_nullThen] at h2
      obtain ⟨rfl, rfl⟩ := h2
      obtain ⟨w, hw, _, rfl⟩ := dropWs_eq_cons.mp h1
      exact ⟨w, nullText, hw, rfl, .inl ⟨rfl, rfl⟩⟩
    · rw [if_neg hc] at h2
      obtain ⟨w, hw, hcw, rfl⟩ := dropWs_eq_cons.mp h1
      simp only [runs_bind, runs_nextToken, runs_pure] at h2
      obtain ⟨d, l2, h3, f, _, h4, rfl, rfl⟩ := h2
      have hd : dropWs (c :: l') = c :: l' := dropWs_eq_cons.mpr ⟨[], ws_nil, hcw, rfl⟩
      rw [hd] at h3
      cases h3
      obtain ⟨t, h5, h6, h7, h8, h9⟩ := (runs_readFloat hlaw (readFloat_start h4)).mp h4
      exact ⟨w, t, hw, by rw [h5], .inr ⟨f, h6, h9, rfl⟩⟩
  complete := by
    rintro l t v r h ⟨w, hw, rfl, he⟩
    unfold floatDecoder
    simp only [runs_bind, runs_token_or]
    rcases h with ⟨rfl, rfl⟩ | ⟨f, hn, hlit, rfl⟩
    · exact ⟨0x6E, ull ++ r, .inl ⟨dropWs_ws hw (by decide) _, rfl⟩, runs_nullThen.mpr ⟨rfl, rfl⟩⟩
    · obtain ⟨h1, h2⟩ := he hn
      obtain ⟨c, u, rfl, hc⟩ := numberStart_head hn
      obtain ⟨h3, h4, h5⟩ := number_not_n c hc
      refine ⟨c, c :: (u ++ r), .inr ⟨h3, by simpa using dropWs_ws hw h4 _, _, rfl⟩, ?_⟩
      rw [if_neg h3]
      simp only [runs_bind, runs_nextToken, runs_pure]
      exact ⟨c, u ++ r, dropWs_ws (w := []) ws_nil h4 _, f, r, (runs_readFloat hlaw hc).mpr ⟨c :: u, rfl, hn, h1, h2, hlit⟩, rfl, rfl⟩
  head := by
    rintro t v (⟨rfl, rfl⟩ | ⟨f, hn, _⟩)
    · exact null_headed
    · exact number_headed hn


theorem number_quoted {u : List Byte} (h : Number u) (r : List Byte) : Final u (0x22 :: r) :=
  final_of_notNext h (notNext_cons.mpr (delim_notNum (.inl (by unfold Delim; simp))))

/-- The integers of a type. -/
structure LitImpl (env : Env) (read : Byte → Prog Int) (lit : List Byte → Int → Prop) : Prop where
  sound : ∀ {c l z r}, Runs (read c) env l z r → ∃ t, c :: l = t ++ r ∧ lit t z
  complete : ∀ {c l t z r}, lit t z → c :: l = t ++ r → Final t r → EndOk env r → Runs (read c) env l z r
  number : ∀ {t z}, lit t z → Number t

theorem int_impl {read : Byte → Prog Int} {lit : List Byte → Int → Prop} (h : LitImpl env read lit) (o : DecOpts) (old : Val F) :
    Impl env (intDecoder read o old) (IntRel lit o old) where
  sound := by
    intro l v r hr
    unfold intDecoder at hr
    simp only [runs_bind, runs_token'] at hr
    obtain ⟨c, _, ⟨w, l', hw, hc, rfl, h1⟩, h2⟩ := hr
    by_cases hn : c = 0x6E
    · subst hn
      simp at h1
      subst h1
      rw [if_pos rfl, runs_nullThen] at h2
      obtain ⟨rfl, rfl⟩ := h2
      exact ⟨w, nullText, hw, rfl, .inl ⟨rfl, rfl⟩⟩
    rw [if_neg hn] at h2
    cases hq : (o.quoted || o.mapKey) with
    | false =>
      simp [hn, hq] at h1 h2
      subst h1
      simp only [runs_bind, runs_pure] at h2
      obtain ⟨z, _, h3, rfl, rfl⟩ := h2
      obtain ⟨t, h4, h5⟩ := h.sound h3
      exact ⟨w, t, hw, by rw [h4], .inr ⟨t, z, h5, rfl, by simp [hq]⟩⟩
    | true =>
      simp [hn, hq] at h1 h2
      by_cases hc' : c = 0x22
      · simp [hc'] at h1
        subst h1; subst hc'
        simp only [runs_bind, runs_pure, runs_byte] at h2
        obtain ⟨d, l1, h3, z, l2, h4, e, l3, ⟨l4, rfl, h5⟩, rfl, rfl⟩ := h2
        obtain ⟨l5, rfl, h3⟩ := h3
        simp at h3
        subst h3
        obtain ⟨t, h6, h7⟩ := h.sound h4
        have he : e = 0x22 ∧ r = l4 := by
          by_cases he : e = 0x22
          · simp [he] at h5; exact ⟨he, h5⟩
          · simp [he] at h5
        obtain ⟨rfl, rfl⟩ := he
        exact ⟨w, inQuotes t, hw, by rw [h6]; simp [inQuotes], .inr ⟨t, z, h7, rfl, by simp [hq]⟩⟩
      · simp [hc'] at h1
  complete := by
    rintro l t v r hp ⟨w, hw, rfl, he⟩
    unfold intDecoder
    simp only [runs_bind, runs_token']
    rcases hp with ⟨rfl, rfl⟩ | ⟨u, z, hl, rfl, ht⟩
    · exact ⟨0x6E, ull ++ r, ⟨w, ull ++ r, hw, by decide, rfl, by simp⟩, runs_nullThen.mpr ⟨rfl, rfl⟩⟩
    have hnum := h.number hl
    obtain ⟨c, u', hu, hc⟩ := numberStart_head hnum
    obtain ⟨hc1, hc2, hc3⟩ := number_not_n c hc
    cases hq : (o.quoted || o.mapKey) with
    | false =>
      simp [hq] at ht
      subst ht
      obtain ⟨h1, h2⟩ := he hnum
      subst hu
      refine ⟨c, u' ++ r, ⟨w, u' ++ r, hw, hc2, by simp, .inl ⟨by simp [hc1], rfl⟩⟩, ?_⟩
      rw [if_neg hc1]
      simp only [Bool.false_eq_true, if_false, runs_bind, runs_pure]
      exact ⟨z, r, h.complete hl rfl h1 h2, rfl, rfl⟩
    | true =>
      simp [hq] at ht
      subst ht
      subst hu
      refine ⟨0x22, c :: (u' ++ 0x22 :: r), ⟨w, c :: (u' ++ 0x22 :: r), hw, by decide, by simp [inQuotes], .inl ⟨by simp, rfl⟩⟩, ?_⟩
      rw [if_neg (by decide)]
      simp only [if_true, runs_bind, runs_pure, runs_byte]
      refine ⟨c, u' ++ 0x22 :: r, ⟨_, rfl, .inl ⟨trivial, rfl⟩⟩, z, 0x22 :: r,
        h.complete hl rfl (number_quoted hnum _) endOk_cons, 0x22, r, ⟨r, rfl, .inl ⟨by simp, rfl⟩⟩, rfl, rfl⟩
  head := by
    rintro t v (⟨rfl, rfl⟩ | ⟨u, z, hl, rfl, ht⟩)
    · exact null_headed
    · split at ht
      · subst ht; exact quote_headed
      · subst ht; exact number_headed (h.number hl)

theorem number_impl (o : DecOpts) (old : Val F) : Impl env (jsonNumberDecoder o old) (NumberRel o old) where
  sound := by
    intro l v r hr
    unfold jsonNumberDecoder at hr
    simp only [runs_bind, runs_token'] at hr
    obtain ⟨c, _, ⟨w, l', hw, hc, rfl, h1⟩, h2⟩ := hr
    have cls : ∀ c : Byte, (valueTypeOf c = .string → c = 0x22) ∧ (valueTypeOf c = .null → c = 0x6E) ∧
      (valueTypeOf c = .number → isNumberStart c = true) := by apply forall_byte; decide +kernel
    by_cases hs : valueTypeOf c = .string
    · simp [hs] at h1 h2
      subst h1
      obtain rfl := (cls c).1 hs
      simp only [runs_bind, runs_pure, runs_byte] at h2
      obtain ⟨d, l1, ⟨l2, rfl, h3⟩, u, l3, h4, e, l4, ⟨l5, rfl, h5⟩, rfl, rfl⟩ := h2
      have hd : valueTypeOf d = .number ∧ l1 = l2 := by
        by_cases hd : valueTypeOf d = .number
        · simp [hd] at h3; exact ⟨hd, h3⟩
        · simp [hd] at h3
      obtain ⟨hd, rfl⟩ := hd
      have he : e = 0x22 ∧ r = l5 := by
        by_cases he : e = 0x22
        · simp [he] at h5; exact ⟨he, h5⟩
        · simp [he] at h5
      obtain ⟨rfl, rfl⟩ := he
      obtain ⟨h6, h7, _⟩ := (runs_readNumberAsString ((cls d).2.2 hd)).mp h4
      exact ⟨w, inQuotes u, hw, by rw [h6]; simp [inQuotes], .inr ⟨u, h7, .inr rfl, rfl⟩⟩
    · rw [if_neg hs] at h2
      by_cases hn : valueTypeOf c = .null
      · simp [hn] at h1
        subst h1
        obtain rfl := (cls c).2.1 hn
        rw [if_pos hn, runs_nullThen] at h2
        obtain ⟨rfl, rfl⟩ := h2
        exact ⟨w, nullText, hw, rfl, .inl ⟨rfl, rfl⟩⟩
      · rw [if_neg hn] at h2
        by_cases hm : valueTypeOf c = .number
        · simp [hm] at h1
          subst h1
          simp only [runs_bind, runs_pure] at h2
          obtain ⟨u, _, h3, rfl, rfl⟩ := h2
          obtain ⟨h6, h7, _⟩ := (runs_readNumberAsString ((cls c).2.2 hm)).mp h3
          exact ⟨w, u, hw, by rw [h6], .inr ⟨u, h7, .inl rfl, rfl⟩⟩
        · simp [hs, hn, hm] at h1
  complete := by
    rintro l t v r hp ⟨w, hw, rfl, he⟩
    have cls : ∀ c : Byte, isNumberStart c = true → valueTypeOf c = .number := by apply forall_byte; decide +kernel
    unfold jsonNumberDecoder
    simp only [runs_bind, runs_token']
    rcases hp with ⟨rfl, rfl⟩ | ⟨u, hn, ht, rfl⟩
    · refine ⟨0x6E, ull ++ r, ⟨w, ull ++ r, hw, by decide, rfl, .inl ⟨by decide, rfl⟩⟩, ?_⟩
      rw [if_neg (by decide), if_pos (by decide)]
      exact runs_nullThen.mpr ⟨rfl, rfl⟩
    · obtain ⟨c, u', rfl, hc⟩ := numberStart_head hn
      obtain ⟨hc1, hc2, hc3⟩ := number_not_n c hc
      have hcn := cls c hc
      rcases ht with rfl | rfl
      · obtain ⟨h1, h2⟩ := he hn
        refine ⟨c, u' ++ r, ⟨w, u' ++ r, hw, hc2, by simp, .inl ⟨by simp [hcn], rfl⟩⟩, ?_⟩
        rw [if_neg (by simp [hcn]), if_neg (by simp [hcn])]
        simp only [runs_bind, runs_pure]
        exact ⟨_, r, (runs_readNumberAsString hc).mpr ⟨rfl, hn, h1, h2⟩, rfl, rfl⟩
      · refine ⟨0x22, c :: (u' ++ 0x22 :: r), ⟨w, c :: (u' ++ 0x22 :: r), hw, by decide, by simp [inQuotes], .inl ⟨by decide, rfl⟩⟩, ?_⟩
        rw [if_pos (by decide)]
        simp only [runs_bind, runs_pure, runs_byte]
        exact ⟨c, u' ++ 0x22 :: r, ⟨_, rfl, .inl ⟨by simp [hcn], rfl⟩⟩, c :: u', 0x22 :: r,
          (runs_readNumberAsString hc).mpr ⟨rfl, hn, number_quoted hn _, endOk_cons⟩, 0x22, r, ⟨r, rfl, .inl ⟨by simp, rfl⟩⟩, rfl, rfl⟩
  head := by
    rintro t v (⟨rfl, rfl⟩ | ⟨u, hn, rfl | rfl, rfl⟩)
    · exact null_headed
    · exact number_headed hn
    · exact quote_headed


/-! ## The integer types -/

/-- What a successful unsigned reader has read. -/
def UintSound (w : Nat) (p : Byte → Prog (BitVec w)) : Prop :=
  ∀ {env : Env} {c : Byte} {l r : List Byte} {v : BitVec w}, Runs (p c) env l v r →
    ∃ t, c :: l = t ++ r ∧ IntPart t ∧ v.toNat = dec t

theorem UintOk.uintSound {w : Nat} {p : Byte → Prog (BitVec w)} (h : UintOk w p) : UintSound w p := by
  intro env c l r v hr
  obtain ⟨t, h1, h2, h3, rfl⟩ := (h.ok env c l v r).mp hr
  exact ⟨t, h1, h2.1, by rw [BitVec.toNat_ofNat, Nat.mod_eq_of_lt h3]⟩

theorem uint8Sound : UintSound 8 readUint8 := by
  intro env c l r v hr
  obtain ⟨t, h1, h2, _, h4⟩ := readUint8_sound hr
  exact ⟨t, h1, h2, h4⟩

theorem intPart_number {t : List Byte} (h : IntPart t) : Number t := .inl ⟨t, [], [], by simp, h, .none, .none⟩

theorem signed_number {s t : List Byte} {z : Int} (h : Signed s t z) (ht : IntPart t) : Number s := by
  cases h with
  | pos => exact intPart_number ht
  | neg => exact .inr ⟨t, rfl, t, [], [], by simp, ht, .none, .none⟩

theorem intAt_of_final {t r : List Byte} (h : IntPart t) (hf : Final t r) (he : EndOk env r) : IntAt env.endErr t r := by
  refine ⟨h, fun h0 => ⟨?_, he⟩⟩
  rintro c r' rfl hd
  cases h with
  | zero => exact h0 rfl
  | pos d ds hd1 hds =>
    refine hf c r' rfl [] (intPart_number (.pos d (ds ++ [c]) hd1 ?_))
    intro x hx
    rcases List.mem_append.mp hx with hx | hx
    · exact hds x hx
    · simp at hx; subst hx; exact hd

theorem uint_lit {w : Nat} {P : List Byte → Prop} {p : Byte → Prog (BitVec w)} (hs : UintSound w p) (hg : UintGood w P p)
    (hP : ∀ t, IntPart t → dec t < 2 ^ w → P t) :
    LitImpl env (fun c => do pure ((← p c).toNat : Int)) (UintLit w) where
  sound := by
    intro c l z r h
    simp only [runs_bind, runs_pure] at h
    obtain ⟨v, _, h1, rfl, rfl⟩ := h
    obtain ⟨t, h2, h3, h4⟩ := hs h1
    exact ⟨t, h2, h3, by rw [← h4]; exact v.isLt, by rw [h4]⟩
  complete := by
    rintro c l t z r ⟨h1, h2, rfl⟩ h3 h4 h5
    simp only [runs_bind, runs_pure]
    exact ⟨_, r, hg.ok env c l t r h3 (intAt_of_final h1 h4 h5) (hP t h1 h2) h2, by
      rw [BitVec.toNat_ofNat, Nat.mod_eq_of_lt h2], rfl⟩
  number := fun h => intPart_number h.1

theorem toInt_ofInt_fits {w : Nat} (hw : 1 ≤ w) {z : Int} (h : Fits w z) : (BitVec.ofInt w z).toInt = z := by
  obtain ⟨h1, h2⟩ := h
  exact BitVec.toInt_ofInt_eq_self (by omega) h1 h2

theorem int_lit {w : Nat} (hw : 1 ≤ w) {typ : List Byte} {P : List Byte → Prop} {p : Byte → Prog (BitVec w)} (hs : UintSound w p)
    (hg : UintGood w P p) (hP : ∀ t, IntPart t → dec t < 2 ^ w → P t) :
    LitImpl env (fun c => do pure (← readInt w typ p c).toInt) (IntLit w) where
  sound := by
    have hpow : 2 ^ w = 2 * 2 ^ (w - 1) := by
      rw [← Nat.pow_succ', Nat.succ_eq_add_one, Nat.sub_add_cancel hw]
    have hpos : 0 < 2 ^ (w - 1) := Nat.two_pow_pos _
    have hcast : ((2 ^ (w - 1) : Nat) : Int) = (2 : Int) ^ (w - 1) := by simp
    intro c l z r h
    simp only [runs_bind, runs_pure] at h
    obtain ⟨v, _, hr, rfl, rfl⟩ := h
    unfold readInt at hr
    split at hr
    · rename_i hc
      subst hc
      simp only [runs_bind, runs_nextByteTake] at hr
      obtain ⟨d, l1, rfl, v1, l2, h1, h2⟩ := hr
      obtain ⟨t, a, b, hv⟩ := hs h1
      split at h2
      · simp at h2
      · rename_i h3
        obtain ⟨rfl, rfl⟩ := runs_pure.mp h2
        have hfit : Fits w (-(dec t : Int)) := by unfold Fits; rw [← hcast]; omega
        refine ⟨0x2D :: t, by rw [a]; rfl, t, ?_, b, ?_⟩
        · have e : -v1 = BitVec.ofInt w (-(dec t : Int)) := by
            rw [← neg_ofNat, ← hv, BitVec.ofNat_toNat, BitVec.setWidth_eq]
          rw [e, toInt_ofInt_fits hw hfit]
          exact .neg t
        · have e : -v1 = BitVec.ofInt w (-(dec t : Int)) := by
            rw [← neg_ofNat, ← hv, BitVec.ofNat_toNat, BitVec.setWidth_eq]
          rw [e, toInt_ofInt_fits hw hfit]
          exact hfit
    · simp only [runs_bind] at hr
      obtain ⟨v1, l2, h1, h2⟩ := hr
      obtain ⟨t, a, b, hv⟩ := hs h1
      split at h2
      · simp at h2
      · rename_i h3
        obtain ⟨rfl, rfl⟩ := runs_pure.mp h2
        have hfit : Fits w (dec t : Int) := by unfold Fits; rw [← hcast]; omega
        have e : v = BitVec.ofInt w (dec t : Int) := by
          rw [BitVec.ofInt_natCast, ← hv, BitVec.ofNat_toNat, BitVec.setWidth_eq]
        refine ⟨t, a, t, ?_, b, ?_⟩
        · rw [e, toInt_ofInt_fits hw hfit]; exact .pos t
        · rw [e, toInt_ofInt_fits hw hfit]; exact hfit
  complete := by
    rintro c l s z r ⟨t, h1, h2, h3⟩ h4 h5 h6
    simp only [runs_bind, runs_pure]
    have hpow : 2 ^ w = 2 * 2 ^ (w - 1) := by
      rw [← Nat.pow_succ', Nat.succ_eq_add_one, Nat.sub_add_cancel hw]
    have hpos : 0 < 2 ^ (w - 1) := Nat.two_pow_pos _
    have hcast : ((2 ^ (w - 1) : Nat) : Int) = (2 : Int) ^ (w - 1) := by simp
    have hlt : dec t < 2 ^ w := by
      have h3' := h3
      unfold Fits at h3'
      rw [← hcast] at h3'
      cases h1 <;> omega
    have hf : Final t r := by
      cases h1 with
      | pos => exact h5
      | neg =>
        intro c' r' hr' s hn
        refine h5 c' r' hr' s ?_
        rcases hn with hn | ⟨u, hu, hn⟩
        · exact .inr ⟨_, rfl, hn⟩
        · cases h2 with
          | zero => cases hu
          | pos d ds hd _ => cases hu; exact absurd hd.1 (by decide)
    exact ⟨_, r, (readInt_good hw hg h4 h1 (intAt_of_final h2 hf h6) (hP t h2 hlt)).1 h3, (toInt_ofInt_fits hw h3).symm, rfl⟩
  number := fun ⟨_, h1, h2, _⟩ => signed_number h1 h2

theorem short_of_lt {t : List Byte} (h : IntPart t) (hl : dec t < 2 ^ 8) : Short t := by
  cases h with
  | zero => simp [Short]
  | pos d ds hd _ =>
    rcases ds with _ | ⟨a, _ | ⟨b, _ | ⟨c, ds⟩⟩⟩
    · simp [Short]
    · simp [Short]
    · simp [Short]
    · exfalso
      have h1 : 1 ≤ d.toNat - 0x30 := by
        have : 0x31 ≤ d.toNat := hd.1
        omega
      have h2 : decFrom 0 (d :: a :: b :: c :: ds) < 2 ^ 8 := hl
      simp only [decFrom_cons] at h2
      have := decFrom_ge ((((0 * 10 + (d.toNat - 48)) * 10 + (a.toNat - 48)) * 10 + (b.toNat - 48)) * 10 + (c.toNat - 48)) ds
      omega

theorem readIntOf_lit (w : Width) : LitImpl env (readIntOf w) (IntLit w.bits) := by
  cases w with
  | w8 => exact int_lit (by decide) uint8Sound readUint8_good fun t h => short_of_lt h
  | w16 => exact int_lit (by decide) readUint16_ok.uintSound readUint16_ok.good fun _ _ _ => trivial
  | w32 => exact int_lit (by decide) readUint32_ok.uintSound readUint32_ok.good fun _ _ _ => trivial
  | w64 => exact int_lit (by decide) readUint64_ok.uintSound readUint64_ok.good fun _ _ _ => trivial

theorem readUintOf_lit (w : Width) : LitImpl env (readUintOf w) (UintLit w.bits) := by
  cases w with
  | w8 => exact uint_lit uint8Sound readUint8_good fun t h => short_of_lt h
  | w16 => exact uint_lit readUint16_ok.uintSound readUint16_ok.good fun _ _ _ => trivial
  | w32 => exact uint_lit readUint32_ok.uintSound readUint32_ok.good fun _ _ _ => trivial
  | w64 => exact uint_lit readUint64_ok.uintSound readUint64_ok.good fun _ _ _ => trivial

end

end Jzon
