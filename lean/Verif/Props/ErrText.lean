import Verif.Spec.ErrText
import Verif.Proof.ErrText
import Verif.Props.Int
import Verif.Props.TypedSafe
import Verif.Props.Report

/-!
# C71 and C72: the texts of errors
-/

set_option linter.unusedSimpArgs false

namespace Jzon.Props

open Spec Jzon

/-! ## C71 -/

/-- Beginnings of the texts, none of which is the beginning of another one. -/
def textHead : Nat → List Byte
  | 0 => bs! "EOF"
  | 1 => bs! "expecting E"
  | 2 => bs! "the receiver is no"
  | 3 => bs! "the receiver is ni"
  | 4 => bs! "cannot unmarshal on e"
  | 5 => bs! "cannot unmarshal on n"
  | 6 => bs! "ef"
  | 7 => bs! "invalid c"
  | 8 => bs! "invalid e"
  | 9 => bs! "invalid u"
  | 10 => bs! "une"
  | 11 => bs! "expecting '"
  | 12 => bs! "o"
  | 13 => bs! "invalid d"
  | 14 => bs! "invalid f"
  | 15 => bs! "unk"
  | 16 => bs! "b"
  | _ => []

def textKind : Err → Nat
  | .eof => 0
  | .dataRemained => 1
  | .pointerReceiver => 2
  | .nilPointerReceiver => 3
  | .emptyIFace => 4
  | .nilEmbeddedPointer => 5
  | .efaceLooping => 6
  | .invalidStringChar _ => 7
  | .invalidEscapeChar _ => 8
  | .invalidUnicodeChar _ => 9
  | .unexpectedByte _ exp _ => if exp = 0 then 10 else 11
  | .intOverflow _ _ => 12
  | .invalidDigit _ => 13
  | .invalidFloat _ => 14
  | .unknownField _ => 15
  | .badQuotedString _ => 16
  | .typeNotSupported | .io _ | .custom _ | .panic | .hang => 0

theorem textHead_prefix {pr : Nat → Bool} {x : Err} {t : List Byte} (h : errText pr x = some t) : textHead (textKind x) <+: t := by
  cases x
  case unexpectedByte got exp exp2 =>
    simp only [errText] at h
    by_cases h0 : exp = 0
    · rw [if_pos h0] at h
      cases h
      rw [textKind, if_pos h0]
      exact ⟨_, rfl⟩
    · rw [if_neg h0] at h
      rw [textKind, if_neg h0]
      split at h <;> (cases h; exact ⟨_, rfl⟩)
  all_goals first
    | (cases h; exact ⟨_, rfl⟩)
    | cases h

theorem textHead_apart : ∀ i < 17, ∀ j < 17, textHead i <+: textHead j → i = j := by decide +kernel

theorem textKind_lt (x : Err) : textKind x < 17 := by
  cases x <;> simp only [textKind] <;> repeat' split
  all_goals decide

theorem textKind_eq {pr : Nat → Bool} {x y : Err} {t u X Y : List Byte} (hx : errText pr x = some t) (hy : errText pr y = some u)
    (h : t ++ X = u ++ Y) : textKind x = textKind y := by
  have h1 := (textHead_prefix hx).trans (List.prefix_append t X)
  have h2 := (textHead_prefix hy).trans (List.prefix_append u Y)
  rw [← h] at h2
  rcases List.prefix_or_prefix_of_prefix h1 h2 with h | h
  · exact textHead_apart _ (textKind_lt x) _ (textKind_lt y) h
  · exact (textHead_apart _ (textKind_lt y) _ (textKind_lt x) h).symm

theorem split_at {c : Byte} {a b X Y : List Byte} (ha : c ∉ a) (hb : c ∉ b) (h : a ++ c :: X = b ++ c :: Y) : a = b ∧ X = Y := by
  induction a generalizing b with
  | nil =>
    cases b with
    | nil => simpa using h
    | cons d b => simp at h hb; exact absurd h.1 hb.1
  | cons c' a ih =>
    cases b with
    | nil => simp at h ha; exact absurd h.1.symm ha.1
    | cons d b =>
      simp only [List.cons_append, List.cons.injEq] at h
      obtain ⟨h1, h2⟩ := ih (fun hm => ha (List.mem_cons_of_mem _ hm)) (fun hm => hb (List.mem_cons_of_mem _ hm)) h.2
      exact ⟨by rw [h.1, h1], h2⟩

theorem decimal_inj {a b : Nat} (h : decimal a = decimal b) : a = b := by
  rw [← (decimal_spec a).2.1, h, (decimal_spec b).2.1]

theorem decimal_head (n : Nat) : ∃ c s, decimal n = c :: s ∧ c ≠ 0x2D := by
  cases h : decimal n with
  | nil => have := (decimal_spec n).1; rw [h] at this; cases this
  | cons c s =>
    refine ⟨c, s, rfl, ?_⟩
    have := (decimal_spec n).1
    rw [h] at this
    rintro rfl
    cases this with
    | pos _ _ hd _ => exact absurd hd.1 (by decide)

theorem decimalInt_inj {a b : Int} (h : decimalInt a = decimalInt b) : a = b := by
  unfold decimalInt at h
  obtain ⟨c, s, h1, h2⟩ := decimal_head a.natAbs
  obtain ⟨d, u, h3, h4⟩ := decimal_head b.natAbs
  split at h <;> split at h
  · simp only [List.cons.injEq, true_and] at h
    have := decimal_inj h
    omega
  · rw [h3] at h; simp at h; exact absurd h.1.symm h4
  · rw [h1] at h; simp at h; exact absurd h.1 h2
  · have := decimal_inj h
    omega

theorem decimalInt_ne (a : Int) : decimalInt a ≠ [] := by
  unfold decimalInt
  obtain ⟨c, s, h1, h2⟩ := decimal_head a.natAbs
  split
  · simp
  · rw [h1]; simp

theorem overflowValue_inj {a b : Option Int} (h : overflowValue a = overflowValue b) : a = b := by
  cases a with
  | none =>
    cases b with
    | none => rfl
    | some b => rw [overflowValue_some] at h; exact absurd h.symm (decimalInt_ne b)
  | some a =>
    cases b with
    | none => rw [overflowValue_some] at h; exact absurd h (decimalInt_ne a)
    | some b => rw [overflowValue_some, overflowValue_some] at h; rw [decimalInt_inj h]

theorem no_colon {typ : List Byte} {v : Option Int} (h : FromPackage (.intOverflow typ v)) : (0x3A : Byte) ∉ typ := by
  have : ∀ t ∈ [[], bs! "int8", bs! "int16", bs! "int32", bs! "int64"], (0x3A : Byte) ∉ t := by decide
  exact this typ h

theorem hex_no_space (k n : Nat) : (0x20 : Byte) ∉ hexDigits k n := by
  induction k generalizing n with
  | zero => simp [hexDigits]
  | succ k ih =>
    intro h
    rcases List.mem_append.mp h with h | h
    · exact ih _ h
    · have : ∀ n : _root_.Fin 16, lowerHex n.val ≠ 0x20 := by decide +kernel
      exact this ⟨n % 16, Nat.mod_lt _ (by decide)⟩ (List.mem_singleton.mp h).symm

theorem fmtX_no_space (c : Byte) : (0x20 : Byte) ∉ fmtX c := by
  unfold fmtX
  split <;> exact hex_no_space _ _

theorem decimal_no_space (n : Nat) : (0x20 : Byte) ∉ decimal n := by
  have h := (decimal_spec n).1
  intro hc
  generalize decimal n = t at h hc
  cases h with
  | zero => simp at hc
  | pos d ds hd hds =>
    rcases List.mem_cons.mp hc with rfl | hc
    · exact absurd hd.1 (by decide)
    · exact absurd (hds _ hc).1 (by decide)

theorem value_no_space (v : Option Int) : (0x20 : Byte) ∉ overflowValue v := by
  cases v with
  | none => simp [overflowValue]
  | some z =>
    rw [overflowValue_some]
    unfold decimalInt
    split
    · intro h
      rcases List.mem_cons.mp h with h | h
      · exact absurd h (by decide)
      · exact decimal_no_space _ h
    · exact decimal_no_space _

theorem fmtX_split {a b : Byte} {X Y : List Byte} (h : fmtX a ++ (bs! " found" ++ X) = fmtX b ++ (bs! " found" ++ Y)) : a = b ∧ X = Y := by
  obtain ⟨h1, h2⟩ := split_at (X := bs! "found" ++ X) (Y := bs! "found" ++ Y) (fmtX_no_space a) (fmtX_no_space b) h
  exact ⟨fmtX_inj _ _ h1, List.append_cancel_left h2⟩

theorem unexpected_inj {pr : Nat → Bool} {g e f g' e' f' : Byte} {t u X Y : List Byte} (hx : errText pr (.unexpectedByte g e f) = some t)
    (hy : errText pr (.unexpectedByte g' e' f') = some u) (h : t ++ X = u ++ Y) (px : FromPackage (.unexpectedByte g e f))
    (py : FromPackage (.unexpectedByte g' e' f')) : Err.unexpectedByte g e f = .unexpectedByte g' e' f' ∧ X = Y := by
  have hk := textKind_eq hx hy h
  simp only [errText] at hx hy
  simp only [FromPackage] at px py
  simp only [textKind] at hk
  by_cases h0 : e = 0
  · by_cases h0' : e' = 0
    · rw [if_pos h0] at hx
      rw [if_pos h0'] at hy
      cases hx
      cases hy
      simp only [List.append_assoc, List.append_cancel_left_eq] at h
      obtain ⟨h1, h2⟩ := fmtQByte_inj h
      exact ⟨by rw [h1, h0, h0', px h0, py h0'], h2⟩
    · rw [if_pos h0, if_neg h0'] at hk
      exact absurd hk (by decide)
  · by_cases h0' : e' = 0
    · rw [if_neg h0, if_pos h0'] at hk
      exact absurd hk (by decide)
    · rw [if_neg h0] at hx
      rw [if_neg h0'] at hy
      by_cases h1 : f = 0
      · rw [if_pos h1] at hx
        cases hx
        by_cases h1' : f' = 0
        · rw [if_pos h1'] at hy
          cases hy
          simp only [List.append_assoc, List.append_cancel_left_eq] at h
          obtain ⟨h2, h3⟩ := fmtQByte_inj h
          rw [List.append_cancel_left_eq] at h3
          obtain ⟨h4, h5⟩ := fmtQByte_inj h3
          exact ⟨by rw [h2, h4, h1, h1'], h5⟩
        · rw [if_neg h1'] at hy
          cases hy
          simp only [List.append_assoc, List.append_cancel_left_eq] at h
          obtain ⟨h2, h3⟩ := fmtQByte_inj h
          exact absurd (List.cons.inj (List.cons.inj h3).2).1 (by decide)
      · rw [if_neg h1] at hx
        cases hx
        by_cases h1' : f' = 0
        · rw [if_pos h1'] at hy
          cases hy
          simp only [List.append_assoc, List.append_cancel_left_eq] at h
          obtain ⟨h2, h3⟩ := fmtQByte_inj h
          exact absurd (List.cons.inj (List.cons.inj h3).2).1 (by decide)
        · rw [if_neg h1'] at hy
          cases hy
          simp only [List.append_assoc, List.append_cancel_left_eq] at h
          obtain ⟨h2, h3⟩ := fmtQByte_inj h
          rw [List.append_cancel_left_eq] at h3
          obtain ⟨h4, h5⟩ := fmtQByte_inj h3
          rw [List.append_cancel_left_eq] at h5
          obtain ⟨h6, h7⟩ := fmtQByte_inj h5
          exact ⟨by rw [h2, h4, h6], h7⟩

/-- The text of an error can be told from what follows it behind a space. -/
theorem text_split (pr : Nat → Bool) {x y : Err} {t u X Y : List Byte} (hx : errText pr x = some t) (hy : errText pr y = some u)
    (h : t ++ 0x20 :: X = u ++ 0x20 :: Y) (px : FromPackage x) (py : FromPackage y) : x = y ∧ X = Y := by
  have hk := textKind_eq hx hy h
  cases x <;> cases y <;>
    first
    | (cases hx; done)
    | (cases hy; done)
    | (exfalso; revert hk; simp only [textKind]; decide)
    | (exfalso; revert hk; simp only [textKind]; split <;> decide)
    | (cases hx; cases hy; exact ⟨rfl, (List.cons.inj (List.append_cancel_left h)).2⟩)
    | skip
  case invalidStringChar.invalidStringChar a b =>
    cases hx
    cases hy
    simp only [List.append_assoc, List.append_cancel_left_eq] at h
    obtain ⟨h1, h2⟩ := fmtX_split h
    exact ⟨by rw [h1], (List.cons.inj h2).2⟩
  case invalidEscapeChar.invalidEscapeChar a b =>
    cases hx
    cases hy
    simp only [List.append_assoc, List.append_cancel_left_eq] at h
    obtain ⟨h1, h2⟩ := fmtX_split h
    exact ⟨by rw [h1], (List.cons.inj h2).2⟩
  case invalidUnicodeChar.invalidUnicodeChar a b =>
    cases hx
    cases hy
    simp only [List.append_assoc, List.append_cancel_left_eq] at h
    obtain ⟨h1, h2⟩ := fmtX_split h
    exact ⟨by rw [h1], (List.cons.inj h2).2⟩
  case unexpectedByte.unexpectedByte g e f g' e' f' =>
    obtain ⟨h1, h2⟩ := unexpected_inj hx hy h px py
    exact ⟨h1, (List.cons.inj h2).2⟩
  case intOverflow.intOverflow a v b w =>
    cases hx
    cases hy
    simp only [List.append_assoc, List.append_cancel_left_eq] at h
    obtain ⟨h1, h2⟩ := split_at (X := 0x20 :: (overflowValue v ++ 0x20 :: X)) (Y := 0x20 :: (overflowValue w ++ 0x20 :: Y))
      (no_colon px) (no_colon py) h
    obtain ⟨h3, h4⟩ := split_at (value_no_space v) (value_no_space w) (List.cons.inj h2).2
    exact ⟨by rw [h1, overflowValue_inj h3], h4⟩
  case invalidDigit.invalidDigit a b =>
    cases hx
    cases hy
    simp only [List.append_assoc, List.append_cancel_left_eq] at h
    obtain ⟨h1, h2⟩ := fmtQByte_inj h
    exact ⟨by rw [h1], (List.cons.inj h2).2⟩
  case invalidFloat.invalidFloat a b =>
    cases hx
    cases hy
    simp only [List.append_assoc, List.append_cancel_left_eq] at h
    obtain ⟨h1, h2⟩ := fmtQByte_inj h
    exact ⟨by rw [h1], (List.cons.inj h2).2⟩
  case unknownField.unknownField a b =>
    cases hx
    cases hy
    simp only [List.append_assoc, List.append_cancel_left_eq] at h
    obtain ⟨h1, h2⟩ := fmtQ_inj h
    exact ⟨by rw [h1], (List.cons.inj h2).2⟩
  case badQuotedString.badQuotedString a b =>
    cases hx
    cases hy
    simp only [List.append_assoc, List.append_cancel_left_eq] at h
    obtain ⟨h1, h2⟩ := fmtQ_inj h
    exact ⟨by rw [h1], (List.cons.inj h2).2⟩

/-- **C71**: the text of an error tells which error it is: whatever characters count as printable, different errors of the
package have different texts, down to the bytes, names, types and numbers they carry. -/
theorem C71_text (pr : Nat → Bool) {x y : Err} {t : List Byte} (hx : errText pr x = some t) (hy : errText pr y = some t)
    (px : FromPackage x) (py : FromPackage y) : x = y :=
  (text_split pr (X := []) (Y := []) hx hy rfl px py).1

/-- **C71** for the errors that the decoding calls return, with the location: the text tells error and location. -/
theorem C71_report (pr : Nat → Bool) {d d' : DecodeError} {t : List Byte} (hx : d.text pr = some t) (hy : d'.text pr = some t)
    (px : FromPackage d.reason) (py : FromPackage d'.reason) : d = d' := by
  obtain ⟨x, l⟩ := d
  obtain ⟨y, m⟩ := d'
  simp only [DecodeError.text, Option.map_eq_some_iff] at hx hy px py
  obtain ⟨u, hu, rfl⟩ := hx
  obtain ⟨w, hw, he⟩ := hy
  rw [List.append_cancel_right_eq, List.append_assoc, List.append_assoc] at he
  obtain ⟨h1, h2⟩ := text_split pr (X := bs! "(near " ++ m) (Y := bs! "(near " ++ l) hw hu he py px
  rw [h1, List.append_cancel_left h2]

theorem oneLine_append {a b : List Byte} (ha : OneLine a) (hb : OneLine b) : OneLine (a ++ b) := by
  intro c hc
  rcases List.mem_append.mp hc with hc | hc
  · exact ha c hc
  · exact hb c hc

instance (t : List Byte) : Decidable (OneLine t) := by unfold OneLine; infer_instance

theorem digits_shown : ∀ c : Byte, Digit c → 0x20 ≤ c ∧ c ≠ 0x7F := by
  apply forall_byte
  decide +kernel

theorem oneLine_decimal (n : Nat) : OneLine (decimal n) := by
  have h := (decimal_spec n).1
  intro c hc
  apply digits_shown
  generalize decimal n = t at h hc
  cases h with
  | zero => simp at hc; subst hc; decide
  | pos d ds hd hds =>
    rcases List.mem_cons.mp hc with rfl | hc
    · exact ⟨UInt8.le_trans (by decide) hd.1, hd.2⟩
    · exact hds c hc

theorem oneLine_overflowValue (v : Option Int) : OneLine (overflowValue v) := by
  cases v with
  | none => intro c hc; cases hc
  | some z =>
    rw [overflowValue_some]
    unfold decimalInt
    split
    · exact oneLine_append (a := [0x2D]) (by decide) (oneLine_decimal _)
    · exact oneLine_decimal _

/-- **C71**: the text of an error contains no control character of the input, provided that control characters do not count
as printable (`_partial`: the location that `DecodeError` adds is left out, see `C71_location_violated`). -/
theorem C71_one_line_partial {pr : Nat → Bool} (hp : ∀ r, r < 0x20 ∨ r = 0x7F → pr r = false) {x : Err} {t : List Byte}
    (hx : errText pr x = some t) (px : FromPackage x) : OneLine t := by
  have q (c : Byte) : OneLine (fmtQByte pr c) := shown_fmtQByte hp c
  have qs (s : List Byte) : OneLine (fmtQ pr s) := shown_fmtQ hp s
  have hex (c : Byte) : OneLine (fmtX c) := shown_fmtX c
  cases x
  case unexpectedByte got exp exp2 =>
    simp only [errText] at hx
    split at hx
    · cases hx; exact oneLine_append (by decide) (q _)
    · split at hx
      · cases hx; exact oneLine_append (oneLine_append (oneLine_append (by decide) (q _)) (by decide)) (q _)
      · cases hx
        exact oneLine_append (oneLine_append (oneLine_append (oneLine_append (oneLine_append (by decide) (q _)) (by decide)) (q _))
          (by decide)) (q _)
  case intOverflow typ v =>
    cases hx
    have : ∀ t ∈ [[], bs! "int8", bs! "int16", bs! "int32", bs! "int64"], OneLine t := by decide
    exact oneLine_append (oneLine_append (oneLine_append (by decide) (this _ px)) (by decide)) (oneLine_overflowValue v)
  case invalidStringChar c => cases hx; exact oneLine_append (oneLine_append (by decide) (hex _)) (by decide)
  case invalidEscapeChar c => cases hx; exact oneLine_append (oneLine_append (by decide) (hex _)) (by decide)
  case invalidUnicodeChar c => cases hx; exact oneLine_append (oneLine_append (by decide) (hex _)) (by decide)
  case invalidDigit c => cases hx; exact oneLine_append (by decide) (q _)
  case invalidFloat c => cases hx; exact oneLine_append (by decide) (q _)
  case unknownField c => cases hx; exact oneLine_append (by decide) (qs _)
  case badQuotedString c => cases hx; exact oneLine_append (by decide) (qs _)
  all_goals first
    | (cases hx; decide)
    | cases hx

/-- `x` is one of the errors that a program on an iterator can end with. -/
def EndsWith {α : Type} (p : Prog α) (x : Err) : Prop :=
  ∃ it l it', Unread it l .eof ∧ p.runM it = (.error x, it')

theorem filled_of_safe {α : Type} {p : Prog α} {x : Err} (h : ∀ (env : Env) (l : List Byte), ¬ Bad .filled env.endErr → Safe .filled p env l)
    (hx : EndsWith p x) : FromPackage x := by
  obtain ⟨it, l, it', hu, hm⟩ := hx
  have h1 := h it.env l (by rw [env_endErr hu]; simp [Bad]) _ (runM_error hu hm).1
  by_cases hf : FromPackage x
  · exact hf
  · exact absurd (.inr (.inr (.inr ⟨rfl, hf⟩))) h1

/-- **C71**: errors of `Skip` with the same text are the same. -/
theorem C71_skip (pr : Nat → Bool) {p1 p2 : Stack} {x y : Err} {t : List Byte} (hx : EndsWith (Skip p1) x) (hy : EndsWith (Skip p2) y)
    (tx : errText pr x = some t) (ty : errText pr y = some t) : x = y :=
  C71_text pr tx ty (filled_of_safe (fun _ _ h => safe_Skip h p1) hx) (filled_of_safe (fun _ _ h => safe_Skip h p2) hy)

/-- The functions that are given to the library neither panic nor loop, and the errors of the package they return, if any, have
fields as the package fills them in. -/
def OwnErrors {F : Type} (Γ : TyEnv F) (cfg : DecCfg F) : Prop :=
  (∀ t e, cfg.ops32.parse t = .error e → e ≠ .panic ∧ e ≠ .hang ∧ FromPackage e) ∧
  (∀ t e, cfg.ops64.parse t = .error e → e ≠ .panic ∧ e ≠ .hang ∧ FromPackage e) ∧
  (∀ t e, cfg.base64 t = .error e → e ≠ .panic ∧ e ≠ .hang ∧ FromPackage e) ∧
  (∀ i v t e, Γ.unmarshalJSON i v t = .error e → e ≠ .panic ∧ e ≠ .hang ∧ FromPackage e) ∧
  (∀ i v t e, Γ.unmarshalText i v t = .error e → e ≠ .panic ∧ e ≠ .hang ∧ FromPackage e)

theorem not_bad_own {e : Err} (h : e ≠ .panic ∧ e ≠ .hang ∧ FromPackage e) : ¬ Bad .filled e := by
  rintro (h1 | h1 | ⟨h1, _⟩ | ⟨_, h1⟩)
  · exact h.1 h1
  · exact h.2.1 h1
  · cases h1
  · exact h1 h.2.2

theorem tame_of_own {F : Type} {Γ : TyEnv F} {cfg : DecCfg F} (h : OwnErrors Γ cfg) : Tame .filled Γ cfg where
  ops32 t e he := not_bad_own (h.1 t e he)
  ops64 t e he := not_bad_own (h.2.1 t e he)
  base64 t e he := not_bad_own (h.2.2.1 t e he)
  json i v t e he := not_bad_own (h.2.2.2.1 i v t e he)
  text i v t e he := not_bad_own (h.2.2.2.2 i v t e he)

section
variable {F : Type} {Γ : TyEnv F} {cfg : DecCfg F} {same : Nat → Nat → Prop} {L : Nat → List Ty}

/-- **C71**: the errors of `Unmarshal` have fields as `C71_text` asks for. -/
theorem C71_filled (hl : TypeLaws Γ cfg same) (hd : Declared Γ L) (ho : OwnErrors Γ cfg) (pools : Pools) (it : It) {data : List Byte}
    {T : Ty} {old : Val F} (hold : HasTy Γ L T old) {x : Err} (h : Unmarshal Γ cfg pools it data T old = .error x) : FromPackage x := by
  refine filled_of_safe (p := unmarshalProg Γ cfg pools T old) (fun env l henv => ?_)
    ⟨_, _, ((unmarshalProg Γ cfg pools T old).runM (it.resetBytes data)).2, unread_bytes it data, Prod.ext h rfl⟩
  refine safe_bind (safe_bind safe_remaining fun n l1 h => ?_) fun v l1 h => safe_bind (safe_tokenEOF henv) fun o l2 h2 => ?_
  · obtain ⟨rfl, rfl⟩ := runs_remaining.mp h
    exact safe_decoderOf henv hl.decLaws (tame_of_own ho) hd closed_all (by simp)
      (fun i fs _ key j hj => selectsHere_lt hj) pools trivial hold (by omega)
  · split
    · exact safe_fail (by simp [Bad])
    · exact safe_pure _

/-- **C71**: two calls of `Unmarshal`, on whatever texts, types and old values, whose errors have the same text ended with the
same error. -/
theorem C71_unmarshal (pr : Nat → Bool) (hl : TypeLaws Γ cfg same) (hd : Declared Γ L) (ho : OwnErrors Γ cfg) (pools pools' : Pools)
    (it it' : It) {data data' : List Byte} {T T' : Ty} {old old' : Val F} (hold : HasTy Γ L T old) (hold' : HasTy Γ L T' old')
    {x y : Err} {t : List Byte} (h : Unmarshal Γ cfg pools it data T old = .error x)
    (h' : Unmarshal Γ cfg pools' it' data' T' old' = .error y) (tx : errText pr x = some t) (ty : errText pr y = some t) : x = y :=
  C71_text pr tx ty (C71_filled hl hd ho pools it hold h) (C71_filled hl hd ho pools' it' hold' h')

end

/-- The printable characters of ASCII. -/
def asciiPrint (r : Nat) : Bool := 0x20 ≤ r && r < 0x7F

/-- Concrete cases: texts of errors. -/
example : errText asciiPrint (.unexpectedByte 0x0A (b! '"') 0) = some (bs! "expecting '\"' but got '\\n'") ∧
    errText asciiPrint (.unexpectedByte (b! '\'') (b! ']') (b! ',')) = some (bs! "expecting ']' or ',' but got '\\''") ∧
    errText asciiPrint (.unexpectedByte 0x01 0 0) = some (bs! "unexpected character '\\x01'") ∧
    errText asciiPrint (.invalidEscapeChar (b! 'q')) = some (bs! "invalid escape character \\71 found") ∧
    errText asciiPrint (.unknownField [0x61, 0x22, 0xFF, 0xC3, 0xA9]) = some (bs! "unknown field \"a\\\"\\xff\\u00e9\"") ∧
    errText asciiPrint (.intOverflow (bs! "int8") (some (-129))) = some (bs! "overflow int8: -129") := by
  decide +kernel

theorem location_lines {pr : Nat → Bool} {d : DecodeError} (h : (0x0A : Byte) ∈ d.location) {t : List Byte}
    (ht : d.text pr = some t) : ¬ OneLine t := by
  simp only [DecodeError.text, Option.map_eq_some_iff] at ht
  obtain ⟨u, _, rfl⟩ := ht
  intro ho
  exact absurd (ho 0x0A (by simp [h])).1 (by decide)

/-- **C71**, violated: the location in the text of a `DecodeError` is copied from the input as it is.  `Unmarshal` of the bytes
`[`, line feed, `?` into a slice of integers returns an error whose text has two lines. -/
theorem C71_location_violated : ∃ d it', ConfigCall sampleEnv sampleCfg samplePools .new (.bytes (bs! "[\n?"))
    (.pointer (.slice (.int .w64)) .nilSlice) (.error d) it' ∧ d.reason = .invalidDigit (b! '?') ∧
    ∀ pr, ∃ t, d.text pr = some t ∧ ¬ OneLine t := by
  obtain ⟨out, it', h⟩ := C48_ends sampleEnv sampleCfg samplePools .new (.bytes (bs! "[\n?")) (.pointer (.slice (.int .w64)) .nilSlice)
  have hr := C48_result .new h sampleIt samplePools (.last (bs! "[\n?") [] (by simp))
  have hu : UnmarshalFromReader sampleEnv sampleCfg samplePools sampleIt [⟨bs! "[\n?", some .eof⟩] (.slice (.int .w64)) .nilSlice =
    .error (.invalidDigit (b! '?')) := rfl
  generalize hx : UnmarshalFromReader sampleEnv sampleCfg samplePools sampleIt _ _ _ = x at hr
  have hu := hx.symm.trans hu
  cases hr with
  | value v => cases hu
  | report d =>
    injection hu with hu
    refine ⟨d, it', h, hu, fun pr => ?_⟩
    have ht : d.text pr = some (bs! "invalid digit character: " ++ fmtQByte pr (b! '?') ++ bs! " (near " ++ d.location ++ bs! ")") := by
      rw [DecodeError.text, hu]; rfl
    refine ⟨_, ht, location_lines ?_ ht⟩
    obtain ⟨pos, hpos, a, before, after, b, h1, h2, h3, h4, h5⟩ := C48_location_bytes .new (.inl rfl) h
    have hp : pos ≤ 3 := hpos
    have hlen := congrArg List.length h1
    simp only [List.length_append, List.length_cons, List.length_nil] at hlen h5
    have ha : a = [] := List.length_eq_zero_iff.mp (by omega)
    have hb : b = [] := List.length_eq_zero_iff.mp (by omega)
    rw [ha, hb] at h1
    simp only [List.nil_append, List.append_nil] at h1
    rw [h2, ← h1]
    decide

/-- Concrete case: a name with an escape sequence and one with the character are told apart. -/
example (pr : Nat → Bool) : errText pr (.unknownField (bs! "\\n")) ≠ errText pr (.unknownField (bs! "\n")) := by
  intro h
  have := C71_text pr (x := .unknownField (bs! "\\n")) (y := .unknownField (bs! "\n")) rfl h.symm trivial trivial
  simp at this

/-- Concrete case: what `OwnErrors` asks for, and an error of `Unmarshal` with its text. -/
example : OwnErrors sampleEnv sampleCfg ∧
    Unmarshal sampleEnv sampleCfg samplePools sampleIt (bs! "{\"A\":?") (.named 0) (sampleEnv.zeroNamed 0) = .error (.invalidDigit 0x3F) ∧
    errText asciiPrint (.invalidDigit 0x3F) = some (bs! "invalid digit character: '?'") :=
  ⟨⟨by simp [sampleCfg, textOps], by simp [sampleCfg, textOps], by simp [sampleCfg], by simp [sampleEnv], by simp [sampleEnv]⟩,
    rfl, by decide +kernel⟩

/-! ## C72 -/

/-- `p`, which reads integers of `w` bits into the type `typ`, tells of a number that does not fit its value and the type. -/
def TellsOverflow (w : Nat) (signed : Bool) (typ : List Byte) (p : Prog (BitVec w)) : Prop :=
  ∀ (pr : Nat → Bool) (it : It) (ws s t r : List Byte) (z : Int) (e : Err), Unread it (ws ++ (s ++ r)) e → Ws ws → Signed s t z →
    IntAt e t r → (if signed then ¬ Fits w z else 0 ≤ z ∧ 2 ^ w ≤ z) →
    ∃ x it', p.runM it = (.error x, it') ∧ errText pr x = some (OverflowText typ z)

/-- The same for numbers whose absolute value has at most `w` bits. -/
def TellsNearOverflow (w : Nat) (typ : List Byte) (p : Prog (BitVec w)) : Prop :=
  ∀ (pr : Nat → Bool) (it : It) (ws s t r : List Byte) (z : Int) (e : Err), Unread it (ws ++ (s ++ r)) e → Ws ws → Signed s t z →
    IntAt e t r → ¬ Fits w z → z.natAbs < 2 ^ w →
    ∃ x it', p.runM it = (.error x, it') ∧ errText pr x = some (OverflowText typ z)

theorem tellsNear {w : Nat} (hw : 1 ≤ w) {p : Byte → Prog (BitVec w)} (hp : UintOk w p) {typ : List Byte} :
    TellsNearOverflow w typ (nextTokenTake >>= readInt w typ p) := by
  intro pr it ws s t r z e h hws hs h2 h3 hz
  have he := env_endErr h
  obtain ⟨c, u, rfl, hc⟩ := signed_head hs h2
  have h5 := (readInt_good (typ := typ) (l := u ++ r) (r := r) hw hp.good rfl hs
    (show IntAt it.env.endErr t r from he ▸ h2) trivial).2 h3
  rw [if_pos hz] at h5
  obtain ⟨it', h⟩ := runM_of_error h (p := nextTokenTake >>= readInt w typ p) (by
    rw [show ws ++ (c :: u ++ r) = ws ++ c :: (u ++ r) from rfl, runF_token_then hws hc]
    exact h5)
  exact ⟨_, it', h, by rw [errText, overflowValue_some]; rfl⟩

/-- **C72** (`_partial`: numbers of more than 16 bits are not told, see `C72_violated`). -/
theorem C72_ReadInt16_partial : TellsNearOverflow 16 (bs! "int16") ReadInt16 := tellsNear (by decide) readUint16_ok
/-- **C72** (`_partial`: numbers of more than 32 bits are not told). -/
theorem C72_ReadInt32_partial : TellsNearOverflow 32 (bs! "int32") ReadInt32 := tellsNear (by decide) readUint32_ok
/-- **C72** (`_partial`: numbers of more than 64 bits are not told). -/
theorem C72_ReadInt64_partial : TellsNearOverflow 64 (bs! "int64") ReadInt64 := tellsNear (by decide) readUint64_ok

/-- **C72** for `int8` and literals of at most three digits, see C11 (`_partial`: numbers of more than 8 bits are not told). -/
theorem C72_ReadInt8_partial (pr : Nat → Bool) {it : It} {ws s t r : List Byte} {z : Int} {e : Err} (h : Unread it (ws ++ (s ++ r)) e)
    (hws : Ws ws) (hs : Signed s t z) (ht : IntAt e t r) (hlen : t.length ≤ 3) (hf : ¬ Fits 8 z) (hz : z.natAbs < 256) :
    ∃ x it', ReadInt8.runM it = (.error x, it') ∧ errText pr x = some (OverflowText (bs! "int8") z) := by
  have he := env_endErr h
  obtain ⟨c, u, rfl, hc⟩ := signed_head hs ht
  have h5 := (readInt_good (w := 8) (typ := bs! "int8") (by decide) readUint8_good (l := u ++ r) (r := r) rfl hs
    (show IntAt it.env.endErr t r from he ▸ ht) hlen).2 hf
  rw [if_pos hz] at h5
  obtain ⟨it', h⟩ := runM_of_error h (p := ReadInt8) (by
    unfold ReadInt8
    rw [show ws ++ (c :: u ++ r) = ws ++ c :: (u ++ r) from rfl, runF_token_then hws hc]
    exact h5)
  exact ⟨_, it', h, by rw [errText, overflowValue_some]; rfl⟩

/-- What is told of every number beyond the unsigned range of the same width: neither type nor number. -/
theorem overflow_silent {w : Nat} {p : Byte → Prog (BitVec w)} (hp : UintOk w p) (pr : Nat → Bool) {it : It} {ws t r : List Byte}
    {e : Err} (h : Unread it (ws ++ (t ++ r)) e) (hws : Ws ws) (ht : IntAt e t r) (hz : 2 ^ w ≤ dec t) :
    ∃ x it', (nextTokenTake >>= p).runM it = (.error x, it') ∧ errText pr x = some (bs! "overflow : ") := by
  have he := env_endErr h
  obtain ⟨c, u, rfl, hc⟩ := intAt_head ht
  obtain ⟨it', h⟩ := runM_of_error h (x := .intOverflow [] none) (p := nextTokenTake >>= p) (by
    rw [show ws ++ (c :: u ++ r) = ws ++ c :: (u ++ r) from rfl, runF_token_then hws hc]
    exact hp.overflow _ _ _ (c :: u) r rfl (he ▸ ht) hz)
  exact ⟨_, it', h, rfl⟩

/-- **C72**, for the unsigned readers, violated on every number that does not fit: the text is always the same. -/
theorem C72_unsigned_violated (pr : Nat → Bool) {it : It} {ws t r : List Byte} {e : Err} (h : Unread it (ws ++ (t ++ r)) e) (hws : Ws ws)
    (ht : IntAt e t r) :
    (2 ^ 16 ≤ dec t → ∃ x it', ReadUint16.runM it = (.error x, it') ∧ errText pr x = some (bs! "overflow : ")) ∧
    (2 ^ 32 ≤ dec t → ∃ x it', ReadUint32.runM it = (.error x, it') ∧ errText pr x = some (bs! "overflow : ")) ∧
    (2 ^ 64 ≤ dec t → ∃ x it', ReadUint64.runM it = (.error x, it') ∧ errText pr x = some (bs! "overflow : ")) :=
  ⟨overflow_silent readUint16_ok pr h hws ht, overflow_silent readUint32_ok pr h hws ht, overflow_silent readUint64_ok pr h hws ht⟩

theorem overflowText_ne (typ : List Byte) (z : Int) : OverflowText typ z ≠ bs! "overflow : " := by
  intro h
  have h1 := congrArg List.length h
  have h2 : 1 ≤ (decimalInt z).length := by
    cases hd : decimalInt z with
    | nil => exact absurd hd (decimalInt_ne z)
    | cons c s => simp
  simp [OverflowText] at h1
  omega

/-- **C72**, violated: a number beyond the unsigned range of the same width gives a text without type and number, whatever the
type is called: `65536` for `uint16` and `int16`. -/
theorem C72_violated : (¬ ∃ typ, TellsOverflow 16 false typ ReadUint16) ∧ ¬ ∃ typ, TellsOverflow 16 true typ ReadInt16 := by
  have hp : IntPart (bs! "65536") := .pos 0x36 _ (by decide) (by decide)
  have ha : IntAt .eof (bs! "65536") [] := ⟨hp, fun _ => ⟨by simp, fun _ => rfl⟩⟩
  have hu := unread_bytes freshIt (bs! "65536")
  constructor
  · rintro ⟨typ, h⟩
    obtain ⟨x, it', h1, h2⟩ := h asciiPrint _ [] (bs! "65536") (bs! "65536") [] _ _ (by simpa using hu) (by intro c hc; cases hc) (.pos _) ha
      (by simp only [Bool.false_eq_true, if_false]; decide)
    have h3 : (ReadUint16.runM (freshIt.resetBytes (bs! "65536"))).1 = .error (.intOverflow [] none) := rfl
    rw [h1] at h3
    cases h3
    exact overflowText_ne _ _ (Option.some.inj h2).symm
  · rintro ⟨typ, h⟩
    obtain ⟨x, it', h1, h2⟩ := h asciiPrint _ [] (bs! "65536") (bs! "65536") [] _ _ (by simpa using hu) (by intro c hc; cases hc) (.pos _) ha
      (by simp only [if_true]; unfold Fits; decide)
    have h3 : (ReadInt16.runM (freshIt.resetBytes (bs! "65536"))).1 = .error (.intOverflow [] none) := rfl
    rw [h1] at h3
    cases h3
    exact overflowText_ne _ _ (Option.some.inj h2).symm

/-- Concrete case: -40000 for `int16`. -/
example (it : It) (pr : Nat → Bool) : ∃ x it', ReadInt16.runM (it.resetBytes (bs! " -40000,")) = (.error x, it') ∧
    errText pr x = some (bs! "overflow int16: -40000") := by
  obtain ⟨x, it', h1, h2⟩ := C72_ReadInt16_partial pr _ [0x20] (bs! "-40000") (bs! "40000") [0x2C] _ _
    (unread_bytes it (bs! " -40000,")) (by intro c hc; simp at hc; subst hc; exact .inl rfl) (.neg (bs! "40000"))
    ⟨.pos 0x34 _ (by decide) (by decide), fun _ => ⟨by intro c r' h; cases h; decide, by simp⟩⟩ (by unfold Fits; decide) (by decide)
  exact ⟨x, it', h1, by rw [h2]; decide +kernel⟩

end Jzon.Props
