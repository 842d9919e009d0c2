import Verif.Spec.Restores
import Verif.Proof.Clean
import Verif.Proof.TypedTop
import Verif.Props.EncInt

/-!
# Reading what has been written
-/

set_option linter.unusedSimpArgs false

namespace Jzon

open Spec

section
variable {F : Type} {Γ : TyEnv F} {E : EncEnv F} {cfg : DecCfg F}

/-! ## Strings and numbers -/

theorem stringText_valid {html : Bool} {s t : List Byte} (hs : ValidUtf8 s) (h : StringText html s t) :
    Str t s ∧ ValidUtf8 t := by
  obtain ⟨s', h1, h2, ns, h3, h4⟩ := h
  rw [sanitized_unique h1 (sanitized_valid hs)] at h2
  exact ⟨h2, ns, fun n hn => (h3 n hn).1, h4⟩

theorem intLit_decimal {w : Nat} {z : Int} (h : Fits w z) : IntLit w (decimalInt z) z := by
  unfold decimalInt
  obtain ⟨h1, h2, _⟩ := decimal_spec z.natAbs
  split
  · rename_i hz
    have := Signed.neg (decimal z.natAbs)
    rw [h2, show -((z.natAbs : Nat) : Int) = z by omega] at this
    exact ⟨_, this, h1, h⟩
  · rename_i hz
    have := Signed.pos (decimal z.natAbs)
    rw [h2, show ((z.natAbs : Nat) : Int) = z by omega] at this
    exact ⟨_, this, h1, h⟩

theorem uintLit_decimal {w : Nat} {z : Int} (h : FitsUnsigned w z) : UintLit w (decimalInt z) z := by
  obtain ⟨h0, h⟩ := h
  obtain ⟨h1, h2, _⟩ := decimal_spec z.natAbs
  unfold decimalInt
  rw [if_neg (by omega)]
  refine ⟨h1, ?_, by rw [h2]; omega⟩
  rw [h2]
  have : ((z.natAbs : Nat) : Int) < ((2 ^ w : Nat) : Int) := by
    rw [Int.natAbs_of_nonneg h0]
    simpa using h
  omega

theorem numText_number {arg : F → FloatArg} {q : Bool} {v : Val F} {t : List Byte} (h : NumText arg q v t) : Number t := by
  obtain ⟨f, small, big, _, _, _, hf, ht⟩ := h
  exact floatText_number hf ht

/-! ## Structs -/

/-- `s` is `v` at the paths in `Q` and `z` elsewhere. -/
inductive Part (zero : Ty → Val F) : (Q : List PathStep → Prop) → Val F → Val F → Val F → Prop
  | nothing (Q : List PathStep → Prop) (z v : Val F) (h : ∀ p, ¬ Q p) : Part zero Q z v z
  | here (Q : List PathStep → Prop) (z v : Val F) (h : Q []) : Part zero Q z v v
  | struct (Q : List PathStep → Prop) (zs vs ss : List (Val F)) (h0 : ¬ Q []) (hz : zs.length = vs.length) (hs : ss.length = vs.length)
      (h : ∀ (k : Nat) (z v s : Val F), zs[k]? = some z → vs[k]? = some v → ss[k]? = some s → Part zero (fun p => Q (.member k :: p)) z v s) :
      Part zero Q (.struct zs) (.struct vs) (.struct ss)
  | ptr (Q : List PathStep → Prop) (T : Ty) (v s : Val F) (hn : ∃ p, Q p) (h0 : ∀ p, Q p → ∃ p', p = .deref true T :: p')
      (h : Part zero (fun p => Q (.deref true T :: p)) (zero T) v s) : Part zero Q .nilPtr (.ptr v) (.ptr s)

variable {zero : Ty → Val F}

theorem part_congr {Q Q' : List PathStep → Prop} {z v s : Val F} (h : Part zero Q z v s) (hQ : ∀ p, Q p ↔ Q' p) : Part zero Q' z v s := by
  have : Q = Q' := funext fun p => propext (hQ p)
  exact this ▸ h

theorem part_nothing {Q : List PathStep → Prop} {z v s : Val F} (h : Part zero Q z v s) (hQ : ∀ p, ¬ Q p) : s = z := by
  induction h with
  | nothing => rfl
  | here Q z v h => exact absurd h (hQ _)
  | struct Q zs vs ss h0 hz hs h ih =>
    congr 1
    refine List.ext_getElem (by omega) fun k h1 h2 => ?_
    exact ih k zs[k] vs[k] ss[k] (List.getElem?_eq_getElem _) (List.getElem?_eq_getElem _) (List.getElem?_eq_getElem _) fun p => hQ _
  | ptr Q T v s hn => obtain ⟨p, hp⟩ := hn; exact absurd hp (hQ p)

theorem elsewhere_nothing {ps : List PathStep → Ty → Prop} {z v : Val F} (h : Elsewhere zero ps z v) (hQ : ∀ p T, ¬ ps p T) : z = v := by
  induction h with
  | nothing => rfl
  | here ps T v h => exact absurd h (hQ _ _)
  | struct ps zs vs h0 hz h ih =>
    congr 1
    refine List.ext_getElem (by omega) fun k h1 h2 => ?_
    exact ih k zs[k] vs[k] (List.getElem?_eq_getElem _) (List.getElem?_eq_getElem _) fun p T => hQ _ _
  | ptr ps T v hn => obtain ⟨p, U, hp⟩ := hn; exact absurd hp (hQ p U)

theorem part_all {ps : List PathStep → Ty → Prop} {z v : Val F} (h : Elsewhere zero ps z v) :
    ∀ {Q : List PathStep → Prop} {s : Val F}, (∀ p, Q p ↔ ∃ T, ps p T) → Part zero Q z v s → s = v := by
  induction h with
  | nothing ps z h => intro Q s hQ hp; exact part_nothing hp fun p hq => let ⟨T, hT⟩ := (hQ p).mp hq; h p T hT
  | here ps T v h =>
    intro Q s hQ hp
    have h0 : Q [] := (hQ []).mpr ⟨T, h⟩
    generalize zero T = z at hp
    cases hp with
    | nothing _ _ _ hn => exact absurd h0 (hn _)
    | here => rfl
    | struct _ _ _ _ hn => exact absurd h0 hn
    | ptr _ T v s _ hn => obtain ⟨p, hp⟩ := hn _ h0; cases hp
  | struct ps zs vs h0 hz h ih =>
    intro Q s hQ hp
    cases hp with
    | nothing _ _ _ hn => exact elsewhere_nothing (.struct ps zs vs h0 hz h) fun p T hp => hn p ((hQ p).mpr ⟨T, hp⟩)
    | here => rfl
    | struct _ _ _ ss _ _ hs hss =>
      congr 1
      refine List.ext_getElem hs fun k h1 h2 => ?_
      exact ih k zs[k] vs[k] (List.getElem?_eq_getElem _) (List.getElem?_eq_getElem _) (fun p => hQ _)
        (hss k zs[k] vs[k] ss[k] (List.getElem?_eq_getElem _) (List.getElem?_eq_getElem _) (List.getElem?_eq_getElem _))
  | ptr ps T v hn h0 h ih =>
    intro Q s hQ hp
    cases hp with
    | nothing _ _ _ hnn => obtain ⟨p, U, hp⟩ := hn; exact absurd ((hQ p).mpr ⟨U, hp⟩) (hnn p)
    | here => rfl
    | ptr _ T' _ s _ hT hs =>
      obtain ⟨p, U, hp⟩ := hn
      obtain ⟨p1, h1⟩ := h0 p U hp
      obtain ⟨p2, h2⟩ := hT p ((hQ p).mpr ⟨U, hp⟩)
      rw [h1] at h2
      cases h2
      rw [ih (fun p => hQ _) hs]

/-- One more path. -/
theorem part_step {G : Val F → Val F → Prop} {ps : List PathStep → Ty → Prop} {z v : Val F} (h : Elsewhere zero ps z v)
    (hu : ∀ p T p' T', ps p T → ps p' T' → p <+: p' → p = p' ∧ T = T') :
    ∀ {Q : List PathStep → Prop} {s x : Val F} {p : List PathStep} {T : Ty}, (∀ q, Q q → ∃ U, ps q U) → ps p T → ¬ Q p → Part zero Q z v s →
      Reaches p v x → G (zero T) x → ∃ s', AtPath zero G p s s' ∧ Part zero (fun q => Q q ∨ q = p) z v s' := by
  induction h with
  | nothing ps z h => intro Q s x p T _ hp; exact absurd hp (h p T)
  | here ps T0 v h =>
    intro Q s x p T hQ hp hn hs hr hG
    obtain ⟨rfl, rfl⟩ := hu [] T0 p T h hp List.nil_prefix
    have : ∀ q, ¬ Q q := by
      intro q hq
      obtain ⟨U, hU⟩ := hQ q hq
      obtain ⟨rfl, _⟩ := hu [] T0 q U h hU List.nil_prefix
      exact hn hq
    cases hr
    rw [part_nothing hs this]
    exact ⟨v, .here _ _ hG, .here _ _ _ (.inr rfl)⟩
  | struct ps zs vs h0 hz h ih =>
    intro Q s x p T hQ hp hn hs hr hG
    have hss : ∃ ss, s = .struct ss ∧ ss.length = vs.length ∧ ∀ (k : Nat) (z v s : Val F), zs[k]? = some z → vs[k]? = some v →
        ss[k]? = some s → Part zero (fun p => Q (.member k :: p)) z v s := by
      cases hs with
      | nothing _ _ _ hn =>
        refine ⟨zs, rfl, hz, fun k z v s h1 h2 h3 => ?_⟩
        rw [h1] at h3
        cases h3
        exact .nothing _ _ _ fun p => hn _
      | here _ _ _ hq => obtain ⟨U, hU⟩ := hQ _ hq; exact absurd hU (h0 U)
      | struct _ _ _ ss _ _ hs hss => exact ⟨ss, rfl, hs, hss⟩
    obtain ⟨ss, rfl, hlen, hss⟩ := hss
    have h0' : ¬ Q [] := fun hq => by obtain ⟨U, hU⟩ := hQ _ hq; exact absurd hU (h0 U)
    cases hr with
    | here => exact absurd hp (h0 T)
    | member k p _ w _ hk hr =>
      have hkv : k < vs.length := (List.getElem?_eq_some_iff.mp hk).1
      have hkz : zs[k]? = some zs[k] := List.getElem?_eq_getElem (by omega)
      have hks : ss[k]? = some ss[k] := List.getElem?_eq_getElem (by omega)
      obtain ⟨s', h1, h2⟩ := ih k zs[k] w hkz hk (fun p T p' T' ha hb hc => by
        have := hu _ _ _ _ ha hb (List.cons_prefix_cons.mpr ⟨rfl, hc⟩)
        simpa using this) (Q := fun p => Q (.member k :: p)) (fun q hq => hQ _ hq) hp hn (hss k _ _ _ hkz hk hks) hr hG
      refine ⟨.struct (ss.set k s'), .member k p ss _ _ hks h1, .struct _ _ _ _ ?_ hz (by simpa using hlen) ?_⟩
      · rintro (hq | hq)
        · exact h0' hq
        · cases hq
      · intro j z v s hjz hjv hjs
        by_cases hj : k = j
        · subst hj
          rw [hkz] at hjz
          cases hjz
          rw [hk] at hjv
          cases hjv
          rw [List.getElem?_set_self (by omega)] at hjs
          cases hjs
          exact part_congr h2 fun q => by simp
        · rw [List.getElem?_set_ne hj] at hjs
          refine part_congr (hss j z v s hjz hjv hjs) fun q => ?_
          constructor
          · exact .inl
          · rintro (hq | hq)
            · exact hq
            · cases hq; exact absurd rfl hj
  | ptr ps T0 v hne h0 h ih =>
    intro Q s x p T hQ hp hn hs hr hG
    obtain ⟨p, rfl⟩ := h0 p T hp
    have hx : Reaches p v x := by
      cases hr with
      | deref _ _ _ _ _ hr => exact hr
    have hu' : ∀ p T p' T', ps (.deref true T0 :: p) T → ps (.deref true T0 :: p') T' → p <+: p' → p = p' ∧ T = T' := fun p T p' T' ha hb hc => by
      have := hu _ _ _ _ ha hb (List.cons_prefix_cons.mpr ⟨rfl, hc⟩)
      simpa using this
    have hQd : ∀ q, Q q ∨ q = .deref true T0 :: p → ∃ q', q = .deref true T0 :: q' := by
      rintro q (hq | rfl)
      · obtain ⟨U, hU⟩ := hQ q hq; exact h0 q U hU
      · exact ⟨_, rfl⟩
    cases hs with
    | nothing _ _ _ hnn =>
      obtain ⟨s', h1, h2⟩ := ih hu' (Q := fun p => Q (.deref true T0 :: p)) (fun q hq => hQ _ hq) hp hn (.nothing _ _ _ fun p => hnn _) hx hG
      exact ⟨.ptr s', .alloc T0 p s' h1, .ptr _ T0 v s' ⟨_, .inr rfl⟩ hQd (part_congr h2 fun q => by simp)⟩
    | here _ _ _ hq => obtain ⟨U, hU⟩ := hQ _ hq; obtain ⟨_, hh⟩ := h0 _ U hU; cases hh
    | ptr _ T' _ s hne' hT' hs =>
      have : T' = T0 := by
        obtain ⟨q, hq⟩ := hne'
        obtain ⟨_, h1⟩ := hT' q hq
        obtain ⟨_, h2⟩ := hQd q (.inl hq)
        rw [h1] at h2
        cases h2
        rfl
      subst this
      obtain ⟨s', h1, h2⟩ := ih hu' (Q := fun p => Q (.deref true T' :: p)) (fun q hq => hQ _ hq) hp hn hs hx hG
      exact ⟨.ptr s', .deref true T' p s s' h1, .ptr _ T' v s' ⟨_, .inr rfl⟩ hQd (part_congr h2 fun q => by simp)⟩

/-! ## The texts of types -/

/-- What is written for a value, or for a field or element. -/
def Enc (Γ : TyEnv F) (E : EncEnv F) (html : Bool) (n : Nat) (T : Ty) : TextRel' F := fun q v t =>
  EncodesStep E html (EncodesN Γ E html n) T q v t ∨
    Preferred E html T (EncodesStep E html (EncodesN Γ E html n) T) q v t

theorem enc_plain {n : Nat} {T : Ty} {q : Bool} {v : Val F} {t : List Byte} (h : Enc Γ E html n T q v t) (h1 : ∀ i, T ≠ .jsonUnmarshaler i)
    (h2 : ∀ i, T ≠ .textUnmarshaler i) : EncodesStep E html (EncodesN Γ E html n) T q v t := by
  rcases h with h | h
  · exact h
  · unfold Preferred at h
    split at h
    · exact absurd rfl (h1 _)
    · exact absurd rfl (h2 _)
    · exact h

theorem enc_slice {n : Nat} {T U : Ty} (hT : Is Γ T (.slice U)) {q : Bool} {v : Val F} {t : List Byte} (h : Enc Γ E html n T q v t) :
    ∃ m, SliceTextOf E html U (EncodesStep E html (EncodesN Γ E html m) U) q v t := by
  cases hT with
  | slice => exact ⟨n, enc_plain h (by simp) (by simp)⟩
  | named i _ hd =>
    have h := enc_plain h (by simp) (by simp)
    cases n with
    | zero => exact h.elim
    | succ n => simp only [EncodesStep, EncodesN, hd] at h; exact ⟨n, h⟩

theorem enc_array {n k : Nat} {T U : Ty} (hT : Is Γ T (.array k U)) {q : Bool} {v : Val F} {t : List Byte} (h : Enc Γ E html n T q v t) :
    ∃ m, ArrayText k (Preferred E html U (EncodesStep E html (EncodesN Γ E html m) U)) q v t := by
  cases hT with
  | array => exact ⟨n, enc_plain h (by simp) (by simp)⟩
  | named i _ hd =>
    have h := enc_plain h (by simp) (by simp)
    cases n with
    | zero => exact h.elim
    | succ n => simp only [EncodesStep, EncodesN, hd] at h; exact ⟨n, h⟩

theorem enc_map {n : Nat} {T U : Ty} {K : KeyTy} (hT : Is Γ T (.map K U)) {q : Bool} {v : Val F} {t : List Byte} (h : Enc Γ E html n T q v t) :
    ∃ m, MapText (KeyText E html K) (EncodesStep E html (EncodesN Γ E html m) U) q v t := by
  cases hT with
  | map => exact ⟨n, (enc_plain h (by simp) (by simp)).2⟩
  | named i _ hd =>
    have h := enc_plain h (by simp) (by simp)
    cases n with
    | zero => exact h.elim
    | succ n => simp only [EncodesStep, EncodesN, hd] at h; exact ⟨n, h.2⟩

theorem enc_struct {n i : Nat} {fs : List Field} (hd : Γ.defn i = .struct fs) {q : Bool} {v : Val F} {t : List Byte}
    (h : Enc Γ E html n (.named i) q v t) :
    ∃ m, StructText html (EmptyHere Γ E)
      (fun U => Preferred E html U (EncodesStep E html (EncodesN Γ E html m) U)) (E.fields i) q v t := by
  have h := enc_plain h (by simp) (by simp)
  cases n with
  | zero => exact h.elim
  | succ n => simp only [EncodesStep, EncodesN, hd] at h; exact ⟨n, h⟩

theorem enc_json {n i : Nat} {q : Bool} {v : Val F} {t : List Byte} (h : Enc Γ E html n (.jsonUnmarshaler i) q v t) :
    E.marshalJSON i v = .ok t ∨ (E.recv i = .pointer ∧ Encodes Γ E html (E.under i) q v t) := by
  have hs : EncodesStep E html (EncodesN Γ E html n) (.jsonUnmarshaler i) q v t →
      E.marshalJSON i v = .ok t ∨ (E.recv i = .pointer ∧ Encodes Γ E html (E.under i) q v t) := by
    intro h
    simp only [EncodesStep] at h
    split at h
    · exact .inl h
    · rename_i hr
      cases n with
      | zero => exact h.elim
      | succ n =>
        refine .inr ⟨?_, n, h⟩
        cases hE : E.recv i with
        | value => exact absurd hE hr
        | pointer => rfl
  rcases h with h | h
  · exact hs h
  · simp only [Preferred] at h
    split at h
    · exact .inl h
    · exact hs h

theorem enc_text {n i : Nat} {q : Bool} {v : Val F} {t : List Byte} (hv : E.recv i = .value) (h : Enc Γ E html n (.textUnmarshaler i) q v t) :
    MethodText html (E.marshalText i) q v t := by
  simp only [Enc, EncodesStep, Preferred, hv, if_true] at h
  simpa using h

theorem encodesN_anys {html : Bool} {n : Nat} {q : Bool} {v : Val F} {t : List Byte} (h : EncodesN Γ E html n (.slice .any) q v t) :
    ∃ m, SliceText (EncodesStep E html (EncodesN Γ E html m) .any) q v t := by
  cases n with
  | zero => exact h.elim
  | succ n =>
    have h : SliceTextOf E html .any (EncodesStep E html (EncodesN Γ E html n) .any) q v t := h
    unfold SliceTextOf at h
    rw [if_neg (by simp)] at h
    exact ⟨n, h⟩

theorem encodesN_anyMap {html : Bool} {n : Nat} {q : Bool} {v : Val F} {t : List Byte}
    (h : EncodesN Γ E html n (.map .str .any) q v t) :
    ∃ m, MapText (KeyText E html .str) (EncodesStep E html (EncodesN Γ E html m) .any) q v t := by
  cases n with
  | zero => exact h.elim
  | succ n => exact ⟨n, h.2⟩

/-! ## No `null` -/

theorem number_ne_null {t : List Byte} (h : Number t) : t ≠ nullText := by
  rintro rfl
  obtain ⟨c, u, h1, h2⟩ := number_head h
  cases h1
  rcases h2 with h2 | h2
  · cases h2
  · exact absurd h2 (by decide)

theorem str_ne_null {t s : List Byte} (h : Str t s) : t ≠ nullText := by
  rintro rfl
  obtain ⟨b, _, h⟩ := h
  cases h

theorem bracketed_ne_null {o c : Byte} {ts : List (List Byte)} (ho : o ≠ 0x6E) : bracketed o c ts ≠ nullText := by
  intro h
  unfold bracketed nullText at h
  rw [List.cons.injEq] at h
  exact ho h.1

theorem quotedIf_ne_null {q : Bool} {t : List Byte} (h : t ≠ nullText) : quotedIf q t ≠ nullText := by
  cases q
  · exact h
  · intro h; cases h

theorem strText_ne_null {inner html q : Bool} {v : Val F} {t : List Byte} (h : StrText inner html q v t) : t ≠ nullText := by
  obtain ⟨s, _, h⟩ := h
  split at h
  · obtain ⟨_, _, h⟩ := h
    obtain ⟨_, h⟩ := stringText_str h
    exact str_ne_null h
  · obtain ⟨_, h⟩ := stringText_str h
    exact str_ne_null h

theorem boolText_ne_null {q : Bool} {v : Val F} {t : List Byte} (h : BoolText q v t) : t ≠ nullText := by
  obtain ⟨b, _, rfl⟩ := h
  refine quotedIf_ne_null ?_
  cases b <;> decide

theorem sliceTextOf_ne_null {html : Bool} {U : Ty} {R : TextRel' F} {q : Bool} {v : Val F} {t : List Byte} (h : SliceTextOf E html U R q v t)
    (hv : v ≠ .nilSlice) : t ≠ nullText := by
  unfold SliceTextOf at h
  split at h
  · rcases h with ⟨rfl, _⟩ | ⟨b, _, rfl⟩
    · exact absurd rfl hv
    · intro h; cases h
  · rcases h with ⟨rfl, _⟩ | ⟨vs, ts, _, _, rfl⟩
    · exact absurd rfl hv
    · exact bracketed_ne_null (by decide)

theorem mapText_ne_null {K : Key → List Byte → Prop} {R : TextRel' F} {q : Bool} {v : Val F} {t : List Byte} (h : MapText K R q v t)
    (hv : v ≠ .nilMap) : t ≠ nullText := by
  rcases h with ⟨rfl, _⟩ | ⟨m, keys, ts, _, _, _, _, rfl⟩
  · exact absurd rfl hv
  · exact bracketed_ne_null (by decide)

theorem restores_ne_null {T : Ty} {q : Bool} {v : Val F} (h : Restores Γ E cfg html T q v) :
    ∀ {n t}, NotNull E T v → Enc Γ E html n T q v t → t ≠ nullText := by
  induction h with
  | bool q b => intro n t _ h; exact boolText_ne_null (enc_plain h (by simp) (by simp))
  | str q s _ => intro n t _ h; exact strText_ne_null (enc_plain h (by simp) (by simp))
  | int q w z =>
    intro n t _ h
    obtain ⟨z, _, _, rfl⟩ := enc_plain h (by simp) (by simp)
    exact quotedIf_ne_null (number_ne_null (decimalInt_number z))
  | uint q w z =>
    intro n t _ h
    obtain ⟨z, _, _, rfl⟩ := enc_plain h (by simp) (by simp)
    exact quotedIf_ne_null (number_ne_null (decimalInt_number z))
  | float32 q f _ => intro n t _ h; exact number_ne_null (numText_number (enc_plain h (by simp) (by simp)))
  | float64 q f _ => intro n t _ h; exact number_ne_null (numText_number (enc_plain h (by simp) (by simp)))
  | number q s hs =>
    intro n t _ h
    obtain ⟨s', h1, rfl⟩ := enc_plain h (by simp) (by simp)
    cases h1
    split
    · decide
    · exact number_ne_null hs
  | raw q s hs =>
    intro n t hn h
    have : Val.str s = .str t := enc_plain h (by simp) (by simp)
    cases this
    rintro rfl
    exact hn rfl
  | any g hg =>
    intro n t hn h
    obtain ⟨g', h1, h⟩ := enc_plain h (by simp) (by simp)
    cases h1
    cases hg with
    | nil => exact absurd rfl hn.2.2.2
    | bool b => exact boolText_ne_null h
    | number l hl _ =>
      obtain ⟨s', h1, rfl⟩ := h
      cases h1
      split
      · decide
      · exact number_ne_null hl
    | float f => exact number_ne_null (numText_number h)
    | str s => exact strText_ne_null h
    | arr l _ =>
      obtain ⟨m, h⟩ := encodesN_anys h
      rcases h with ⟨h, _⟩ | ⟨vs, ts, _, _, rfl⟩
      · cases h
      · exact bracketed_ne_null (by decide)
    | obj m _ =>
      obtain ⟨m, h⟩ := encodesN_anyMap h
      exact mapText_ne_null h (by simp)
  | nilPtr q T => intro n t hn; exact absurd rfl hn.1
  | ptr q T v hn _ ih =>
    intro n t _ h
    rcases enc_plain h (by simp) (by simp) with ⟨h, _⟩ | ⟨x, h1, h2⟩
    · cases h
    · cases h1
      exact ih hn (.inr h2)
  | nilSlice q T U hT =>
    intro n t hn
    cases hT with
    | slice => exact absurd rfl hn.2.1
    | named => exact absurd rfl hn.2.1
  | bytes q T bytes hT _ =>
    intro n t hn h
    obtain ⟨m, h⟩ := enc_slice hT h
    exact sliceTextOf_ne_null h (by simp)
  | slice q T U vs hT _ _ =>
    intro n t hn h
    obtain ⟨m, h⟩ := enc_slice hT h
    exact sliceTextOf_ne_null h (by simp)
  | arr q T U k vs hT _ =>
    intro n t hn h
    obtain ⟨m, vs, ts, _, _, _, rfl⟩ := enc_array hT h
    exact bracketed_ne_null (by decide)
  | nilMap q T U K hT =>
    intro n t hn
    cases hT with
    | map => exact absurd rfl hn.2.2.1
    | named => exact absurd rfl hn.2.2.1
  | map q T U K m hT _ _ =>
    intro n t hn h
    obtain ⟨_, h⟩ := enc_map hT h
    exact mapText_ne_null h (by simp)
  | struct q i fs vs hd _ _ =>
    intro n t hn h
    obtain ⟨m, vs, ts, _, _, rfl⟩ := enc_struct hd h
    exact bracketed_ne_null (by decide)
  | json q i v _ _ =>
    intro n t hn h
    rintro rfl
    rcases enc_json h with h | ⟨h, _⟩
    · exact hn.1 h
    · rw [hn.2] at h; cases h
  | text q i v _ hv =>
    intro n t hn h
    obtain ⟨s, _, h⟩ := enc_text hv h
    obtain ⟨_, h⟩ := stringText_str h
    exact str_ne_null h

/-! ## Reading -/

theorem each_swap {A B : Type} {P : A → B → Prop} {Q : B → A → Prop} {as : List A} {bs : List B} (h : Each P as bs)
    (hPQ : ∀ a ∈ as, ∀ b, P a b → Q b a) : Each Q bs as := by
  induction h with
  | nil => exact .nil
  | cons h _ ih => exact .cons (hPQ _ (by simp) _ h) (ih fun a ha => hPQ a (by simp [ha]))

theorem elems_joined {ts : List (List Byte)} {js : List JVal} (h : Each Value ts js) (hn : ts ≠ []) : Elems (joined ts) js := by
  have w0 : Ws [] := by intro c hc; cases hc
  induction h with
  | nil => exact absurd rfl hn
  | cons h hr ih =>
    rename_i t j ts js
    cases hr with
    | nil => simpa [joined] using Elems.one [] t [] j w0 h w0
    | cons h' hr' => simpa [joined] using Elems.cons [] t [] _ j _ w0 h w0 (ih (by simp))

theorem value_array {ts : List (List Byte)} {js : List JVal} (h : Each Value ts js) : Value (bracketed 0x5B 0x5D ts) (.arr js) := by
  cases h with
  | nil => exact .arrEmpty [] (by intro c hc; cases hc)
  | cons h hr => exact .arr _ _ (elems_joined (.cons h hr) (by simp))

/-- A member and what it means. -/
def MemberJ (t : List Byte) (m : List Byte × JVal) : Prop := ∃ k u, Str k m.1 ∧ Value u m.2 ∧ t = k ++ 0x3A :: u

theorem members_joined {ts : List (List Byte)} {js : List (List Byte × JVal)} (h : Each MemberJ ts js) (hn : ts ≠ []) :
    Members (joined ts) js := by
  have w0 : Ws [] := by intro c hc; cases hc
  induction h with
  | nil => exact absurd rfl hn
  | cons h hr ih =>
    rename_i t j ts js
    obtain ⟨k, u, hk, hu, rfl⟩ := h
    obtain ⟨s, j⟩ := j
    cases hr with
    | nil => simpa [joined] using Members.single [] k [] [] u [] s j w0 hk w0 w0 hu w0
    | cons h' hr' => simpa [joined] using Members.more [] k [] [] u [] _ s j _ w0 hk w0 w0 hu w0 (ih (by simp))

theorem value_object {ts : List (List Byte)} {js : List (List Byte × JVal)} (h : Each MemberJ ts js) :
    Value (bracketed 0x7B 0x7D ts) (.obj js) := by
  cases h with
  | nil => exact .objEmpty [] (by intro c hc; cases hc)
  | cons h hr => exact .obj _ _ (members_joined (.cons h hr) (by simp))

theorem toGoList_each {num : List Byte → Option (GoVal F)} {js : List JVal} {gs : List (GoVal F)}
    (h : Each (fun j g => toGo num j = some g) js gs) : toGoList num js = some gs := by
  induction h with
  | nil => rfl
  | cons h _ ih => simp [toGoList, h, ih]

theorem toGoMembers_each {num : List Byte → Option (GoVal F)} {js : List (List Byte × JVal)} {gs : List (List Byte × GoVal F)}
    (h : Each (fun j g => j.1 = g.1 ∧ toGo num j.2 = some g.2) js gs) : toGoMembers num js = some gs := by
  induction h with
  | nil => rfl
  | cons h _ ih =>
    obtain ⟨h1, h2⟩ := h
    rename_i j g _ _ _
    obtain ⟨k, j⟩ := j
    obtain ⟨k', g⟩ := g
    cases h1
    simp only at h2
    simp [toGoMembers, h2, ih]

/-- A list of all entries of a map. -/
theorem find_entries {K V : Type} [BEq K] [LawfulBEq K] {m : K → Option V} {xs : List (K × V)} (h1 : ∀ x ∈ xs, m x.1 = some x.2)
    (h2 : ∀ k, (m k).isSome → ∃ x ∈ xs, x.1 = k) (k : K) : (xs.reverse.find? fun x => x.1 == k).map (·.2) = m k := by
  cases hf : xs.reverse.find? fun x => x.1 == k with
  | some x =>
    have hx := List.find?_some hf
    have hm := List.mem_of_find?_eq_some hf
    have := h1 x (by simpa using hm)
    simp only [beq_iff_eq] at hx
    rw [Option.map_some, ← this, hx]
  | none =>
    cases hk : m k with
    | none => rfl
    | some v =>
      obtain ⟨x, hx, rfl⟩ := h2 k (by rw [hk]; rfl)
      have := List.find?_eq_none.mp hf x (by simpa using hx)
      simp at this

theorem any_restores {html : Bool} {g : GoVal F} (h : RestoresAny cfg E.float64 g) :
    ∀ {n t}, AnyText E.escapeHTML html E.float64 (EncodesN Γ E html n (.slice .any)) (EncodesN Γ E html n (.map .str .any)) false (.any g) t →
      ∃ j, Value t j ∧ toGo (anyNumber cfg) j = some g := by
  induction h with
  | nil =>
    rintro n t ⟨g', h1, h⟩
    cases h1
    exact ⟨.null, by rw [show t = nullText from h]; exact .null, rfl⟩
  | bool b =>
    rintro n t ⟨g', h1, h⟩
    cases h1
    obtain ⟨b', h2, rfl⟩ := h
    cases h2
    cases b
    · exact ⟨_, .false, rfl⟩
    · exact ⟨_, .true, rfl⟩
  | number l hl hu =>
    rintro n t ⟨g', h1, h⟩
    cases h1
    obtain ⟨s, h2, rfl⟩ := h
    cases h2
    have : l ≠ [] := by
      rintro rfl
      obtain ⟨c, u, h, _⟩ := number_head hl
      cases h
    rw [if_neg this]
    exact ⟨.num l, .num l hl, by simp [toGo, anyNumber, hu]⟩
  | float f hu hl =>
    rintro n t ⟨g', h1, h⟩
    cases h1
    exact ⟨.num t, .num t (numText_number h), by simp [toGo, anyNumber, hu, hl t h]⟩
  | str s hs =>
    rintro n t ⟨g', h1, h⟩
    cases h1
    obtain ⟨s', h2, h⟩ := h
    cases h2
    exact ⟨.str s, .str t s (stringText_valid hs h).1, rfl⟩
  | arr l hl ih =>
    rintro n t ⟨g', h1, h⟩
    cases h1
    obtain ⟨m, h⟩ := encodesN_anys h
    rcases h with ⟨h, _⟩ | ⟨vs, ts, h2, h3, rfl⟩
    · cases h
    · cases h2
      have : ∃ js, Each Value ts js ∧ Each (fun j g => toGo (anyNumber cfg) j = some g) js l := by
        clear hl h
        induction l generalizing ts with
        | nil => cases h3; exact ⟨[], .nil, .nil⟩
        | cons g l ihl =>
          cases h3 with
          | cons h hr =>
            obtain ⟨j, h4, h5⟩ := ih g (by simp) h
            obtain ⟨js, h6, h7⟩ := ihl (fun g hg => ih g (by simp [hg])) _ hr
            exact ⟨j :: js, .cons h4 h6, .cons h5 h7⟩
      obtain ⟨js, h4, h5⟩ := this
      exact ⟨.arr js, value_array h4, by simp [toGo, toGoList_each h5]⟩
  | obj m hk hl ih =>
    rintro n t ⟨g', h1, h⟩
    cases h1
    obtain ⟨n', h⟩ := encodesN_anyMap h
    rcases h with ⟨h, _⟩ | ⟨m', keys, ts, h2, _, h3, h4, rfl⟩
    · cases h
    · cases h2
      have : ∀ ks ts, Each (fun k u => ∃ x kt xt, anyMap m k = some x ∧ KeyText E html .str k kt ∧
          EncodesStep E html (EncodesN Γ E html n') .any false x xt ∧ u = kt ++ 0x3A :: xt) ks ts →
          ∃ js gs, Each MemberJ ts js ∧ Each (fun (j : List Byte × JVal) (g : List Byte × GoVal F) => j.1 = g.1 ∧ toGo (anyNumber cfg) j.2 = some g.2) js gs ∧
            (∀ x ∈ gs, m x.1 = some x.2) ∧ ∀ k, .str k ∈ ks → ∃ x ∈ gs, x.1 = k := by
        intro ks ts h
        induction h with
        | nil => exact ⟨[], [], .nil, .nil, by simp, by simp⟩
        | cons h _ ih' =>
          obtain ⟨js, gs, h5, h6, h7, h8⟩ := ih'
          obtain ⟨x, kt, xt, hx, ⟨s, rfl, hs⟩, hxt, rfl⟩ := h
          simp only [anyMap] at hx
          cases hm : m s with
          | none => rw [hm] at hx; cases hx
          | some g =>
            rw [hm] at hx
            cases hx
            obtain ⟨j, hj1, hj2⟩ := ih s g hm hxt
            refine ⟨(s, j) :: js, (s, g) :: gs, .cons ⟨kt, xt, (stringText_valid (hk s g hm) hs).1, hj1, rfl⟩ h5, .cons ⟨rfl, hj2⟩ h6, ?_, ?_⟩
            · intro x hx
              rcases List.mem_cons.mp hx with rfl | hx
              · exact hm
              · exact h7 x hx
            · intro k hk
              rcases List.mem_cons.mp hk with hk | hk
              · injection hk with hk; exact ⟨(s, g), by simp, hk.symm⟩
              · obtain ⟨x, hx, rfl⟩ := h8 k hk
                exact ⟨x, by simp [hx], rfl⟩
      obtain ⟨js, gs, h5, h6, h7, h8⟩ := this keys ts h4
      refine ⟨.obj js, value_object h5, ?_⟩
      simp only [toGo, toGoMembers_each h6, Option.map_some]
      congr 2
      funext k
      exact find_entries h7 (fun k hk => h8 k ((h3 (.str k)).mpr (by rw [show anyMap m (.str k) = (m k).map Val.any from rfl, Option.isSome_map]; exact hk))) k

/-! ## Structs -/

theorem reaches_unique {p : List PathStep} {v x y : Val F} (h1 : Reaches p v x) (h2 : Reaches p v y) : x = y := by
  induction h1 with
  | here => cases h2; rfl
  | member i p vs v x hi _ ih =>
    cases h2 with
    | member _ _ _ v' _ hi' h2 =>
      rw [hi] at hi'
      cases hi'
      exact ih h2
  | deref e t p v x _ ih =>
    cases h2 with
    | deref _ _ _ _ _ h2 => exact ih h2

theorem missing_not_reaches {p : List PathStep} {v x : Val F} (h1 : Missing p v) : ¬ Reaches p v x := by
  induction h1 with
  | member i p vs v hi _ ih =>
    intro h2
    cases h2 with
    | member _ _ _ v' _ hi' h2 =>
      rw [hi] at hi'
      cases hi'
      exact ih h2
  | nil => intro h2; cases h2
  | deref e t p v _ ih =>
    intro h2
    cases h2 with
    | deref _ _ _ _ _ h2 => exact ih h2

theorem emptyHere_not_both {T : Ty} {v : Val F} (h1 : EmptyHere Γ E T v true) (h2 : EmptyHere Γ E T v false) : False := by
  have key : ∀ {P : Prop}, (true = true ↔ P) → (false = true ↔ P) → False := fun h1 h2 => by
    have := h2.mpr (h1.mp rfl)
    cases this
  have keys : ∀ {K P : Prop}, (K → (true = true ↔ P)) ∧ (¬ K → true = false) → (K → (false = true ↔ P)) ∧ (¬ K → True) → False :=
    fun {K P} h1 h2 => Classical.byCases (fun h : K => key (h1.1 h) (h2.1 h)) fun h => by cases h1.2 h
  unfold EmptyHere at h1 h2
  split at h1 <;> simp only at h2
  · rename_i i
    cases hr : E.recv i <;> simp only [hr] at h1 h2
    · cases hU : E.under i <;> simp only [hU] at h1 h2
      case named j =>
        cases hd : Γ.defn j <;> simp only [hd] at h1 h2
        all_goals first
          | exact key (by simpa using h1) h2
          | cases h1
      all_goals first
        | exact key (by simpa using h1.2) h2.2
        | cases h1
    · cases h1
  · rename_i i
    cases hr : E.recv i <;> simp only [hr] at h1 h2
    · cases hU : E.under i <;> simp only [hU] at h1 h2
      case named j =>
        cases hd : Γ.defn j <;> simp only [hd] at h1 h2
        all_goals first
          | exact key (by simpa using h1) h2
          | cases h1
      all_goals first
        | exact key (by simpa using h1.2) h2.2
        | cases h1
    · cases h1
  · split at h1 <;> simp only [*] at h2
    · rw [← h1] at h2; cases h2
    · rw [← h1] at h2; cases h2
    · exact keys h1 h2
    · exact key h1 h2
  · exact keys h1 h2
  · rw [← h1] at h2; cases h2
  · cases h1
  · exact key h1 h2

theorem pairwise_eq {A : Type} {R : A → A → Prop} {l : List A} (h : l.Pairwise R) {a b : A} (ha : a ∈ l) (hb : b ∈ l) (h1 : ¬ R a b)
    (h2 : ¬ R b a) : a = b := by
  induction h with
  | nil => cases ha
  | cons h _ ih =>
    rcases List.mem_cons.mp ha with rfl | ha
    · rcases List.mem_cons.mp hb with rfl | hb
      · rfl
      · exact absurd (h _ hb) h1
    · rcases List.mem_cons.mp hb with rfl | hb
      · exact absurd (h _ ‹_ ∈ _›) h2
      · exact ih ha hb

theorem selects_exact {same : Nat → Nat → Prop} {cs : Bool} {names : List (List Byte)} {key : List Byte} {i : Nat}
    (h : names[i]? = some key) : SelectsHere same cs names key i := by
  refine ⟨.inl h, fun _ => .inr ?_⟩
  by_cases hk : ∀ c ∈ key, c < 0x80
  · exact .inl hk
  · simp only [Classical.not_forall] at hk
    obtain ⟨c, hc, hk⟩ := hk
    exact .inr ⟨key, List.mem_of_getElem? h, c, hc, hk⟩

theorem fields_visit {html strict cs : Bool} {same : Nat → Nat → Prop} {R : Ty → TextRel' F} {D : Ty → Rel F} {z v : Val F}
    {all : List EncField} (hn : ∀ f ∈ all, ValidUtf8 f.name)
    (hpl : all.Pairwise fun f g => ¬ f.path <+: g.path ∧ ¬ g.path <+: f.path)
    (hz : Elsewhere zero (fun p T => ∃ f ∈ all, f.path = p ∧ f.ty = T ∧ Written Γ E v f) z v)
    (hD : ∀ f ∈ all, ∀ x u, Reaches f.path v x → (f.omitEmpty = true → EmptyHere Γ E f.ty x false) → R f.ty f.quoted x u →
      D f.ty { quoted := f.quoted } (zero f.ty) u x)
    {rest : List EncField} {ts : List (List Byte)} (ht : FieldTexts html (EmptyHere Γ E) R v rest ts) :
    ∀ (done : List EncField) (s : Val F), all = done ++ rest → Part zero (fun q => ∃ f ∈ done, f.path = q ∧ Written Γ E v f) z v s →
      ∃ ms, Each MemberOf ts ms ∧
        Visits (MemberRel strict zero (SelectsHere same cs ((all.map fun f => (⟨f.name, f.quoted, f.path, f.ty⟩ : Field)).map Field.name))
          (all.map fun f => ⟨f.name, f.quoted, f.path, f.ty⟩) D) s ms v := by
  have hu : ∀ p T p' T', (∃ f ∈ all, f.path = p ∧ f.ty = T ∧ Written Γ E v f) → (∃ f ∈ all, f.path = p' ∧ f.ty = T' ∧ Written Γ E v f) →
      p <+: p' → p = p' ∧ T = T' := by
    rintro p T p' T' ⟨f, hf, rfl, rfl, _⟩ ⟨g, hg, rfl, rfl, _⟩ h
    rw [pairwise_eq hpl hf hg (fun hh => hh.1 h) (fun hh => hh.2 h)]
    exact ⟨rfl, rfl⟩
  have skip : ∀ (f : EncField) (done rest : List EncField) (s : Val F), ¬ Written Γ E v f →
      Part zero (fun q => ∃ f ∈ done, f.path = q ∧ Written Γ E v f) z v s →
      Part zero (fun q => ∃ g ∈ done ++ [f], g.path = q ∧ Written Γ E v g) z v s := by
    intro f done rest s hw hp
    refine part_congr hp fun q => ⟨?_, ?_⟩
    · rintro ⟨g, hg, h⟩; exact ⟨g, by simp [hg], h⟩
    · rintro ⟨g, hg, h⟩
      rcases List.mem_append.mp hg with hg | hg
      · exact ⟨g, hg, h⟩
      · rw [List.mem_singleton] at hg
        subst hg
        exact absurd h.2 hw
  induction ht with
  | nil =>
    intro done s hall hp
    rw [List.append_nil] at hall
    subst hall
    have : s = v := part_all hz (fun p => by exact ⟨fun ⟨f, h1, h2, h3⟩ => ⟨f.ty, f, h1, h2, rfl, h3⟩, fun ⟨_, f, h1, h2, _, h3⟩ => ⟨f, h1, h2, h3⟩⟩) hp
    subst this
    exact ⟨[], .nil, .nil _⟩
  | missing f rest ts hm _ ih =>
    intro done s hall hp
    refine ih (done ++ [f]) s (by simp [hall]) (skip f done rest s ?_ hp)
    rintro ⟨x, hx, _⟩
    exact missing_not_reaches hm hx
  | omitted f rest ts x hx ho he _ ih =>
    intro done s hall hp
    refine ih (done ++ [f]) s (by simp [hall]) (skip f done rest s ?_ hp)
    rintro ⟨y, hy, hb⟩
    cases reaches_unique hx hy
    exact emptyHere_not_both he (hb ho)
  | written f rest ts x k u hx he hk hut _ ih =>
    intro done s hall hp
    have hf : f ∈ all := by simp [hall]
    have hw : Written Γ E v f := ⟨x, hx, he⟩
    obtain ⟨s', h1, h2⟩ := part_step (G := fun a b => D f.ty { quoted := f.quoted } a u b) hz hu (p := f.path) (T := f.ty)
      (by rintro q ⟨g, hg, h1, h2⟩; exact ⟨g.ty, g, by simp [hall, hg], h1, rfl, h2⟩) ⟨f, hf, rfl, rfl, hw⟩
      (by
        rintro ⟨g, hg, h1, _⟩
        rw [hall, List.pairwise_append] at hpl
        exact (hpl.2.2 g hg f (by simp)).1 (h1 ▸ List.prefix_rfl))
      hp hx (hD f hf x u hx he hut)
    obtain ⟨ms, h3, h4⟩ := ih (done ++ [f]) s' (by simp [hall]) (part_congr h2 fun q => by
      constructor
      · rintro (⟨g, hg, h⟩ | rfl)
        · exact ⟨g, by simp [hg], h⟩
        · exact ⟨f, by simp, rfl, hw⟩
      · rintro ⟨g, hg, h5, h6⟩
        rcases List.mem_append.mp hg with hg | hg
        · exact .inl ⟨g, hg, h5, h6⟩
        · rw [List.mem_singleton] at hg
          subst hg
          exact .inr h5.symm)
    have hget : (all.map fun f => (⟨f.name, f.quoted, f.path, f.ty⟩ : Field))[done.length]? = some ⟨f.name, f.quoted, f.path, f.ty⟩ := by
      rw [List.getElem?_map, hall, List.getElem?_append_right (Nat.le_refl _), Nat.sub_self]
      rfl
    refine ⟨(k, u) :: ms, .cons ⟨[], [], ?_, ?_, rfl⟩ h3, .cons ⟨f.name, (stringText_valid (hn f hf) hk).1, .inl
      ⟨done.length, _, selects_exact ?_, hget, h1⟩⟩ h4⟩
    · intro c hc; cases hc
    · intro c hc; cases hc
    · rw [List.getElem?_map, hget]; rfl

/-! ## Types -/

/-- What has been written for a value is read as the value. -/
theorem restores_decodes (hE : EncLaws E) (hS : SameTypes Γ E cfg) {same : Nat → Nat → Prop} {T : Ty} {q : Bool} {v : Val F}
    (h : Restores Γ E cfg html T q v) : ∀ {n t}, Enc Γ E html n T q v t →
      DecodesO Γ cfg true (SelectsHere same cfg.caseSensitive) T { quoted := q } (Γ.zero cfg T) t v := by
  induction h with
  | bool q b =>
    intro n t h
    obtain ⟨b', h1, rfl⟩ := enc_plain h (by simp) (by simp)
    cases h1
    have hb : BoolLit (F := F) (.bool false) (if b then trueText else falseText) (.bool b) := by
      cases b
      · exact .inr (.inr ⟨rfl, rfl⟩)
      · exact .inr (.inl ⟨rfl, rfl⟩)
    refine ⟨0, ?_⟩
    simp only [DecodesN]
    cases q
    · exact .inl hb
    · exact .inr ⟨rfl, [], _, .inl rfl, rfl, hb⟩
  | str q s hs =>
    intro n t h
    obtain ⟨s', h1, h⟩ := enc_plain h (by simp) (by simp)
    cases h1
    refine ⟨0, ?_⟩
    simp only [DecodesN]
    refine .inr ?_
    cases q
    · exact ⟨s, (stringText_valid hs h).1, rfl⟩
    · obtain ⟨u, h1, h2⟩ := h
      obtain ⟨h3, h4⟩ := stringText_valid hs h1
      exact ⟨u, (stringText_valid h4 h2).1, .inr ⟨s, h3, rfl⟩⟩
  | int q w z =>
    intro n t h
    obtain ⟨z', h1, hf, rfl⟩ := enc_plain h (by simp) (by simp)
    cases h1
    refine ⟨0, ?_⟩
    simp only [DecodesN]
    refine .inr ⟨_, z, intLit_decimal hf, rfl, ?_⟩
    simp [quotedIf]
  | uint q w z =>
    intro n t h
    obtain ⟨z', h1, hf, rfl⟩ := enc_plain h (by simp) (by simp)
    cases h1
    refine ⟨0, ?_⟩
    simp only [DecodesN]
    refine .inr ⟨_, z, uintLit_decimal hf, rfl, ?_⟩
    simp [quotedIf]
  | float32 q f hf =>
    intro n t h
    have h : NumText E.float32 q (.float f) t := enc_plain h (by simp) (by simp)
    refine ⟨0, ?_⟩
    simp only [DecodesN]
    exact .inr ⟨f, numText_number h, hf t h, rfl⟩
  | float64 q f hf =>
    intro n t h
    have h : NumText E.float64 q (.float f) t := enc_plain h (by simp) (by simp)
    refine ⟨0, ?_⟩
    simp only [DecodesN]
    exact .inr ⟨f, numText_number h, hf t h, rfl⟩
  | number q s hs =>
    intro n t h
    obtain ⟨s', h1, rfl⟩ := enc_plain h (by simp) (by simp)
    cases h1
    have : s ≠ [] := by
      rintro rfl
      obtain ⟨c, u, h, _⟩ := number_head hs
      cases h
    rw [if_neg this]
    refine ⟨0, ?_⟩
    simp only [DecodesN]
    exact .inr ⟨s, hs, .inl rfl, rfl⟩
  | raw q s hs =>
    intro n t h
    have : Val.str s = .str t := enc_plain h (by simp) (by simp)
    cases this
    refine ⟨0, ?_⟩
    simp only [DecodesN]
    exact ⟨hs, rfl⟩
  | any g hg =>
    intro n t h
    obtain ⟨j, h1, h2⟩ := any_restores hg (enc_plain h (by simp) (by simp))
    refine ⟨0, ?_⟩
    simp only [DecodesN]
    exact ⟨j, g, h1, h2, rfl⟩
  | nilPtr q T =>
    intro n t h
    rcases enc_plain h (by simp) (by simp) with ⟨_, rfl⟩ | ⟨x, h1, _⟩
    · exact decodesO_ptr.mpr (.inl ⟨rfl, rfl⟩)
    · cases h1
  | ptr q T v hn hv ih =>
    intro n t h
    rcases enc_plain h (by simp) (by simp) with ⟨h, _⟩ | ⟨x, h1, h2⟩
    · cases h
    · cases h1
      exact decodesO_ptr.mpr (.inr ⟨restores_ne_null hv hn (.inr h2), v, ih (.inr h2), rfl⟩)
  | nilSlice q T U hT =>
    intro n t h
    obtain ⟨m, h⟩ := enc_slice hT h
    refine (decodesO_slice hT).mpr (.inl ⟨?_, rfl⟩)
    unfold SliceTextOf at h
    split at h
    · rcases h with ⟨_, rfl⟩ | ⟨_, h, _⟩
      · rfl
      · cases h
    · rcases h with ⟨_, rfl⟩ | ⟨_, _, h, _⟩
      · rfl
      · cases h
  | bytes q T bytes hT hb =>
    intro n t h
    obtain ⟨m, h⟩ := enc_slice hT h
    unfold SliceTextOf at h
    rw [if_pos rfl] at h
    rcases h with ⟨h, _⟩ | ⟨bytes', h1, rfl⟩
    · cases h
    · have : bytes = bytes' := by
        injection h1 with h1
        refine (List.map_inj_right ?_).mp h1
        intro a b hab
        injection hab with hab
        exact UInt8.toNat_inj.mp (by omega)
      subst this
      refine (decodesO_slice hT).mpr (.inr (.inl ⟨rfl, _, _, bytes, strBody_plain ?_, rfl, hb, rfl⟩))
      split
      · intro c hc; cases hc
      · exact hE.base64 bytes
  | slice q T U vs hT hU _ ih =>
    intro n t h
    obtain ⟨m, h⟩ := enc_slice hT h
    unfold SliceTextOf at h
    rw [if_neg hU] at h
    rcases h with ⟨h, _⟩ | ⟨vs', ts, h1, h2, rfl⟩
    · cases h
    · cases h1
      exact (decodesO_slice hT).mpr (.inr (.inr ⟨ts, vs, bracketed_enclosed _ _ _, each_swap h2 fun a ha b hab => ih a ha (.inr hab), rfl⟩))
  | arr q T U k vs hT _ ih =>
    intro n t h
    obtain ⟨m, vs', ts, h1, hk, h2, rfl⟩ := enc_array hT h
    cases h1
    have hz : Γ.zero cfg T = .arr (List.replicate k (Γ.zero cfg U)) := by
      cases hT with
      | array => rfl
      | named i _ hd => exact hS.zeroArray i k U hd
    have hl := each_length h2
    refine (decodesO_array hT).mpr (.inr ⟨ts, vs, bracketed_enclosed _ _ _, rfl, hk, ?_, ?_, ?_⟩)
    · intro i u hu hi
      have := (List.getElem?_eq_some_iff.mp hu).1
      omega
    · intro i u x hu hx
      have hi : i < k := by have := (List.getElem?_eq_some_iff.mp hx).1; omega
      have : element (Γ.zero cfg U) (Γ.zero cfg T) i = Γ.zero cfg U := by
        rw [hz]
        simp [element, List.getElem?_replicate, hi]
      rw [this]
      exact ih x (List.mem_of_getElem? hx) (.inr (each_get h2 hx hu))
    · intro i x hi hx
      have := (List.getElem?_eq_some_iff.mp hx).1
      omega
  | nilMap q T U K hT =>
    intro n t h
    obtain ⟨m, h⟩ := enc_map hT h
    rcases h with ⟨_, rfl⟩ | ⟨_, _, _, h, _⟩
    · exact (decodesO_map hT).mpr (.inl ⟨rfl, rfl⟩)
    · cases h
  | map q T U K m hT hk _ ih =>
    intro n t h
    obtain ⟨n', h⟩ := enc_map hT h
    rcases h with ⟨h, _⟩ | ⟨m', keys, ts, h1, _, h2, h3, rfl⟩
    · cases h
    · cases h1
      have hz : entries (Γ.zero cfg T) = fun _ => none := by
        cases hT with
        | map => rfl
        | named i _ hd => show entries (Γ.zeroNamed i) = _; rw [hS.zeroMap i K U hd]; rfl
      have hkey : ∀ k kt x, m k = some x → KeyText E html K k kt → KeyRel Γ true K kt k := by
        intro k kt x hx h
        have hr := hk k x hx
        cases K with
        | str => obtain ⟨s, rfl, h⟩ := h; exact .inl ⟨s, (stringText_valid hr h).1, rfl⟩
        | int w => obtain ⟨z, rfl, hf, rfl⟩ := h; exact .inl ⟨_, z, intLit_decimal hf, rfl, rfl⟩
        | uint w => obtain ⟨z, rfl, hf, rfl⟩ := h; exact .inl ⟨_, z, uintLit_decimal hf, rfl, rfl⟩
        | text i =>
          obtain ⟨s, h1, h2⟩ := h
          obtain ⟨hs, x, h3, h4⟩ := hr s h1
          exact .inl ⟨s, x, (stringText_valid hs h2).1, h3, h4.symm⟩
      have : ∃ ms xs, Each MemberOf ts ms ∧
          Each (fun (m : List Byte × List Byte) (x : Key × Val F) => KeyRel Γ true K m.1 x.1 ∧
            DecodesO Γ cfg true (SelectsHere same cfg.caseSensitive) U {} (Γ.zero cfg U) m.2 x.2) ms xs ∧
          (∀ x ∈ xs, m x.1 = some x.2) ∧ ∀ k ∈ keys, ∃ x ∈ xs, x.1 = k := by
        rename_i hnd
        clear h2 h hnd
        induction h3 with
        | nil => exact ⟨[], [], .nil, .nil, by simp, by simp⟩
        | cons h _ ih' =>
          obtain ⟨ms, xs, h4, h5, h6, h7⟩ := ih'
          obtain ⟨x, kt, xt, hx, hkt, hxt, rfl⟩ := h
          refine ⟨(kt, xt) :: ms, (_, x) :: xs, .cons ⟨[], [], ?_, ?_, rfl⟩ h4, .cons ⟨hkey _ _ _ hx hkt, ih _ x hx (.inl hxt)⟩ h5, ?_, ?_⟩
          · intro c hc; cases hc
          · intro c hc; cases hc
          · intro y hy
            rcases List.mem_cons.mp hy with rfl | hy
            · exact hx
            · exact h6 y hy
          · intro k hk
            rcases List.mem_cons.mp hk with rfl | hk
            · exact ⟨_, List.mem_cons_self, rfl⟩
            · obtain ⟨y, hy, rfl⟩ := h7 k hk
              exact ⟨y, by simp [hy], rfl⟩
      obtain ⟨ms, xs, h4, h5, h6, h7⟩ := this
      refine (decodesO_map hT).mpr (.inr ⟨ms, xs, ⟨ts, bracketed_enclosed _ _ _, h4⟩, h5, ?_⟩)
      congr 1
      funext k
      rw [← find_entries h6 (fun k hk => h7 k ((h2 k).mpr hk)) k, hz]
      unfold putAll
      cases xs.reverse.find? fun x => x.1 == k <;> rfl
  | struct q i fs vs hd hz _ ih =>
    intro n t h
    obtain ⟨m, vs', ts, h1, h2, rfl⟩ := enc_struct hd h
    cases h1
    have hfs := hS.fields i fs hd
    subst hfs
    obtain ⟨ms, h3, h4⟩ := fields_visit (zero := Γ.zero cfg) (strict := cfg.disallowUnknownFields) (cs := cfg.caseSensitive) (same := same)
      (D := DecodesO Γ cfg true (SelectsHere same cfg.caseSensitive)) (hS.names i) (hS.places i) hz
      (fun f hf x u hx he hu => ih f hf x hx he (.inr hu)) h2 [] (Γ.zeroNamed i) rfl (.nothing _ _ _ (by simp))
    exact (decodesO_struct hd).mpr (.inr ⟨ms, ⟨ts, bracketed_enclosed _ _ _, h3⟩, h4⟩)
  | json q i v hj hp =>
    intro n t h
    rcases enc_json h with h | ⟨h1, h2⟩
    · refine ⟨0, ?_⟩
      simp only [DecodesN]
      exact hj t h
    · refine ⟨0, ?_⟩
      simp only [DecodesN]
      exact hp h1 t h2
  | text q i v ht hv =>
    intro n t h
    obtain ⟨s, h1, h2⟩ := enc_text hv h
    obtain ⟨h3, h4⟩ := ht s h1
    refine ⟨0, ?_⟩
    simp only [DecodesN]
    exact .inr ⟨s, (stringText_valid h3 h2).1, h4⟩

end

end Jzon
