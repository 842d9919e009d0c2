import Verif.Spec.Order
import Verif.Proof.Clean
import Verif.Proof.Reorder

/-!
# The order in which maps are visited
-/

set_option linter.unusedSimpArgs false

namespace Jzon

open Spec

section
variable {F : Type} {Γ : TyEnv F} {E : EncEnv F} {html : Bool} {P : List Byte → Prop} {rel : List Byte → List Byte → Prop}

/-- The text of a member. -/
def memberText (m : List Byte × List Byte) : List Byte := m.1 ++ 0x3A :: m.2

/-- The text of an object. -/
def objectText (ms : List (List Byte × List Byte)) : List Byte := bracketed 0x7B 0x7D (ms.map memberText)

/-- A relation between the texts of a value for two orders. -/
structure OrderRel (Γ : TyEnv F) (E : EncEnv F) (html : Bool) (P : List Byte → Prop) (C : Ty → Val F → Prop)
    (rel : List Byte → List Byte → Prop) : Prop where
  refl : ∀ t, P t → rel t t
  trans : ∀ t u t', rel t u → rel u t' → rel t t'
  array : ∀ ts ts', Each rel ts ts' → rel (bracketed 0x5B 0x5D ts) (bracketed 0x5B 0x5D ts')
  object : ∀ ms ms', Each (fun m m' : List Byte × List Byte => m.1 = m'.1 ∧ MemberName html m.1 ∧ rel m.2 m'.2) ms ms' →
    rel (objectText ms) (objectText ms')
  perm : ∀ (T : Ty) K U m (es : List (Key × List Byte × List Byte)) es', Is Γ T (.map K U) → C T (.map m) → (es.map (·.1)).Nodup →
    (∀ e ∈ es, (m e.1).isSome ∧ KeyText E html K e.1 e.2.1 ∧ ∃ u, rel e.2.2 u) → es.Perm es' →
    rel (objectText (es.map (·.2))) (objectText (es'.map (·.2)))

/-- If the first encoder writes a text, so does the second one, and the texts are related. -/
structure OrderTwin (html : Bool) (rel : List Byte → List Byte → Prop) (C : Val F → Prop) (enc enc' : ValEncoder F) : Prop where
  empty : ∀ v b, enc.isEmpty v = .ok b → enc'.isEmpty v = .ok b
  val : ∀ q v s s', s.error = none → s'.error = none → s.html = html → s'.html = html → C v → (enc.encode q (some v) s).error = none →
    ∃ t t', enc.encode q (some v) s = put s t ∧ enc'.encode q (some v) s' = put s' t' ∧ rel t t'
  nil : ∀ q s s', s.error = none → s'.error = none → (enc.encode q none s).error = none →
    enc.encode q none s = put s nullText ∧ enc'.encode q none s' = put s' nullText

/-- The encoder writes the same text wherever it is called. -/
structure Steady (html : Bool) (P : List Byte → Prop) (C : Val F → Prop) (enc : ValEncoder F) : Prop where
  val : ∀ q v s, s.error = none → s.html = html → C v → (enc.encode q (some v) s).error = none →
    ∃ t, P t ∧ ∀ s', s'.error = none → s'.html = html → enc.encode q (some v) s' = put s' t
  nil : ∀ q s, s.error = none → (enc.encode q none s).error = none → ∀ s', s'.error = none → enc.encode q none s' = put s' nullText

theorem Steady.twin {C : Val F → Prop} {enc : ValEncoder F} (h : Steady html P C enc) (hr : ∀ t, P t → rel t t) : OrderTwin html rel C enc enc where
  empty _ _ h := h
  val q v s s' hs hs' hh hh' hc he := by
    obtain ⟨t, h1, h2⟩ := h.val q v s hs hh hc he
    exact ⟨t, t, h2 s hs hh, h2 s' hs' hh', hr t h1⟩
  nil q s s' hs hs' he := ⟨h.nil q s hs he s hs, h.nil q s hs he s' hs'⟩

variable {C : Val F → Prop}

theorem steady_bool (hX : Texts E html P) : Steady html P C (boolEncoder (F := F)) where
  val q v s hs hh hc h := by
    cases v <;> simp only [boolEncoder, fail_error hs] at h ⊢ <;> try (cases h)
    rename_i b
    refine ⟨_, hX.bool q b, fun s' hs' hh' => ?_⟩
    cases q with
    | false => simp [quotedIf, bool_put hs']
    | true => cases b <;> simp [quotedIf, string_put hs', quotedStr_true, quotedStr_false]
  nil q s hs _ s' hs' := null_put hs'

theorem steady_str (hX : Texts E html P) : Steady html P C (stringEncoder E) where
  val q v s hs hh hc h := by
    cases v <;> simp only [stringEncoder, fail_error hs] at h ⊢ <;> try (cases h)
    rename_i x
    cases q with
    | false => exact ⟨_, hX.str _ _ (quotedStr_text html x), fun s' hs' hh' => by simp [string_put hs', hh']⟩
    | true =>
      refine ⟨_, hX.str _ _ (quotedStr_text html (quotedStr E.escapeHTML x)), fun s' hs' hh' => ?_⟩
      have h0 : (newStreamer E ⟨none, [], none, false, false⟩).error = none := rfl
      have h1 : put (newStreamer E ⟨none, [], none, false, false⟩) (quotedStr E.escapeHTML x) =
        ⟨none, quotedStr E.escapeHTML x, none, true, E.escapeHTML⟩ := rfl
      have h2 : (newStreamer E ⟨none, [], none, false, false⟩).html = E.escapeHTML := rfl
      simp [string_put h0, h2, h1, string_put hs', hh']
  nil q s hs _ s' hs' := null_put hs'

theorem steady_int (hX : Texts E html P) {app : Int → List Byte → Option (List Byte)} {fits : Int → Prop}
    (hf : ∀ z, (fits z ∧ ∀ b, app z b = some (b ++ decimalInt z)) ∨ ∀ b, app z b = none) : Steady html P C (intEncoder (F := F) app) where
  val q v s hs hh hc h := by
    cases v <;> simp only [intEncoder, fail_error hs] at h ⊢ <;> try (cases h)
    rename_i z
    rcases hf z with ⟨hz, ha⟩ | ha
    · refine ⟨_, hX.int q z, fun s' hs' hh' => ?_⟩
      cases q with
      | false => simp only [Bool.false_eq_true, not_false_eq_true, if_true]; exact writeVal_eq hs' ha
      | true =>
        simp only [not_true_eq_false, if_false]
        exact writeVal_eq hs' fun b => by simp [Streamer.quoted, ha, quotedIf, inQuotes]
    · exfalso
      cases q <;> simp [Streamer.writeVal, hs, Streamer.quoted, ha] at h
  nil q s hs _ s' hs' := null_put hs'

theorem steady_float (hX : Texts E html P) {arg : F → FloatArg}
    (hl : ∀ f, (arg f).isInf = false → (arg f).isNaN = false → ∃ small big, FloatLaws (arg f) small big) : Steady html P C (floatEncoder arg) where
  val q v s hs hh hc h := by
    cases v <;> simp only [floatEncoder, fail_error hs] at h ⊢ <;> try (cases h)
    rename_i f
    have h1 : (arg f).isInf = false := by
      cases hi : (arg f).isInf with
      | false => rfl
      | true => simp [Streamer.float, hs, hi] at h
    have h2 : (arg f).isNaN = false := by
      cases hi : (arg f).isNaN with
      | false => rfl
      | true => simp [Streamer.float, hs, h1, hi] at h
    obtain ⟨small, big, hf⟩ := hl f h1 h2
    obtain ⟨t, ht⟩ := floatText_exists hf
    exact ⟨t, hX.num _ _ _ _ hf ht, fun s' hs' _ => float_eq hs' h1 h2 hf ht⟩
  nil q s hs _ s' hs' := null_put hs'

theorem steady_number (hX : Texts E html P) (hC : ∀ x, C (.str x) → x = [] ∨ P x) : Steady html P C (numberEncoder (F := F)) where
  val q v s hs hh hc h := by
    cases v <;> simp only [numberEncoder, fail_error hs] at h ⊢ <;> try (cases h)
    exact ⟨_, numberText_holds (q := q) hX ⟨_, rfl, rfl⟩ (hC _ hc), fun s' hs' _ => raw_put hs' _⟩
  nil q s hs _ s' hs' := null_put hs'

theorem steady_raw (hC : ∀ x, C (.str x) → P x) : Steady html P C (rawEncoder (F := F)) where
  val q v s hs hh hc h := by
    cases v <;> simp only [rawEncoder, fail_error hs] at h ⊢ <;> try (cases h)
    exact ⟨_, hC _ hc, fun s' hs' _ => raw_put hs' _⟩
  nil q s hs _ s' hs' := null_put hs'

theorem steady_base64 (hX : Texts E html P) : Steady html P C (base64Encoder E) where
  val q v s hs hh hc h := by
    simp only [base64Encoder, hs, ne_eq, not_true_eq_false, if_false] at h ⊢
    cases v <;> simp only [fail_error hs] at h ⊢ <;> try (cases h)
    · exact ⟨_, hX.null, fun s' hs' _ => by simp [hs', null_put hs']⟩
    · rename_i vs
      cases hb : bytesOf vs with
      | none => simp only [hb, fail_error hs] at h; cases h
      | some bytes =>
        refine ⟨_, hX.base64 bytes, fun s' hs' _ => ?_⟩
        simp only [hs', ne_eq, not_true_eq_false, if_false]
        refine writeVal_eq hs' fun b => ?_
        cases bytes <;> simp [inQuotes]
  nil q s hs h s' hs' := by
    simp only [base64Encoder, hs', ne_eq, not_true_eq_false, if_false]
    exact null_put hs'

theorem steady_emptyArray (hX : Texts E html P) : Steady html P C (emptyArrayEncoder (F := F)) where
  val q v s hs hh hc h := by
    cases v <;> simp only [emptyArrayEncoder, fail_error hs] at h ⊢ <;> try (cases h)
    rename_i vs
    cases vs with
    | cons v vs => simp only [fail_error hs] at h; cases h
    | nil => exact ⟨_, hX.array [] (by simp), fun s' hs' _ => raw_put hs' _⟩
  nil q s hs _ s' hs' := null_put hs'

theorem steady_emptyStruct (hX : Texts E html P) : Steady html P C (emptyStructEncoder (F := F)) where
  val q v s hs hh hc h := by
    cases v <;> simp only [emptyStructEncoder, fail_error hs] at h ⊢ <;> try (cases h)
    exact ⟨_, hX.object [] (by simp), fun s' hs' _ => raw_put hs' _⟩
  nil q s hs _ s' hs' := null_put hs'

theorem steady_notSupported : Steady html P C (notSupportedEncoder (F := F)) where
  val q v s hs hh hc h := by simp only [notSupportedEncoder, fail_error hs] at h; cases h
  nil q s hs h := by simp only [notSupportedEncoder, fail_error hs] at h; cases h

/-- What is written for a value wherever a method is called. -/
def SteadyWrite (html : Bool) (P : List Byte → Prop) (C : Val F → Prop) (write : Val F → Streamer → Streamer) : Prop :=
  ∀ v s, s.error = none → s.html = html → C v → (write v s).error = none → ∃ t, P t ∧ ∀ s', s'.error = none → s'.html = html → write v s' = put s' t

theorem steady_writeJSON {f : Val F → Except EncErr (List Byte)} (hC : ∀ v t, C v → f v = .ok t → P t) : SteadyWrite html P C (writeJSON f) := by
  intro v s hs hh hc h
  simp only [writeJSON] at h ⊢
  cases hf : f v with
  | error e => simp only [hf] at h; cases h
  | ok b => exact ⟨b, hC v b hc hf, fun s' hs' _ => raw_put hs' b⟩

theorem steady_writeText (hX : Texts E html P) {f : Val F → Except EncErr (List Byte)} : SteadyWrite html P C (writeText f) := by
  intro v s hs hh hc h
  simp only [writeText] at h ⊢
  cases hf : f v with
  | error e => simp only [hf] at h; cases h
  | ok b => exact ⟨_, hX.str _ _ (quotedStr_text html b), fun s' hs' hh' => by simp only; rw [string_put hs', hh']⟩

theorem steady_marshaler {isEmpty : Val F → Except EncErr Bool} {write : Val F → Streamer → Streamer} (hw : SteadyWrite html P C write) :
    Steady html P C (marshalerEncoder isEmpty write) where
  val q v s hs hh hc h := by
    simp only [marshalerEncoder, hs, ne_eq, not_true_eq_false, if_false] at h ⊢
    obtain ⟨t, h1, h2⟩ := hw v s hs hh hc h
    exact ⟨t, h1, fun s' hs' hh' => by simp only [hs', ne_eq, not_true_eq_false, if_false]; exact h2 s' hs' hh'⟩
  nil q s hs h s' hs' := by simp only [marshalerEncoder, hs', ne_eq, not_true_eq_false, if_false]; exact null_put hs'

theorem steady_pointer (hX : Texts E html P) {D : Val F → Prop} {write : Val F → Streamer → Streamer} (hw : SteadyWrite html P C write)
    (hD : ∀ v, D (.ptr v) → C v) : Steady html P D (pointerMarshalerEncoder write) where
  val q v s hs hh hc h := by
    simp only [pointerMarshalerEncoder, hs, ne_eq, not_true_eq_false, if_false] at h ⊢
    cases v <;> simp only [fail_error hs] at h ⊢ <;> try (cases h)
    · exact ⟨_, hX.null, fun s' hs' _ => by simp [hs', null_put hs']⟩
    · rename_i x
      obtain ⟨t, h1, h2⟩ := hw x s hs hh (hD x hc) h
      exact ⟨t, h1, fun s' hs' hh' => by simp only [hs', ne_eq, not_true_eq_false, if_false]; exact h2 s' hs' hh'⟩
  nil q s hs h s' hs' := by simp only [pointerMarshalerEncoder, hs', ne_eq, not_true_eq_false, if_false]; exact null_put hs'

theorem steady_direct (hX : Texts E html P) {write : Val F → Streamer → Streamer} (hw : SteadyWrite html P C write) :
    Steady html P C (directEncoder (pointerMarshalerEncoder write)) where
  val q v s hs hh hc h := by
    simp only [directEncoder] at h ⊢
    have := steady_pointer (D := fun x => ∃ y, x = .ptr y ∧ C y) hX hw (by rintro v ⟨y, hy, hc⟩; cases hy; exact hc)
    exact this.val q (.ptr v) s hs hh ⟨v, rfl, hc⟩ h
  nil q s hs h s' hs' := by
    simp only [directEncoder, pointerMarshalerEncoder, hs', ne_eq, not_true_eq_false, if_false]
    exact null_put hs'

/-! ## Parts -/

theorem twin_ptr (hX : Texts E html P) (hr : ∀ t, P t → rel t t) {D : Val F → Prop} {enc enc' : ValEncoder F} (he : OrderTwin html rel C enc enc')
    (hD : ∀ v, D (.ptr v) → C v) : OrderTwin html rel D (ptrEncoder enc) (ptrEncoder enc') where
  empty _ _ h := h
  val q v s s' hs hs' hh hh' hc h := by
    cases v <;> simp only [ptrEncoder, fail_error hs] at h ⊢ <;> try (cases h)
    · obtain ⟨h1, h2⟩ := he.nil q s s' hs hs' h
      exact ⟨_, _, h1, h2, hr _ hX.null⟩
    · exact he.val q _ s s' hs hs' hh hh' (hD _ hc) h
  nil q s s' hs hs' h := ⟨null_put hs, null_put hs'⟩

theorem twin_elems {enc enc' : ValEncoder F} (he : OrderTwin html rel C enc enc') {vs : List (Val F)} (hc : ∀ v ∈ vs, C v) {s s' : Streamer}
    (hs : s.error = none) (hs' : s'.error = none) (hh : s.html = html) (hh' : s'.html = html) (h : (elemsEncode enc vs s).error = none) :
    ∃ ts ts', Each rel ts ts' ∧ elemsEncode enc vs s = closed s ts 0x5D ∧ elemsEncode enc' vs s' = closed s' ts' 0x5D := by
  induction vs generalizing s s' with
  | nil => exact ⟨[], [], .nil, by simp [elemsEncode, Streamer.arrayEnd, hs, closed, joined], by simp [elemsEncode, Streamer.arrayEnd, hs', closed, joined]⟩
  | cons v vs ih =>
    simp only [elemsEncode] at h ⊢
    by_cases hv : (enc.encode false (some v) s).error = none
    · obtain ⟨t, t', h1, h2, h3⟩ := he.val _ _ s s' hs hs' hh hh' (hc v (by simp)) hv
      simp only [hv, ne_eq, not_true_eq_false, if_false] at h ⊢
      rw [h1] at h hv ⊢
      rw [h2]
      have hp : (put s' t').error = none := hs'
      simp only [hp, ne_eq, not_true_eq_false, if_false]
      obtain ⟨ts, ts', h4, h5, h6⟩ := ih (fun x hx => hc x (by simp [hx])) hv hp hh hh' h
      exact ⟨t :: ts, t' :: ts', .cons h3 h4, by rw [h5, closed_cons], by rw [h6, closed_cons]⟩
    · simp [hv] at h

theorem twin_slice (hX : Texts E html P) (hr : ∀ t, P t → rel t t) (ha : ∀ ts ts', Each rel ts ts' → rel (bracketed 0x5B 0x5D ts) (bracketed 0x5B 0x5D ts'))
    {D : Val F → Prop} {enc enc' : ValEncoder F} (he : OrderTwin html rel C enc enc') (hD : ∀ vs, D (.slice vs) → ∀ v ∈ vs, C v) :
    OrderTwin html rel D (sliceEncoder enc) (sliceEncoder enc') where
  empty _ _ h := h
  val q v s s' hs hs' hh hh' hc h := by
    simp only [sliceEncoder, hs, hs', ne_eq, not_true_eq_false, if_false] at h ⊢
    cases v <;> simp only [fail_error hs] at h ⊢ <;> try (cases h)
    · exact ⟨_, _, null_put hs, null_put hs', hr _ hX.null⟩
    · rename_i vs
      by_cases hn : vs.length = 0
      · simp only [hn, if_true]
        exact ⟨_, _, raw_put hs _, raw_put hs' _, ha [] [] .nil⟩
      · simp only [hn, if_false] at h ⊢
        rw [arrayStart_eq hs] at h ⊢
        rw [arrayStart_eq hs']
        obtain ⟨ts, ts', h1, h2, h3⟩ := twin_elems he (hD vs hc) (s := inside s 0x5B) (s' := inside s' 0x5B) hs hs' hh hh' h
        exact ⟨_, _, by rw [h2, closed_inside], by rw [h3, closed_inside], ha _ _ h1⟩
  nil q s s' hs hs' h := by
    simp only [sliceEncoder, hs, hs', ne_eq, not_true_eq_false, if_false] at h ⊢
    exact ⟨null_put hs, null_put hs'⟩

theorem twin_array (ha : ∀ ts ts', Each rel ts ts' → rel (bracketed 0x5B 0x5D ts) (bracketed 0x5B 0x5D ts'))
    {D : Val F → Prop} {enc enc' : ValEncoder F} (he : OrderTwin html rel C enc enc') (n : Nat) (hD : ∀ vs, D (.arr vs) → ∀ v ∈ vs, C v) :
    OrderTwin html rel D (arrayEncoder n enc) (arrayEncoder n enc') where
  empty _ _ h := h
  val q v s s' hs hs' hh hh' hc h := by
    cases v <;> simp only [arrayEncoder, fail_error hs] at h ⊢ <;> try (cases h)
    rename_i vs
    by_cases hn : vs.length = n
    · simp only [hn, ne_eq, not_true_eq_false, if_false] at h ⊢
      rw [arrayStart_eq hs] at h ⊢
      rw [arrayStart_eq hs']
      obtain ⟨ts, ts', h1, h2, h3⟩ := twin_elems he (hD vs hc) (s := inside s 0x5B) (s' := inside s' 0x5B) hs hs' hh hh' h
      exact ⟨_, _, by rw [h2, closed_inside], by rw [h3, closed_inside], ha _ _ h1⟩
    · simp only [ne_eq, hn, not_false_eq_true, if_true, fail_error hs] at h
      cases h
  nil q s s' hs hs' h := ⟨null_put hs, null_put hs'⟩

/-- The name of a key is the same wherever it is written. -/
theorem steady_key {k : KeyTy} {key : Key} {s : Streamer} (hs : s.error = none)
    (h : (keyEncode E k key s).error = none) :
    ∃ t, KeyText E html k key t ∧ ∀ s', s'.error = none → s'.html = html → keyEncode E k key s' = named s' t := by
  unfold keyEncode at h ⊢
  cases hc : keyCoder E k with
  | none => simp only [hc, fail_error hs] at h; cases h
  | some c =>
    cases c with
    | str =>
      cases key <;> simp only [hc, fail_error hs] at h ⊢ <;> try (cases h)
      exact ⟨_, keyText_of_str hc (quotedStr_text html _), fun s' hs' hh' => by rw [streamer_field_eq hs', hh']⟩
    | text i =>
      simp only [hc] at h ⊢
      obtain ⟨x, h1, _⟩ := textKey_named hs (f := E.marshalText i) (key := key) (by cases key <;> exact h)
      refine ⟨_, keyText_of_text hc h1 (quotedStr_text html x), fun s' hs' hh' => ?_⟩
      unfold textKeyEncode
      simp only [hs', ne_eq, not_true_eq_false, if_false, h1]
      simp [string_put hs', put, named, hh']
    | int w =>
      cases key <;> simp only [hc, fail_error hs] at h ⊢ <;> try (cases h)
      simp only [hs, ne_eq, not_true_eq_false, if_false] at h ⊢
      rename_i z
      rcases int_app w z with ⟨hz, ha⟩ | ha
      · exact ⟨_, keyText_of_int hc hz, fun s' hs' _ => by simp [Streamer.quoted, ha, rawField_eq hs', hs', inQuotes]⟩
      · simp [Streamer.quoted, ha, fail_error hs] at h
    | uint w =>
      cases key <;> simp only [hc, fail_error hs] at h ⊢ <;> try (cases h)
      simp only [hs, ne_eq, not_true_eq_false, if_false] at h ⊢
      rename_i z
      rcases uint_app w z with ⟨hz, ha⟩ | ha
      · exact ⟨_, keyText_of_uint hc hz, fun s' hs' _ => by simp [Streamer.quoted, ha, rawField_eq hs', hs', inQuotes]⟩
      · simp [Streamer.quoted, ha, fail_error hs] at h

/-- What is known of an entry of a map that was written: its key, its name and the text of its value. -/
def EntryOk (E : EncEnv F) (html : Bool) (rel : List Byte → List Byte → Prop) (k : KeyTy) (enc' : ValEncoder F) (m : Key → Option (Val F))
    (e : Key × List Byte × List Byte) : Prop :=
  ∃ x, m e.1 = some x ∧ KeyText E html k e.1 e.2.1 ∧ (∀ s', s'.error = none → s'.html = html → keyEncode E k e.1 s' = named s' e.2.1) ∧
    ∀ s', s'.error = none → s'.html = html → ∃ t', enc'.encode false (some x) s' = put s' t' ∧ rel e.2.2 t'

theorem members_entries {k : KeyTy} {enc enc' : ValEncoder F} (he : OrderTwin html rel C enc enc') {m : Key → Option (Val F)}
    (hc : ∀ key x, m key = some x → C x) {keys : List Key} {s : Streamer} (hs : s.error = none) (hh : s.html = html)
    (h : (membersEncode E k enc m keys s).error = none) :
    ∃ es : List (Key × List Byte × List Byte), es.map (·.1) = keys ∧ (∀ e ∈ es, EntryOk E html rel k enc' m e) ∧
      membersEncode E k enc m keys s = closed s ((es.map (·.2)).map memberText) 0x7D := by
  induction keys generalizing s with
  | nil => exact ⟨[], rfl, by simp, by simp [membersEncode, Streamer.objectEnd, hs, closed, joined]⟩
  | cons key keys ih =>
    simp only [membersEncode] at h ⊢
    by_cases hk : (keyEncode E k key s).error = none
    · simp only [hk, ne_eq, not_true_eq_false, if_false] at h ⊢
      obtain ⟨kt, h1, h2⟩ := steady_key (html := html) hs hk
      rw [h2 s hs hh] at h hk ⊢
      cases hm : m key with
      | none => simp only [hm, fail_error hk] at h; cases h
      | some x =>
        simp only [hm] at h ⊢
        by_cases hv : (enc.encode false (some x) (named s kt)).error = none
        · have hx := fun s' hs' hh' => he.val false x (named s kt) s' hk hs' hh hh' (hc key x hm) hv
          obtain ⟨t, _, h4, _⟩ := hx (named s kt) hk hh
          simp only [hv, ne_eq, not_true_eq_false, if_false] at h ⊢
          have hv' := hv
          rw [h4] at hv' h
          rw [h4, put_named]
          rw [put_named] at hv' h
          obtain ⟨es, h5, h6, h7⟩ := ih hv' hh h
          refine ⟨(key, kt, t) :: es, by simp [h5], ?_, by rw [h7, closed_cons]; rfl⟩
          intro e hemem
          rcases List.mem_cons.mp hemem with rfl | hemem
          · refine ⟨x, hm, h1, h2, fun s' hs' hh' => ?_⟩
            obtain ⟨u, t', h8, h9, h10⟩ := hx s' hs' hh'
            rw [h4] at h8
            have : t = u := by
              have := congrArg Streamer.buffer h8
              simpa [put] using this
            subst this
            exact ⟨t', h9, h10⟩
          · exact h6 e hemem
        · simp [hv] at h
    · simp [hk] at h

/-- The entries can be written in any order. -/
theorem entries_members {sh : Streamer → List Key → List Key} {k : KeyTy} {enc' : ValEncoder F} {m : Key → Option (Val F)}
    {es : List (Key × List Byte × List Byte)}
    (h : ∀ e ∈ es, EntryOk E html rel k enc' m e) {s : Streamer} (hs : s.error = none) (hh : s.html = html) :
    ∃ ms, Each (fun m m' : List Byte × List Byte => m.1 = m'.1 ∧ MemberName html m.1 ∧ rel m.2 m'.2) (es.map (·.2)) ms ∧
      membersEncode (E.visiting sh) k enc' m (es.map (·.1)) s = closed s (ms.map memberText) 0x7D := by
  induction es generalizing s with
  | nil => exact ⟨[], .nil, by simp [membersEncode, Streamer.objectEnd, hs, closed, joined]⟩
  | cons e es ih =>
    obtain ⟨x, h1, h2, h3, h4⟩ := h e (by simp)
    have hk : keyEncode (E.visiting sh) k e.1 s = named s e.2.1 := h3 s hs hh
    have hn : (named s e.2.1).error = none := hs
    obtain ⟨t', h5, h6⟩ := h4 (named s e.2.1) hn hh
    have hp : (put s (e.2.1 ++ 0x3A :: t')).error = none := hs
    obtain ⟨ms, h7, h8⟩ := ih (fun e he => h e (by simp [he])) hp (s := put s (e.2.1 ++ 0x3A :: t')) hh
    refine ⟨(e.2.1, t') :: ms, .cons ⟨rfl, keyText_name h2, h6⟩ h7, ?_⟩
    simp only [List.map_cons, membersEncode, hk, hn, h1, h5, put_named, hp, ne_eq, not_true_eq_false, if_false]
    rw [h8, closed_cons]
    rfl

theorem perm_entries {A B : Type} {es : List (A × B)} {ks ks' : List A} (h : es.map (·.1) = ks) (hp : ks.Perm ks') :
    ∃ es' : List (A × B), es'.map (·.1) = ks' ∧ es.Perm es' := by
  induction hp generalizing es with
  | nil => exact ⟨es, h, .refl _⟩
  | cons x hp ih =>
    match es, h with
    | e :: es, h =>
      cases h
      obtain ⟨es', h1, h2⟩ := ih (es := es) rfl
      exact ⟨e :: es', by simp [h1], h2.cons e⟩
  | swap x y l =>
    match es, h with
    | e :: e' :: es, h =>
      cases h
      exact ⟨e' :: e :: es, rfl, .swap _ _ _⟩
  | trans _ _ ih1 ih2 =>
    obtain ⟨es1, h1, h2⟩ := ih1 h
    obtain ⟨es2, h3, h4⟩ := ih2 h1
    exact ⟨es2, h3, h2.trans h4⟩

variable {CT : Ty → Val F → Prop}

theorem twin_map (hE : EncLaws E) (hX : Texts E html P) (hR : OrderRel Γ E html P CT rel) {sh : Streamer → List Key → List Key}
    (hsh : ∀ s keys, (sh s keys).Perm keys) {T U : Ty} {K : KeyTy} (hT : Is Γ T (.map K U)) {enc enc' : ValEncoder F}
    (he : OrderTwin html rel (CT U) enc enc') (hC : ∀ m, CT T (.map m) → ∀ k v, m k = some v → CT U v) :
    OrderTwin html rel (CT T) (mapEncoder E K enc) (mapEncoder (E.visiting sh) K enc') where
  empty _ _ h := h
  val q v s s' hs hs' hh hh' hc h := by
    simp only [mapEncoder, hs, hs', ne_eq, not_true_eq_false, if_false] at h ⊢
    cases v <;> simp only [fail_error hs] at h ⊢ <;> try (cases h)
    · exact ⟨_, _, null_put hs, null_put hs', hR.refl _ hX.null⟩
    · rename_i m
      have hm' : (E.visiting sh).entries m = E.entries m := rfl
      rw [hm']
      cases hm : E.entries m with
      | none => simp only [hm, fail_error hs] at h; cases h
      | some keys =>
        simp only [hm] at h ⊢
        rw [objectStart_eq hs] at h ⊢
        rw [objectStart_eq hs']
        obtain ⟨hd, hk⟩ := hE.entries m keys hm
        have hp := hE.shuffle (inside s 0x7B) keys
        have hp' : (sh (inside s' 0x7B) keys).Perm keys := hsh _ _
        obtain ⟨es, h1, h2, h3⟩ := members_entries he (hC m hc) (s := inside s 0x7B) hs hh h
        obtain ⟨es', h4, h5⟩ := perm_entries h1 (hp.trans hp'.symm)
        obtain ⟨ms, h6, h7⟩ := entries_members (sh := sh) (fun e he' => h2 e (h5.mem_iff.mpr he')) (s := inside s' 0x7B) hs' hh'
        rw [h4] at h7
        refine ⟨objectText (es.map (·.2)), objectText ms, by rw [h3, closed_inside]; rfl, ?_, ?_⟩
        · show membersEncode (E.visiting sh) K enc' m (sh (inside s' 0x7B) keys) (inside s' 0x7B) = _
          rw [h7, closed_inside]
          rfl
        · refine hR.trans _ _ _ (hR.perm T K U m es es' hT hc ?_ ?_ h5) (hR.object _ _ h6)
          · rw [h1]
            exact hp.nodup_iff.mpr hd
          · intro e hemem
            obtain ⟨x, h8, h9, _, h10⟩ := h2 e hemem
            obtain ⟨t', _, h11⟩ := h10 s' hs' hh'
            exact ⟨by simp [h8], h9, t', h11⟩
  nil q s s' hs hs' h := by
    simp only [mapEncoder, hs, hs', ne_eq, not_true_eq_false, if_false] at h ⊢
    exact ⟨null_put hs, null_put hs'⟩

theorem twin_mapOf (hE : EncLaws E) (hX : Texts E html P) (hR : OrderRel Γ E html P CT rel) {sh : Streamer → List Key → List Key}
    (hsh : ∀ s keys, (sh s keys).Perm keys) {T U : Ty} {K : KeyTy} (hT : Is Γ T (.map K U)) {enc enc' : ValEncoder F}
    (he : OrderTwin html rel (CT U) enc enc') (hC : ∀ m, CT T (.map m) → ∀ k v, m k = some v → CT U v) :
    OrderTwin html rel (CT T) (mapEncoderOf E K enc) (mapEncoderOf (E.visiting sh) K enc') := by
  unfold mapEncoderOf
  have : keyCoder (E.visiting sh) K = keyCoder E K := rfl
  rw [this]
  split
  · exact (steady_notSupported (P := P)).twin hR.refl
  · exact twin_map hE hX hR hsh hT he hC

theorem twin_fields {build build' : Ty → ValEncoder F} (he : ∀ T, OrderTwin html rel (CT T) (build T) (build' T))
    {v : Val F} {fs : List EncField} (hc : ∀ f ∈ fs, ∀ x, Reaches f.path v x → CT f.ty x) {s s' : Streamer}
    (hs : s.error = none) (hs' : s'.error = none) (hh : s.html = html) (hh' : s'.html = html) (h : (fieldsEncode build v fs s).error = none) :
    ∃ ms ms', Each (fun m m' : List Byte × List Byte => m.1 = m'.1 ∧ MemberName html m.1 ∧ rel m.2 m'.2) ms ms' ∧
      fieldsEncode build v fs s = closed s (ms.map memberText) 0x7D ∧ fieldsEncode build' v fs s' = closed s' (ms'.map memberText) 0x7D := by
  induction fs generalizing s s' with
  | nil => exact ⟨[], [], .nil, by simp [fieldsEncode, Streamer.objectEnd, hs, closed, joined], by simp [fieldsEncode, Streamer.objectEnd, hs', closed, joined]⟩
  | cons f fs ih =>
    have ih := @ih (fun g hg => hc g (by simp [hg]))
    have hc := hc f (by simp)
    simp only [fieldsEncode] at h ⊢
    cases hf : fieldValue (build f.ty) f v with
    | error e => simp only [hf, fail_error hs] at h; cases h
    | ok o =>
      have hf' : fieldValue (build' f.ty) f v = .ok o ∧ ∀ x, o = some x → Reaches f.path v x := by
        unfold fieldValue at hf ⊢
        cases hp : followPath f.path v with
        | error e => simp only [hp] at hf; cases hf
        | ok r =>
          have hsp := followPath_spec hp
          simp only [hp] at hf ⊢
          cases r with
          | none => cases hf; exact ⟨rfl, fun _ h => by cases h⟩
          | some x =>
            simp only at hf hsp ⊢
            by_cases ho : f.omitEmpty = true
            · simp only [ho, if_true] at hf ⊢
              cases hi : (build f.ty).isEmpty x with
              | error e => simp only [hi] at hf; cases hf
              | ok b =>
                simp only [hi] at hf
                rw [(he f.ty).empty x b hi]
                cases b <;> cases hf
                · exact ⟨rfl, fun _ h => by cases h; exact hsp⟩
                · exact ⟨rfl, fun _ h => by cases h⟩
            · simp only [ho, if_false] at hf ⊢
              cases hf
              exact ⟨rfl, fun _ h => by cases h; exact hsp⟩
      simp only [hf, hf'.1] at h ⊢
      cases o with
      | none => exact ih hs hs' hh hh' h
      | some x =>
        simp only [fieldEncode, encodeString_quoted, List.nil_append, rawField_eq hs, rawField_eq hs'] at h ⊢
        by_cases hv : ((build f.ty).encode f.quoted (some x) (named s (quotedStr s.html f.name))).error = none
        · simp only [hv, ne_eq, not_true_eq_false, if_false] at h ⊢
          obtain ⟨t, t', h1, h2, h3⟩ := (he f.ty).val f.quoted x (named s (quotedStr s.html f.name)) (named s' (quotedStr s'.html f.name)) hs hs' hh hh'
            (hc x (hf'.2 x rfl)) hv
          rw [h1, put_named] at h hv ⊢
          rw [h2, put_named]
          have hp : (put s' (quotedStr s'.html f.name ++ 0x3A :: t')).error = none := hs'
          simp only [hp, ne_eq, not_true_eq_false, if_false]
          obtain ⟨ms, ms', h5, h6, h7⟩ := ih hv hp hh hh' h
          refine ⟨(quotedStr s.html f.name, t) :: ms, (quotedStr s'.html f.name, t') :: ms', .cons ⟨by rw [hh, hh'], ?_, h3⟩ h5,
            by rw [h6, closed_cons]; rfl, by rw [h7, closed_cons]; rfl⟩
          simp only [hh]
          exact .inl ⟨_, quotedStr_text html f.name⟩
        · simp [hv] at h

theorem twin_struct (hR : OrderRel Γ E html P CT rel) {build build' : Ty → ValEncoder F} (he : ∀ T, OrderTwin html rel (CT T) (build T) (build' T))
    {fs : List EncField} {D : Val F → Prop} (hD : ∀ v, D v → ∀ f ∈ fs, ∀ x, Reaches f.path v x → CT f.ty x) :
    OrderTwin html rel D (structEncoder build fs) (structEncoder build' fs) where
  empty _ _ h := h
  val q v s s' hs hs' hh hh' hc h := by
    simp only [structEncoder, hs, hs', ne_eq, not_true_eq_false, if_false] at h ⊢
    rw [objectStart_eq hs] at h ⊢
    rw [objectStart_eq hs']
    obtain ⟨ms, ms', h1, h2, h3⟩ := twin_fields he (hD v hc) (s := inside s 0x7B) (s' := inside s' 0x7B) hs hs' hh hh' h
    exact ⟨_, _, by rw [h2, closed_inside]; rfl, by rw [h3, closed_inside]; rfl, hR.object _ _ h1⟩
  nil q s s' hs hs' h := by
    simp only [structEncoder, hs, hs', ne_eq, not_true_eq_false, if_false] at h ⊢
    exact ⟨null_put hs, null_put hs'⟩

theorem twin_prefer (hX : Texts E html P) (hI : Inherits Γ E P CT) (hr : ∀ t, P t → rel t t) {sh : Streamer → List Key → List Key} {T : Ty} {enc enc' : ValEncoder F}
    (he : OrderTwin html rel (CT T) enc enc') : OrderTwin html rel (CT T) (preferPtrEncoder E T enc) (preferPtrEncoder (E.visiting sh) T enc') := by
  unfold preferPtrEncoder
  have : pointerMethod (E.visiting sh) T = pointerMethod E T := by cases T <;> rfl
  rw [this]
  cases hp : pointerMethod E T with
  | none => exact he
  | some write =>
    refine (steady_direct hX ?_).twin hr
    cases T <;> simp only [pointerMethod] at hp <;> try (cases hp)
    · split at hp
      · cases hp; exact steady_writeJSON fun v t hc h => hI.json _ v t hc h
      · cases hp
    · split at hp
      · cases hp; exact steady_writeText hX
      · cases hp

theorem twin_sliceOf (hX : Texts E html P) (hI : Inherits Γ E P CT) (hR : OrderRel Γ E html P CT rel) {sh : Streamer → List Key → List Key} {T U : Ty}
    (hT : Is Γ T (.slice U)) {enc enc' : ValEncoder F} (he : OrderTwin html rel (CT U) enc enc') :
    OrderTwin html rel (CT T) (sliceEncoderOf E U enc) (sliceEncoderOf (E.visiting sh) U enc') := by
  unfold sliceEncoderOf
  split
  · exact (steady_base64 hX).twin hR.refl
  · exact twin_slice hX hR.refl hR.array (twin_prefer hX hI hR.refl he) fun vs hc => hI.slice _ _ _ hT hc

theorem twin_arrayOf (hX : Texts E html P) (hI : Inherits Γ E P CT) (hR : OrderRel Γ E html P CT rel) {sh : Streamer → List Key → List Key} {T U : Ty} {n : Nat}
    (hT : Is Γ T (.array n U)) {enc enc' : ValEncoder F} (he : OrderTwin html rel (CT U) enc enc') :
    OrderTwin html rel (CT T) (arrayEncoderOf E n U enc) (arrayEncoderOf (E.visiting sh) n U enc') := by
  unfold arrayEncoderOf
  split
  · exact (steady_emptyArray hX).twin hR.refl
  · exact twin_array hR.array (twin_prefer hX hI hR.refl he) n fun vs hc => hI.arr _ _ _ _ hT hc

theorem twin_any (hE : EncLaws E) (hX : Texts E html P) (hI : Inherits Γ E P CT) (hR : OrderRel Γ E html P CT rel) {sh : Streamer → List Key → List Key}
    {rest rest' : Ty → ValEncoder F} (ha : OrderTwin html rel (CT (.slice .any)) (rest (.slice .any)) (rest' (.slice .any)))
    (hm : OrderTwin html rel (CT (.map .str .any)) (rest (.map .str .any)) (rest' (.map .str .any))) :
    OrderTwin html rel (CT .any) (anyEncoder E rest) (anyEncoder (E.visiting sh) rest') where
  empty v b h := by cases v <;> exact h
  val q v s s' hs hs' hh hh' hc h := by
    cases v <;> simp only [anyEncoder, fail_error hs] at h ⊢ <;> try (cases h)
    rename_i g
    simp only [hs, hs', ne_eq, not_true_eq_false, if_false] at h ⊢
    have hg := hI.any g hc
    cases g with
    | nil => exact ⟨_, _, null_put hs, null_put hs', hR.refl _ hX.null⟩
    | bool b => exact ((steady_bool (C := fun _ => True) hX).twin hR.refl).val q _ s s' hs hs' hh hh' trivial h
    | number l =>
      refine ((steady_number (C := fun v => v = .str l) hX ?_).twin hR.refl).val q _ s s' hs hs' hh hh' rfl h
      intro x hx
      cases hx
      cases hg
      assumption
    | float f => exact ((steady_float (C := fun _ => True) hX hE.float64).twin hR.refl).val q _ s s' hs hs' hh hh' trivial h
    | str x => exact ((steady_str (C := fun _ => True) hX).twin hR.refl).val q _ s s' hs hs' hh hh' trivial h
    | arr l => exact ha.val q _ s s' hs hs' hh hh' (hI.anys l hc) h
    | obj m =>
      have hm' : anyEntries m = anyMap m := by funext k; cases k <;> rfl
      simp only [hm'] at h ⊢
      exact hm.val q _ s s' hs hs' hh hh' (hI.anyMap m hc) h
  nil q s s' hs hs' h := ⟨null_put hs, null_put hs'⟩

theorem twin_step (hE : EncLaws E) (hX : Texts E html P) (hI : Inherits Γ E P CT) (hR : OrderRel Γ E html P CT rel) {sh : Streamer → List Key → List Key}
    (hsh : ∀ s keys, (sh s keys).Perm keys) {rest rest' : Ty → ValEncoder F}
    (hr : ∀ T, (∀ i, T ≠ .jsonUnmarshaler i) → (∀ i, T ≠ .textUnmarshaler i) → OrderTwin html rel (CT T) (rest T) (rest' T))
    (hj : ∀ i, OrderTwin html rel (CT (E.under i)) (rest (.jsonUnmarshaler i)) (rest' (.jsonUnmarshaler i)))
    (ht : ∀ i, OrderTwin html rel (CT (E.under i)) (rest (.textUnmarshaler i)) (rest' (.textUnmarshaler i))) (T : Ty) :
    OrderTwin html rel (CT T) (encoderStep Γ E rest T) (encoderStep Γ (E.visiting sh) rest' T) := by
  have weaken : ∀ {A B : Val F → Prop} {enc enc' : ValEncoder F}, (∀ v, B v → A v) → OrderTwin html rel A enc enc' → OrderTwin html rel B enc enc' :=
    fun h hw => ⟨hw.empty, fun q v s s' hs hs' hh hh' hc => hw.val q v s s' hs hs' hh hh' (h v hc), hw.nil⟩
  have kind : ∀ U, kindEmpty Γ (E.visiting sh) U = kindEmpty Γ E U := by intro U; cases U <;> rfl
  induction T with
  | bool => exact (steady_bool hX).twin hR.refl
  | str => exact (steady_str hX).twin hR.refl
  | int w => exact (steady_int hX (int_app w)).twin hR.refl
  | uint w => exact (steady_int hX (uint_app w)).twin hR.refl
  | float32 => exact (steady_float hX hE.float32).twin hR.refl
  | float64 => exact (steady_float hX hE.float64).twin hR.refl
  | number => exact (steady_number hX hI.number).twin hR.refl
  | raw => exact (steady_raw hI.raw).twin hR.refl
  | any => exact twin_any hE hX hI hR (hr _ (by simp) (by simp)) (hr _ (by simp) (by simp))
  | ptr t ih =>
    unfold encoderStep
    have : pointerMethod (E.visiting sh) t = pointerMethod E t := by cases t <;> rfl
    rw [this]
    cases hp : pointerMethod E t with
    | none => exact twin_ptr hX hR.refl ih fun v hc => hI.ptr _ _ hc
    | some write =>
      refine (steady_pointer (C := CT t) hX ?_ fun v hc => hI.ptr _ _ hc).twin hR.refl
      cases t <;> simp only [pointerMethod] at hp <;> try (cases hp)
      · split at hp
        · cases hp; exact steady_writeJSON fun v t hc h => hI.json _ v t hc h
        · cases hp
      · split at hp
        · cases hp; exact steady_writeText hX
        · cases hp
  | slice t ih => exact twin_sliceOf hX hI hR (.slice t) ih
  | array n t ih => exact twin_arrayOf hX hI hR (.array n t) ih
  | map k t ih => exact twin_mapOf hE hX hR hsh (.map k t) ih fun m hc => hI.map _ _ _ _ (.map k t) hc
  | jsonUnmarshaler i =>
    unfold encoderStep
    have : (E.visiting sh).recv i = E.recv i := rfl
    rw [this]
    cases hp : E.recv i with
    | value =>
      simp only
      rw [kind]
      exact (steady_marshaler (steady_writeJSON fun v t hc h => hI.json _ v t hc h)).twin hR.refl
    | pointer => exact weaken (fun v hc => hI.underJson _ _ hc hp) (hj i)
  | textUnmarshaler i =>
    unfold encoderStep
    have : (E.visiting sh).recv i = E.recv i := rfl
    rw [this]
    cases hp : E.recv i with
    | value =>
      simp only
      rw [kind]
      exact (steady_marshaler (steady_writeText hX)).twin hR.refl
    | pointer => exact weaken (fun v hc => hI.underText _ _ hc hp) (ht i)
  | unsupported => exact (steady_notSupported (P := P)).twin hR.refl
  | named i => exact hr _ (by simp) (by simp)

theorem twin_unfolded (hE : EncLaws E) (hX : Texts E html P) (hI : Inherits Γ E P CT) (hR : OrderRel Γ E html P CT rel) {sh : Streamer → List Key → List Key}
    (hsh : ∀ s keys, (sh s keys).Perm keys) {n n' : Nat} (hn : n ≤ n') :
    (∀ T, (∀ i, T ≠ .jsonUnmarshaler i) → (∀ i, T ≠ .textUnmarshaler i) →
      OrderTwin html rel (CT T) (unfoldedEncoder Γ E n T) (unfoldedEncoder Γ (E.visiting sh) n' T)) ∧
    (∀ i, OrderTwin html rel (CT (E.under i)) (unfoldedEncoder Γ E n (.jsonUnmarshaler i)) (unfoldedEncoder Γ (E.visiting sh) n' (.jsonUnmarshaler i))) ∧
    (∀ i, OrderTwin html rel (CT (E.under i)) (unfoldedEncoder Γ E n (.textUnmarshaler i)) (unfoldedEncoder Γ (E.visiting sh) n' (.textUnmarshaler i))) := by
  induction n generalizing n' with
  | zero =>
    have : ∀ (C : Val F → Prop) T enc', OrderTwin html rel C (unfoldedEncoder Γ E 0 T) enc' := fun C T enc' =>
      ⟨fun v b h => (by cases h), fun q v s s' hs hs' hh hh' hc h => (by simp only [unfoldedEncoder, fail_error hs] at h; cases h),
        fun q s s' hs hs' h => (by simp only [unfoldedEncoder, fail_error hs] at h; cases h)⟩
    exact ⟨fun T _ _ => this _ _ _, fun i => this _ _ _, fun i => this _ _ _⟩
  | succ n ih =>
    obtain ⟨n', rfl⟩ : ∃ k, n' = k + 1 := ⟨n' - 1, by omega⟩
    obtain ⟨ih1, ih2, ih3⟩ := ih (n' := n') (by omega)
    have hst := twin_step hE hX hI hR hsh ih1 ih2 ih3
    refine ⟨?_, fun i => hst _, fun i => hst _⟩
    intro T h1 h2
    cases T <;> try (exact hst _)
    · rename_i i
      simp only [unfoldedEncoder]
      cases hd : Γ.defn i with
      | slice t => exact twin_sliceOf hX hI hR (.named i _ hd) (hst t)
      | array k t => exact twin_arrayOf hX hI hR (.named i _ hd) (hst t)
      | map k t => exact twin_mapOf hE hX hR hsh (.named i _ hd) (hst t) fun m hc => hI.map _ _ _ _ (.named i _ hd) hc
      | struct fs =>
        simp only [defEncoder]
        have : (E.visiting sh).fields i = E.fields i := rfl
        rw [this]
        split
        · exact (steady_emptyStruct hX).twin hR.refl
        · exact twin_struct hR (fun T => twin_prefer hX hI hR.refl (hst T)) fun v hc => hI.field i fs v hd hc
    · exact absurd rfl (h1 _)
    · exact absurd rfl (h2 _)

/-- Any value written by a streamer. -/
theorem value_twin (hE : EncLaws E) (hX : Texts E html P) (hI : Inherits Γ E P CT) (hR : OrderRel Γ E html P CT rel) {sh : Streamer → List Key → List Key}
    (hsh : ∀ s keys, (sh s keys).Perm keys) {n n' : Nat} (hn : n ≤ n') {T : Ty} {v : Val F} (hc : CT T v) {s s' : Streamer} (hs : s.error = none)
    (hs' : s'.error = none) (hh : s.html = html) (hh' : s'.html = html) (h : (Streamer.value Γ E n T v s).error = none) :
    ∃ t t', Streamer.value Γ E n T v s = put s t ∧ Streamer.value Γ (E.visiting sh) n' T v s' = put s' t' ∧ rel t t' := by
  obtain ⟨h1, h2, h3⟩ := twin_unfolded (Γ := Γ) hE hX hI hR hsh hn
  simp only [Streamer.value, hs, hs', ne_eq, not_true_eq_false, if_false] at h ⊢
  exact (twin_step hE hX hI hR hsh h1 h2 h3 T).val false v s s' hs hs' hh hh' hc h

theorem marshal_twin (hE : EncLaws E) (hX : Texts E E.escapeHTML P) (hI : Inherits Γ E P CT) (hR : OrderRel Γ E E.escapeHTML P CT rel)
    {sh : Streamer → List Key → List Key} (hsh : ∀ s keys, (sh s keys).Perm keys) {n n' : Nat} (hn : n ≤ n') {T : Ty} {v : Val F} (hc : CT T v)
    {old old' : Streamer} {t : List Byte} (h : Marshal Γ E old n T v = .ok t) :
    ∃ t', Marshal Γ (E.visiting sh) old' n' T v = .ok t' ∧ rel t t' := by
  have h0 : newStreamer E old = ⟨none, [], none, false, E.escapeHTML⟩ := rfl
  have h0' : newStreamer (E.visiting sh) old' = ⟨none, [], none, false, E.escapeHTML⟩ := rfl
  unfold Marshal at h ⊢
  rw [h0] at h
  rw [h0']
  simp only at h ⊢
  split at h
  · cases h
  · rename_i he
    cases h
    obtain ⟨t, t', h1, h2, h3⟩ := value_twin hE hX hI hR hsh hn hc (s := ⟨none, [], none, false, E.escapeHTML⟩)
      (s' := ⟨none, [], none, false, E.escapeHTML⟩) rfl rfl rfl rfl he
    rw [h1, h2]
    exact ⟨t', rfl, h3⟩

/-! ## The same bytes -/

theorem joined_tail (t : List Byte) (ts : List (List Byte)) : joined (t :: ts) = t ++ ts.flatMap (0x2C :: ·) := by
  induction ts generalizing t with
  | nil => simp [joined]
  | cons u us ih => rw [joined, ih u]; simp; simp

theorem joined_perm {ts ts' : List (List Byte)} (h : (ts.flatMap (0x2C :: ·)).Perm (ts'.flatMap (0x2C :: ·))) : (joined ts).Perm (joined ts') := by
  cases ts with
  | nil =>
    cases ts' with
    | nil => exact .refl _
    | cons t ts => simpa using h.length_eq
  | cons t ts =>
    cases ts' with
    | nil => simpa using h.length_eq
    | cons u us =>
      rw [joined_tail, joined_tail]
      simpa using h

theorem bracketed_perm {o c : Byte} {ts ts' : List (List Byte)} (h : (ts.flatMap (0x2C :: ·)).Perm (ts'.flatMap (0x2C :: ·))) :
    (bracketed o c ts).Perm (bracketed o c ts') := by
  unfold bracketed
  exact ((joined_perm h).append_right _).cons o

theorem each_flatMap {A : Type} {R : A → A → Prop} {as bs : List A} {f : A → List Byte} (h : Each R as bs) (hf : ∀ a b, R a b → (f a).Perm (f b)) :
    (as.flatMap f).Perm (bs.flatMap f) := by
  induction h with
  | nil => exact .refl _
  | cons h _ ih =>
    simp only [List.flatMap_cons]
    exact (hf _ _ h).append ih

theorem numbersAny_all {N : List Byte → Prop} (h : ∀ s, N s) (g : GoVal F) : NumbersAny N g :=
  GoVal.rec (motive_1 := fun g => NumbersAny N g) (motive_2 := fun l => ∀ g ∈ l, NumbersAny N g) (motive_3 := fun o => ∀ g, o = some g → NumbersAny N g)
    .nil .bool (fun l => .number l (h l)) .float .str (fun l ih => .arr l ih) (fun m ih => .obj m fun k g hg => ih k g hg)
    (fun _ hg => by cases hg) (fun _ _ ih1 ih2 g hg => by
      rcases List.mem_cons.mp hg with rfl | hg
      · exact ih1
      · exact ih2 g hg) (fun _ hg => by cases hg) (fun _ ih g hg => by cases hg; exact ih) g

theorem texts_all : Texts E html (fun _ => True) := by
  constructor <;> intros <;> trivial

theorem inherits_all : Inherits Γ E (fun _ => True) (fun _ _ => True) where
  number _ _ := .inr trivial
  raw _ _ := trivial
  any g _ := numbersAny_all (fun _ => .inr trivial) g
  anys _ _ := trivial
  anyMap _ _ := trivial
  ptr _ _ _ := trivial
  slice _ _ _ _ _ _ _ := trivial
  arr _ _ _ _ _ _ _ _ := trivial
  map _ _ _ _ _ _ _ _ _ := trivial
  field _ _ _ _ _ _ _ _ _ := trivial
  json _ _ _ _ _ := trivial
  underJson _ _ _ _ := trivial
  underText _ _ _ _ := trivial

theorem orderRel_perm : OrderRel Γ E html (fun _ => True) (fun _ _ => True) List.Perm where
  refl t _ := .refl t
  trans t u t' h h' := h.trans h'
  array ts ts' h := bracketed_perm (each_flatMap h fun a b h => h.cons _)
  object ms ms' h := by
    refine bracketed_perm ?_
    rw [List.flatMap_map, List.flatMap_map]
    refine each_flatMap h fun a b h => ?_
    simp only [memberText, h.1]
    exact ((h.2.2.cons _).append_left _).cons _
  perm T K U m es es' _ _ _ _ hp := by
    refine bracketed_perm ?_
    exact (((hp.map _).map _).flatMap_right _)

/-! ## The same text -/

theorem reaches_part {p : List PathStep} {v x : Val F} (h : Reaches p v x) : ∀ y, Within y x → Within y v := by
  induction h with
  | here v => exact fun _ h => h
  | member i p vs v x hi _ ih => exact fun y hy => .struct y v vs (List.mem_of_getElem? hi) (ih y hy)
  | deref e t p v x _ ih => exact fun y hy => .ptr y v (ih y hy)

theorem inherits_noOrder : Inherits Γ E (fun _ => True) (fun _ v => NoOrder v) where
  number _ _ := .inr trivial
  raw _ _ := trivial
  any g _ := numbersAny_all (fun _ => .inr trivial) g
  anys l h x hx := by
    cases hx with
    | self => trivial
    | slice v _ hv hx =>
      obtain ⟨g, hg, rfl⟩ := List.mem_map.mp hv
      exact h x (.anyArr x g l hg hx)
  anyMap m h x hx := by
    cases hx with
    | self =>
      have := h _ (.self _)
      intro k k' hk hk'
      cases k <;> cases k' <;> simp only [anyMap, Option.isSome_map, Option.isSome_none, Bool.false_eq_true] at hk hk'
      rw [this _ _ hk hk']
    | map v _ k hv hx =>
      cases k <;> simp only [anyMap, reduceCtorEq] at hv
      obtain ⟨g, hg, rfl⟩ := Option.map_eq_some_iff.mp hv
      exact h x (.anyObj x g m _ hg hx)
  ptr _ v h x hx := h x (.ptr x v hx)
  slice _ _ vs _ h v hv x hx := h x (.slice x v vs hv hx)
  arr _ _ _ vs _ h v hv x hx := h x (.arr x v vs hv hx)
  map _ _ _ m _ h k v hv x hx := h x (.map x v m k hv hx)
  field _ _ v _ h f _ x hx y hy := h y (reaches_part hx y hy)
  json _ _ _ _ _ := trivial
  underJson _ _ h _ := h
  underText _ _ h _ := h

theorem each_eq {A B : Type} {R : A → A → Prop} {f : A → B} {as bs : List A} (h : Each R as bs) (hf : ∀ a b, R a b → f a = f b) : as.map f = bs.map f := by
  induction h with
  | nil => rfl
  | cons h _ ih => simp [hf _ _ h, ih]

theorem orderRel_eq : OrderRel Γ E html (fun _ => True) (fun _ v => NoOrder v) Eq where
  refl _ _ := rfl
  trans _ _ _ h h' := h.trans h'
  array ts ts' h := by
    have : ts.map id = ts'.map id := each_eq h fun _ _ h => h
    simp at this
    rw [this]
  object ms ms' h := by
    unfold objectText
    rw [each_eq h fun a b h => by simp [memberText, h.1, h.2.2]]
  perm T K U m es es' _ hc hn he hp := by
    have : es = es' := by
      match es, hn, he, hp with
      | [], _, _, hp => exact (List.nil_perm.mp hp).symm
      | [e], _, _, hp => exact List.singleton_perm.mp hp
      | e :: e' :: es, hn, he, _ =>
        have := (hc _ (.self _)) e.1 e'.1 (he e (by simp)).1 (he e' (by simp)).1
        simp [this] at hn
    rw [this]

/-! ## The same members -/

theorem objectText_of (ms : List (List Byte × List Byte)) : ObjectOf (objectText ms) ms := by
  refine ⟨ms.map memberText, bracketed_enclosed _ _ _, ?_⟩
  induction ms with
  | nil => exact .nil
  | cons m ms ih => exact .cons ⟨[], [], by simp [Ws], by simp [Ws], rfl⟩ ih

theorem each_positions {A B : Type} {R : A → B → Prop} {as : List A} {bs : List B} (h : Each R as bs) :
    as.length = bs.length ∧ ∀ (i : Nat) a b, as[i]? = some a → bs[i]? = some b → R a b := by
  induction h with
  | nil => exact ⟨rfl, fun i a b h => by cases h⟩
  | cons h _ ih =>
    refine ⟨by simp [ih.1], fun i a b ha hb => ?_⟩
    cases i with
    | zero => cases ha; cases hb; exact h
    | succ i => exact ih.2 i a b ha hb

theorem reordered_isValue {apart : List Byte → List Byte → Prop} {t t' : List Byte} (h : Reordered apart t t') : IsValue t := by
  induction h with
  | same t h => exact h
  | trans t u t' _ _ ih _ => exact ih
  | array t t' ts ts' h h' hn hs ih =>
    refine arrayOf_value h fun u hu => ?_
    obtain ⟨i, hi⟩ := List.getElem?_of_mem hu
    have : i < ts'.length := by rw [← hn]; exact (List.getElem?_eq_some_iff.mp hi).1
    exact ih i u ts'[i] hi (List.getElem?_eq_getElem this)
  | object t t' ms ms' h h' hn hk hs ih =>
    refine (objectOf_value.mp ⟨ms, h, fun m hm => ?_⟩).1
    obtain ⟨i, hi⟩ := List.getElem?_of_mem hm
    have : i < ms'.length := by rw [← hn]; exact (List.getElem?_eq_some_iff.mp hi).1
    exact ⟨(hk i m ms'[i] hi (List.getElem?_eq_getElem this)).2, ih i m ms'[i] hi (List.getElem?_eq_getElem this)⟩
  | swap t t' xs ys m n s s' h h' hv hm hn ha => exact (objectOf_value.mp ⟨_, h, hv⟩).1

theorem memberName_str {k : List Byte} (h : MemberName html k) : ∃ s, Str k s := by
  rcases h with ⟨s, h⟩ | ⟨z, rfl⟩
  · exact stringText_str h
  · exact str_number (decimalInt_number z)

theorem inherits_apart {apart : List Byte → List Byte → Prop} (hI : Inherits Γ E P CT) :
    Inherits Γ E P (fun T v => CT T v ∧ NamesApart Γ E apart T v) where
  number s h := hI.number s h.1
  raw s h := hI.raw s h.1
  any g h := hI.any g h.1
  anys l h := ⟨hI.anys l h.1, fun S K U m k k' n n' s s' hv => h.2 S K U m k k' n n' s s' (.anyArr _ _ _ hv)⟩
  anyMap m h := ⟨hI.anyMap m h.1, fun S K U m k k' n n' s s' hv => h.2 S K U m k k' n n' s s' (.anyObj _ _ _ hv)⟩
  ptr T v h := ⟨hI.ptr T v h.1, fun S K U m k k' n n' s s' hv => h.2 S K U m k k' n n' s s' (.ptr _ _ _ _ hv)⟩
  slice T U vs hT h v hm := ⟨hI.slice T U vs hT h.1 v hm, fun S K U m k k' n n' s s' hv => h.2 S K U m k k' n n' s s' (.slice _ _ _ _ _ _ hT hm hv)⟩
  arr T U n vs hT h v hm := ⟨hI.arr T U n vs hT h.1 v hm, fun S K U m k k' n n' s s' hv => h.2 S K U m k k' n n' s s' (.arr _ _ _ _ _ _ _ hT hm hv)⟩
  map T U K m hT h k v hm := ⟨hI.map T U K m hT h.1 k v hm,
    fun S K U m k k' n n' s s' hv => h.2 S K U m k k' n n' s s' (.map _ _ _ _ _ _ _ _ hT hm hv)⟩
  field i fs v hd h f hf x hx := ⟨hI.field i fs v hd h.1 f hf x hx, fun S K U m k k' n n' s s' hv => h.2 S K U m k k' n n' s s' (.field _ _ _ _ _ _ hf hx hv)⟩
  json i v t h := hI.json i v t h.1
  underJson i v h hp := ⟨hI.underJson i v h.1 hp, fun S K U m k k' n n' s s' hv => h.2 S K U m k k' n n' s s' (.json _ _ _ _ hp hv)⟩
  underText i v h hp := ⟨hI.underText i v h.1 hp, fun S K U m k k' n n' s s' hv => h.2 S K U m k k' n n' s s' (.text _ _ _ _ hp hv)⟩

theorem orderRel_reordered {apart : List Byte → List Byte → Prop} (hsym : ∀ s s', apart s s' → apart s' s)
    (ha : ∀ T v, CT T v → NamesApart Γ E apart T v) :
    OrderRel Γ E E.escapeHTML IsValue CT (Reordered apart) where
  refl t h := .same t h
  trans t u t' h h' := .trans t u t' h h'
  array ts ts' h := by
    obtain ⟨h1, h2⟩ := each_positions h
    exact .array _ _ ts ts' (bracketed_enclosed _ _ _) (bracketed_enclosed _ _ _) h1 h2
  object ms ms' h := by
    obtain ⟨h1, h2⟩ := each_positions h
    exact .object _ _ ms ms' (objectText_of ms) (objectText_of ms') h1
      (fun i m m' hm hm' => ⟨(h2 i m m' hm hm').1, memberName_str (h2 i m m' hm hm').2.1⟩) fun i m m' hm hm' => (h2 i m m' hm hm').2.2
  perm T K U m es es' hT hc hn he hp := by
    refine reordered_perm hsym (hp.map (·.2)) [] (objectText_of _) (objectText_of _) ?_ ?_
    · intro x hx
      obtain ⟨e, hemem, rfl⟩ := List.mem_map.mp hx
      obtain ⟨_, h1, u, h2⟩ := he e hemem
      exact ⟨keyText_str h1, reordered_isValue h2⟩
    · rw [List.pairwise_map]
      have hn := List.pairwise_map.mp hn
      refine List.Pairwise.imp_of_mem ?_ hn
      intro e e' h1 h2 hne s s' hs hs'
      exact ha T _ hc T K U m e.1 e'.1 e.2.1 e'.2.1 s s' (.self _ _) hT hne (he e h1).1 (he e' h2).1 (he e h1).2.1 (he e' h2).2.1 hs hs'

end

end Jzon
