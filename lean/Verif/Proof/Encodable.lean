import Verif.Spec.Encodable
import Verif.Proof.Marshal

/-!
# Typed encoding: which errors are possible
-/

set_option linter.unusedSimpArgs false

namespace Jzon

open Spec

section
variable {F : Type} {Γ : TyEnv F} {E : EncEnv F} {A : EncErr → Prop}

/-- The encoder fails on the value only for reasons in `A`. -/
def Fine (A : EncErr → Prop) (enc : ValEncoder F) (v : Val F) : Prop :=
  ∀ q s, s.error = none → ∀ e, (enc.encode q (some v) s).error = some e → A e

theorem put_error {s : Streamer} {t : List Byte} (hs : s.error = none) {e : EncErr} (h : (put s t).error = some e) : A e := by
  simp [put, hs] at h

theorem null_fine {s : Streamer} (hs : s.error = none) {e : EncErr} (h : s.null.error = some e) : A e := by
  rw [null_put hs] at h; exact put_error hs h
theorem raw_fine {s : Streamer} {t : List Byte} (hs : s.error = none) {e : EncErr} (h : (s.raw t).error = some e) : A e := by
  rw [raw_put hs] at h; exact put_error hs h
theorem string_fine {s : Streamer} {t : List Byte} (hs : s.error = none) {e : EncErr} (h : (s.string t).error = some e) : A e := by
  rw [string_put hs] at h; exact put_error hs h

theorem fine_bool (b : Bool) : Fine A (boolEncoder (F := F)) (.bool b) := by
  intro q s hs e h
  simp only [boolEncoder] at h
  split at h
  · rw [bool_put hs] at h; exact put_error hs h
  · split at h <;> exact string_fine hs h

theorem fine_str (x : List Byte) : Fine A (stringEncoder E) (.str x) := by
  intro q s hs e h
  simp only [stringEncoder] at h
  split at h
  · exact string_fine hs h
  · have h0 : (newStreamer E ⟨none, [], none, false, false⟩).error = none := rfl
    rw [string_put h0] at h
    exact string_fine hs h

theorem fine_int {app : Int → List Byte → Option (List Byte)} {z : Int} (ha : ∀ b, app z b = some (b ++ decimalInt z)) :
    Fine A (intEncoder (F := F) app) (.int z) := by
  intro q s hs e h
  simp only [intEncoder] at h
  split at h
  · rw [writeVal_eq hs ha] at h; simp [hs] at h
  · rw [writeVal_eq hs (t := inQuotes (decimalInt z)) fun b => by simp [Streamer.quoted, ha, inQuotes]] at h
    simp [hs] at h

theorem fine_float {arg : F → FloatArg} {f : F} (hi : (arg f).isInf = true → A .floatIsInfinity)
    (hn : (arg f).isNaN = true → A .floatIsNan) : Fine A (floatEncoder arg) (.float f) := by
  intro q s hs e h
  simp only [floatEncoder, Streamer.float] at h
  rw [if_neg (by simp [hs])] at h
  split at h
  · rename_i hf; cases h; exact hi hf
  · split at h
    · rename_i hf; cases h; exact hn hf
    · simp [onVal_eq, hs] at h

theorem fine_number (x : List Byte) : Fine A (numberEncoder (F := F)) (.str x) := fun _ _ hs _ h => raw_fine hs h
theorem fine_raw (x : List Byte) : Fine A (rawEncoder (F := F)) (.str x) := fun _ _ hs _ h => raw_fine hs h

theorem fine_elems {enc : ValEncoder F} {vs : List (Val F)} (he : ∀ v ∈ vs, Fine A enc v) {s : Streamer} (hs : s.error = none) {e : EncErr}
    (h : (elemsEncode enc vs s).error = some e) : A e := by
  induction vs generalizing s with
  | nil => simp [elemsEncode, Streamer.arrayEnd, hs] at h
  | cons v vs ih =>
    simp only [elemsEncode] at h
    by_cases hv : (enc.encode false (some v) s).error = none
    · simp only [hv, ne_eq, not_true_eq_false, if_false] at h
      exact ih (fun v hv => he v (by simp [hv])) hv h
    · simp only [ne_eq, hv, not_false_eq_true, if_true] at h
      exact he v (by simp) false s hs e h

theorem fine_slice {enc : ValEncoder F} {vs : List (Val F)} (he : ∀ v ∈ vs, Fine A enc v) : Fine A (sliceEncoder enc) (.slice vs) := by
  intro q s hs e h
  simp only [sliceEncoder, hs, ne_eq, not_true_eq_false, if_false] at h
  split at h
  · exact raw_fine hs h
  · rw [arrayStart_eq hs] at h
    exact fine_elems he (s := inside s 0x5B) hs h

theorem fine_nilSlice {enc : ValEncoder F} : Fine A (sliceEncoder enc) .nilSlice := by
  intro q s hs e h
  simp only [sliceEncoder, hs, ne_eq, not_true_eq_false, if_false] at h
  exact null_fine hs h

theorem bytesOf_uint {vs : List (Val F)} (h : ∀ v ∈ vs, Encodable Γ E A (.uint .w8) v) : ∃ bytes, bytesOf vs = some bytes := by
  induction vs with
  | nil => exact ⟨[], rfl⟩
  | cons v vs ih =>
    obtain ⟨bytes, hb⟩ := ih fun v hv => h v (by simp [hv])
    have hv := h v (by simp)
    generalize hT : Ty.uint .w8 = T at hv
    cases hv <;> try (cases hT)
    · rename_i z hz
      simp only [bytesOf]
      obtain ⟨h1, h2⟩ := hz
      have h2' : z < 256 := h2
      rw [if_neg (by omega), hb]
      exact ⟨_, rfl⟩
    all_goals (rename_i hI _; first | cases hI | skip)
    all_goals (rename_i hI; first | cases hI | skip)
    all_goals (rename_i hI; first | cases hI | skip)

theorem fine_prefer {T : Ty} {enc : ValEncoder F} {v : Val F} (hv : Encodable Γ E A T v) (he : Fine A enc v) :
    Fine A (preferPtrEncoder E T enc) v := by
  unfold preferPtrEncoder
  cases hp : pointerMethod E T with
  | none => exact he
  | some write =>
    intro q s hs e h
    simp only [directEncoder, pointerMarshalerEncoder, hs, ne_eq, not_true_eq_false, if_false] at h
    cases T <;> simp only [pointerMethod] at hp <;> try (cases hp)
    · split at hp
      · cases hp
        simp only [writeJSON] at h
        split at h
        · rename_i e' he'
          cases h
          cases hv with
          | json _ _ hj _ => exact hj _ he'
          | _ => rename_i hT; cases hT
        · exact raw_fine hs h
      · cases hp
    · split at hp
      · cases hp
        simp only [writeText] at h
        split at h
        · rename_i e' he'
          cases h
          cases hv with
          | text _ _ hj _ => exact hj _ he'
          | _ => rename_i hT; cases hT
        · exact string_fine hs h
      · cases hp

theorem fine_sliceOf {U : Ty} {enc : ValEncoder F} {vs : List (Val F)} (hv : ∀ v ∈ vs, Encodable Γ E A U v) (he : ∀ v ∈ vs, Fine A enc v) :
    Fine A (sliceEncoderOf E U enc) (.slice vs) := by
  unfold sliceEncoderOf
  split
  · rename_i hU
    subst hU
    obtain ⟨bytes, hb⟩ := bytesOf_uint hv
    intro q s hs e h
    simp only [base64Encoder, hs, ne_eq, not_true_eq_false, if_false, hb] at h
    simp [Streamer.writeVal, hs, onVal_eq] at h
  · exact fine_slice fun v hm => fine_prefer (hv v hm) (he v hm)

theorem fine_nilSliceOf {U : Ty} {enc : ValEncoder F} : Fine A (sliceEncoderOf E U enc) .nilSlice := by
  unfold sliceEncoderOf
  split
  · intro q s hs e h
    simp only [base64Encoder, hs, ne_eq, not_true_eq_false, if_false] at h
    exact null_fine hs h
  · exact fine_nilSlice

theorem fine_arrayOf {U : Ty} {n : Nat} {enc : ValEncoder F} {vs : List (Val F)} (hn : vs.length = n) (hv : ∀ v ∈ vs, Encodable Γ E A U v)
    (he : ∀ v ∈ vs, Fine A enc v) : Fine A (arrayEncoderOf E n U enc) (.arr vs) := by
  unfold arrayEncoderOf
  split
  · rename_i h0
    subst h0
    obtain rfl := List.length_eq_zero_iff.mp hn
    exact fun q s hs e h => raw_fine hs h
  · intro q s hs e h
    simp only [arrayEncoder, hn, ne_eq, not_true_eq_false, if_false] at h
    rw [arrayStart_eq hs] at h
    exact fine_elems (fun v hm => fine_prefer (hv v hm) (he v hm)) (s := inside s 0x5B) hs h

theorem fine_key {K : KeyTy} {key : Key} (hK : KeysKnown E K) (hk : KeyFine E A K key) {s : Streamer} (hs : s.error = none) {e : EncErr}
    (h : (keyEncode E K key s).error = some e) : A e := by
  -- the three kinds of keys without methods
  have hstr : keyCoder E K = some .str → (∃ x, key = .str x) → A e := by
    rintro hc ⟨x, rfl⟩
    simp only [keyEncode, hc] at h
    rw [streamer_field_eq hs] at h
    rw [show (named s _).error = s.error from rfl, hs] at h
    cases h
  have hint : ∀ w, keyCoder E K = some (.int w) → KeyOk (.int w) key → A e := by
    rintro w hc ⟨z, rfl, hz⟩
    have : Decidable (Fits w.bits z) := Classical.propDecidable _
    simp [keyEncode, hc, hs, Streamer.quoted, appendIntOf_eq, hz, rawField_eq hs, named] at h
  have huint : ∀ w, keyCoder E K = some (.uint w) → KeyOk (.uint w) key → A e := by
    rintro w hc ⟨z, rfl, hz⟩
    have hz : FitsUnsigned w.bits z := hz
    have : Decidable (FitsUnsigned w.bits z) := Classical.propDecidable _
    simp [keyEncode, hc, hs, Streamer.quoted, appendUintOf_eq, hz, rawField_eq hs, named] at h
  have htext : ∀ i, keyCoder E K = some (.text i) → (∀ e, E.marshalText i (keyAsValue key) = .error e → A e) → A e := by
    intro i hc hm
    simp only [keyEncode, hc, textKeyEncode, hs, ne_eq, not_true_eq_false, if_false, keyVal_eq] at h
    cases hx : E.marshalText i (keyAsValue key) with
    | error e' => rw [hx] at h; cases h; exact hm _ hx
    | ok b =>
      rw [hx] at h
      exact string_fine hs h
  cases K with
  | str => exact hstr rfl hk
  | int w => exact hint w rfl hk
  | uint w => exact huint w rfl hk
  | text i =>
    unfold KeysKnown at hK
    simp only [KeyFine] at hk
    cases hu : E.under i <;> cases hr : E.recv i <;> simp only [hu, hr] at hk hK <;>
      first
      | exact hstr (by simp [keyCoder, hu]) hk
      | exact htext i (by simp [keyCoder, hu, hr]) hk
      | exact hint _ (by simp [keyCoder, hu, hr]) hk
      | exact huint _ (by simp [keyCoder, hu, hr]) hk
      | simp at hK

theorem fine_members {K : KeyTy} {enc : ValEncoder F} {m : Key → Option (Val F)} {keys : List Key} (hs : ∀ k ∈ keys, (m k).isSome)
    (hK : KeysKnown E K) (hk : ∀ k v, m k = some v → KeyFine E A K k) (he : ∀ k v, m k = some v → Fine A enc v) {s : Streamer}
    (h0 : s.error = none) {e : EncErr} (h : (membersEncode E K enc m keys s).error = some e) : A e := by
  induction keys generalizing s with
  | nil => simp [membersEncode, Streamer.objectEnd, h0] at h
  | cons key keys ih =>
    obtain ⟨v, hv⟩ := Option.isSome_iff_exists.mp (hs key (by simp))
    by_cases h1 : (keyEncode E K key s).error = none
    · simp only [membersEncode, h1, ne_eq, not_true_eq_false, if_false, hv] at h
      by_cases hq : (enc.encode false (some v) (keyEncode E K key s)).error = none
      · simp only [hq, not_true_eq_false, if_false] at h
        exact ih (fun k hk => hs k (by simp [hk])) hq h
      · simp only [hq, not_false_eq_true, if_true] at h
        exact he key v hv false _ h1 e h
    · simp only [membersEncode, ne_eq, h1, not_false_eq_true, if_true] at h
      exact fine_key hK (hk key v hv) h0 h

theorem fine_map (hE : EncLaws E) {K : KeyTy} {enc : ValEncoder F} {m : Key → Option (Val F)} (hm : FiniteMap m)
    (hK : ¬ KeysKnown E K → A .typeNotSupported) (hk : ∀ k v, m k = some v → KeyFine E A K k) (he : ∀ k v, m k = some v → Fine A enc v) :
    Fine A (mapEncoderOf E K enc) (.map m) := by
  intro q s hs e h
  unfold mapEncoderOf at h
  split at h
  · rename_i hc
    simp only [notSupportedEncoder, fail_error hs] at h
    cases h
    exact hK (keyCoder_none.mp hc)
  · rename_i hc
    have hK : KeysKnown E K := Classical.byContradiction fun h => hc (keyCoder_none.mpr h)
    simp only [mapEncoder, hs, ne_eq, not_true_eq_false, if_false] at h
    cases hx : E.entries m with
    | none => exact absurd hx (hE.finite m hm)
    | some keys =>
      simp only [hx] at h
      obtain ⟨_, h2⟩ := hE.entries m keys hx
      have hp := hE.shuffle s.objectStart keys
      have h0 : s.objectStart.error = none := by rw [objectStart_eq hs]; exact hs
      exact fine_members (fun k hk => (h2 k).mp (hp.mem_iff.mp hk)) hK hk he h0 h

theorem fine_noMap {K : KeyTy} {enc : ValEncoder F} (hK : ¬ KeysKnown E K → A .typeNotSupported) {v : Option (Val F)}
    (hv : v = none ∨ v = some .nilMap) {q : Bool} {s : Streamer} (hs : s.error = none) {e : EncErr}
    (h : ((mapEncoderOf E K enc).encode q v s).error = some e) : A e := by
  unfold mapEncoderOf at h
  split at h
  · rename_i hc
    simp only [notSupportedEncoder, fail_error hs] at h
    cases h
    exact hK (keyCoder_none.mp hc)
  · rcases hv with rfl | rfl <;> simp only [mapEncoder, hs, ne_eq, not_true_eq_false, if_false] at h <;> exact null_fine hs h

theorem fine_nilMap {K : KeyTy} {enc : ValEncoder F} (hK : ¬ KeysKnown E K → A .typeNotSupported) :
    Fine A (mapEncoderOf E K enc) .nilMap := fun _ _ hs _ h => fine_noMap hK (.inr rfl) hs h

theorem followPath_missing {p : List PathStep} {v : Val F} (h : Missing p v) : followPath p v = .ok none := by
  induction h with
  | member i p vs v hi _ ih => simp [followPath, hi, ih]
  | nil e t p => rfl
  | deref e t p v _ ih => simp [followPath, ih]

theorem followPath_reaches {p : List PathStep} {v x : Val F} (h : Reaches p v x) : followPath p v = .ok (some x) := by
  induction h with
  | here v => rfl
  | member i p vs v x hi _ ih => simp [followPath, hi, ih]
  | deref e t p v x _ ih => simp [followPath, ih]

theorem fine_fields {build : Ty → ValEncoder F} {v : Val F} {fs : List EncField}
    (hp : ∀ f ∈ fs, Missing f.path v ∨ ∃ x, Reaches f.path v x)
    (he : ∀ f ∈ fs, f.omitEmpty = true → ∀ x, Reaches f.path v x → ∃ b, (build f.ty).isEmpty x = .ok b)
    (hf : ∀ f ∈ fs, ∀ x, Reaches f.path v x → Fine A (build f.ty) x) {s : Streamer} (hs : s.error = none) {e : EncErr}
    (h : (fieldsEncode build v fs s).error = some e) : A e := by
  induction fs generalizing s with
  | nil => simp [fieldsEncode, Streamer.objectEnd, hs] at h
  | cons f fs ih =>
    have ih := @ih (fun g hg => hp g (by simp [hg])) (fun g hg => he g (by simp [hg])) (fun g hg => hf g (by simp [hg]))
    simp only [fieldsEncode] at h
    rcases hp f (by simp) with hm | ⟨x, hx⟩
    · have : fieldValue (build f.ty) f v = .ok none := by simp [fieldValue, followPath_missing hm]
      simp only [this] at h
      exact ih hs h
    · have : fieldValue (build f.ty) f v = .ok none ∨ fieldValue (build f.ty) f v = .ok (some x) := by
        simp only [fieldValue, followPath_reaches hx]
        by_cases ho : f.omitEmpty = true
        · obtain ⟨b, hb⟩ := he f (by simp) ho x hx
          cases b <;> simp [ho, hb]
        · simp [ho]
      rcases this with h1 | h1
      · simp only [h1] at h
        exact ih hs h
      · simp only [h1, fieldEncode, encodeString_quoted, List.nil_append, rawField_eq hs] at h
        by_cases hv : ((build f.ty).encode f.quoted (some x) (named s (quotedStr s.html f.name))).error = none
        · simp only [hv, ne_eq, not_true_eq_false, if_false] at h
          exact ih hv h
        · simp only [ne_eq, hv, not_false_eq_true, if_true] at h
          exact hf f (by simp) x hx _ (named s (quotedStr s.html f.name)) hs e h

/-! ## Emptiness -/

theorem kindEmpty_ok (hE : EncLaws E) {T : Ty} {v : Val F} (h : Shaped Γ T v) : ∃ b, kindEmpty Γ E T v = .ok b := by
  have hmap : ∀ (k : KeyTy), (v = .nilMap ∨ ∃ m, v = .map m ∧ FiniteMap m) → ∃ b, (mapEncoder (F := F) E k boolEncoder).isEmpty v = .ok b := by
    rintro k (rfl | ⟨m, rfl, hm⟩)
    · exact ⟨_, rfl⟩
    · simp only [mapEncoder]
      cases hx : E.entries m with
      | none => exact absurd hx (hE.finite m hm)
      | some keys => exact ⟨_, rfl⟩
  have hslice : (v = .nilSlice ∨ ∃ vs, v = .slice vs) → ∃ b, (sliceEncoder (F := F) boolEncoder).isEmpty v = .ok b := by
    rintro (rfl | ⟨vs, rfl⟩) <;> exact ⟨_, rfl⟩
  cases T <;> simp only [Shaped] at h <;> simp only [kindEmpty]
  · obtain ⟨b, rfl⟩ := h; exact ⟨_, rfl⟩
  · obtain ⟨b, rfl⟩ := h; exact ⟨_, rfl⟩
  · obtain ⟨b, rfl⟩ := h; exact ⟨_, rfl⟩
  · obtain ⟨b, rfl⟩ := h; exact ⟨_, rfl⟩
  · obtain ⟨b, rfl⟩ := h; exact ⟨_, rfl⟩
  · exact hslice h
  · exact ⟨_, rfl⟩
  · exact hmap _ h
  · rename_i i
    cases hd : Γ.defn i <;> simp only [hd] at h ⊢
    · exact ⟨_, rfl⟩
    · exact hslice h
    · exact ⟨_, rfl⟩
    · exact hmap _ h

theorem sliceOf_isEmpty {U : Ty} {enc : ValEncoder F} {v : Val F} (h : v = .nilSlice ∨ ∃ vs, v = .slice vs) :
    ∃ b, (sliceEncoderOf E U enc).isEmpty v = .ok b := by
  unfold sliceEncoderOf
  rcases h with rfl | ⟨vs, rfl⟩ <;> split <;> exact ⟨_, rfl⟩

theorem arrayOf_isEmpty {U : Ty} {n : Nat} {enc : ValEncoder F} {v : Val F} : ∃ b, (arrayEncoderOf E n U enc).isEmpty v = .ok b := by
  unfold arrayEncoderOf
  split <;> exact ⟨_, rfl⟩

theorem map_isEmpty (hE : EncLaws E) {K : KeyTy} {enc : ValEncoder F} {v : Val F} (h : v = .nilMap ∨ ∃ m, v = .map m ∧ FiniteMap m) :
    ∃ b, (mapEncoderOf E K enc).isEmpty v = .ok b := by
  unfold mapEncoderOf
  split
  · exact ⟨_, rfl⟩
  · rcases h with rfl | ⟨m, rfl, hm⟩
    · exact ⟨_, rfl⟩
    · simp only [mapEncoder]
      cases hx : E.entries m with
      | none => exact absurd hx (hE.finite m hm)
      | some keys => exact ⟨_, rfl⟩

/-- The shape of a value of a type with the given definition. -/
theorem encodable_def {T : Ty} {d : Def} {v : Val F} (hT : Is Γ T d) (h : Encodable Γ E A T v) :
    match d with
    | .slice _ => v = .nilSlice ∨ ∃ vs, v = .slice vs
    | .map _ _ => v = .nilMap ∨ ∃ m, v = .map m ∧ FiniteMap m
    | _ => True := by
  cases h with
  | nilSlice _ _ h => cases d <;> simp only <;> (try simp) <;> cases hT <;> cases h <;> simp_all
  | slice _ _ _ h => cases d <;> simp only <;> (try simp) <;> cases hT <;> cases h <;> simp_all
  | nilMap _ _ _ h => cases d <;> simp only <;> (try simp) <;> cases hT <;> cases h <;> simp_all
  | map _ _ _ _ h hm => cases d <;> simp only <;> (try simp) <;> cases hT <;> cases h <;> simp_all
  | arr _ _ _ _ h => cases d <;> simp only <;> (try simp) <;> cases hT <;> cases h <;> simp_all
  | struct _ _ _ h => cases d <;> simp only <;> (try simp) <;> cases hT <;> simp_all
  | _ => cases hT

theorem prefer_isEmpty (hE : EncLaws E) {n : Nat} {T : Ty} {v : Val F} (hv : Encodable Γ E A T v) (hk : EmptyKnown Γ E T v) :
    ∃ b, (preferPtrEncoder E T (encoderOf Γ E (n + 1) T)).isEmpty v = .ok b := by
  unfold preferPtrEncoder
  cases hp : pointerMethod E T with
  | some write => exact ⟨_, rfl⟩
  | none =>
    simp only [encoderOf]
    have hslice : ∀ U, Is Γ T (.slice U) → v = .nilSlice ∨ ∃ vs, v = .slice vs := fun U hU => encodable_def hU hv
    have hmap : ∀ K U, Is Γ T (.map K U) → v = .nilMap ∨ ∃ m, v = .map m ∧ FiniteMap m := fun K U hU => encodable_def hU hv
    cases T with
    | slice U => exact sliceOf_isEmpty (hslice U (.slice U))
    | array m U => exact arrayOf_isEmpty
    | map K U => exact map_isEmpty hE (hmap K U (.map K U))
    | named i =>
      simp only [encoderStep, unfoldedEncoder]
      cases hd : Γ.defn i with
      | slice U => exact sliceOf_isEmpty (hslice U (.named i _ hd))
      | array m U => exact arrayOf_isEmpty
      | map K U => exact map_isEmpty hE (hmap K U (.named i _ hd))
      | struct fs => simp only [defEncoder]; split <;> exact ⟨_, rfl⟩
    | jsonUnmarshaler i =>
      simp only [encoderStep]
      cases hr : E.recv i with
      | pointer => simp [pointerMethod, hr] at hp
      | value => exact kindEmpty_ok hE (hk hr)
    | textUnmarshaler i =>
      simp only [encoderStep]
      cases hr : E.recv i with
      | pointer => simp [pointerMethod, hr] at hp
      | value => exact kindEmpty_ok hE (hk hr)
    | ptr U =>
      simp only [encoderStep]
      cases hv with
      | nilPtr => split <;> exact ⟨_, rfl⟩
      | ptr => split <;> exact ⟨_, rfl⟩
      | _ => rename_i hT; cases hT
    | unsupported => exact ⟨_, rfl⟩
    | any =>
      cases hv with
      | any g => cases g <;> exact ⟨_, rfl⟩
      | _ => rename_i hT; cases hT
    | _ =>
      cases hv <;> first | exact ⟨_, rfl⟩ | (rename_i hT; cases hT) | (rename_i hT _; cases hT) | (rename_i hT _ _; cases hT)

/-! ## Types -/

theorem bound_list {X : Type} {P : Nat → X → Prop} {l : List X} (h : ∀ x ∈ l, ∃ N, ∀ n, N ≤ n → P n x) :
    ∃ N, ∀ n, N ≤ n → ∀ x ∈ l, P n x := by
  induction l with
  | nil => exact ⟨0, by simp⟩
  | cons x l ih =>
    obtain ⟨N, hN⟩ := ih fun y hy => h y (by simp [hy])
    obtain ⟨M, hM⟩ := h x (by simp)
    refine ⟨max N M, fun n hn y hy => ?_⟩
    rcases List.mem_cons.mp hy with rfl | hy
    · exact hM n (by omega)
    · exact hN n (by omega) y hy

theorem bound_map {K V : Type} {P : Nat → V → Prop} {m : K → Option V} (hm : FiniteMap m) (h : ∀ k v, m k = some v → ∃ N, ∀ n, N ≤ n → P n v) :
    ∃ N, ∀ n, N ≤ n → ∀ k v, m k = some v → P n v := by
  obtain ⟨keys, hk⟩ := hm
  obtain ⟨N, hN⟩ := bound_list (P := fun n k => ∀ v, m k = some v → P n v) (l := keys) (fun k _ => by
    cases hv : m k with
    | none => exact ⟨0, by simp⟩
    | some v =>
      obtain ⟨N, hN⟩ := h k v hv
      exact ⟨N, fun n hn w hw => by cases hw; exact hN n hn⟩)
  exact ⟨N, fun n hn k v hv => hN n hn k (hk k (by simp [hv])) v hv⟩

theorem fine_any (hE : EncLaws E) {g : GoVal F} (h : EncodableAny A E.float64 g) :
    ∃ N, ∀ n, N ≤ n → Fine A (encoderOf Γ E n .any) (.any g) := by
  -- the test of the error before
  have step : ∀ {enc : ValEncoder F} {v : Val F} {n : Nat}, Fine A enc v →
      (∀ q s, s.error = none → (encoderOf Γ E n .any).encode q (some (.any g)) s = enc.encode q (some v) s) →
      Fine A (encoderOf Γ E n .any) (.any g) := by
    intro enc v n hf he q s hs e h
    rw [he q s hs] at h
    exact hf q s hs e h
  induction h with
  | nil =>
    refine ⟨0, fun n _ q s hs e h => ?_⟩
    simp only [encoderOf, encoderStep, anyEncoder, hs, ne_eq, not_true_eq_false, if_false] at h
    exact null_fine hs h
  | bool b => exact ⟨0, fun n _ => step (fine_bool b) fun q s hs => by simp [encoderOf, encoderStep, anyEncoder, hs]⟩
  | number l => exact ⟨0, fun n _ => step (fine_number l) fun q s hs => by simp [encoderOf, encoderStep, anyEncoder, hs]⟩
  | float f hi hn => exact ⟨0, fun n _ => step (fine_float hi hn) fun q s hs => by simp [encoderOf, encoderStep, anyEncoder, hs]⟩
  | str x => exact ⟨0, fun n _ => step (fine_str (E := E) x) fun q s hs => by simp [encoderOf, encoderStep, anyEncoder, hs]⟩
  | arr l hl ih =>
    obtain ⟨N, hN⟩ := bound_list (P := fun n g => Fine A (encoderOf Γ E n .any) (.any g)) fun g hg => ih g hg (by
      intro enc v n hf he q s hs e h
      rw [he q s hs] at h
      exact hf q s hs e h)
    refine ⟨N + 1, fun n hn => ?_⟩
    obtain ⟨m, rfl⟩ : ∃ m, n = m + 1 := ⟨n - 1, by omega⟩
    refine step (enc := sliceEncoderOf E .any (encoderOf Γ E m .any)) (v := .slice (l.map Val.any)) ?_ ?_
    · refine fine_sliceOf (Γ := Γ) (fun v hv => ?_) (fun v hv => ?_)
      · obtain ⟨g, hg, rfl⟩ := List.mem_map.mp hv
        exact .any g (hl g hg)
      · obtain ⟨g, hg, rfl⟩ := List.mem_map.mp hv
        exact hN m (by omega) g hg
    · intro q s hs
      simp [encoderOf, encoderStep, anyEncoder, hs, unfoldedEncoder]
  | obj m hm hg ih =>
    obtain ⟨N, hN⟩ := bound_map (P := fun n g => Fine A (encoderOf Γ E n .any) (.any g)) hm fun k g hg => ih k g hg (by
      intro enc v n hf he q s hs e h
      rw [he q s hs] at h
      exact hf q s hs e h)
    refine ⟨N + 1, fun n hn => ?_⟩
    obtain ⟨k, rfl⟩ : ∃ k, n = k + 1 := ⟨n - 1, by omega⟩
    refine step (enc := mapEncoderOf E .str (encoderOf Γ E k .any)) (v := .map (anyEntries m)) ?_ ?_
    · have hx : ∀ key v, anyEntries m key = some v → ∃ x g, key = .str x ∧ m x = some g ∧ v = .any g := by
        intro key v hv
        cases key with
        | int z => cases hv
        | other n => cases hv
        | str x =>
          simp only [anyEntries] at hv
          cases hg : m x with
          | none => rw [hg] at hv; cases hv
          | some g => rw [hg] at hv; cases hv; exact ⟨x, g, rfl, hg, rfl⟩
      refine fine_map hE ?_ (fun h => absurd trivial h) ?_ ?_
      · obtain ⟨keys, hk⟩ := hm
        refine ⟨keys.map Key.str, fun key h => ?_⟩
        obtain ⟨v, hv⟩ := Option.isSome_iff_exists.mp h
        obtain ⟨x, g, rfl, hg, rfl⟩ := hx key v hv
        exact List.mem_map.mpr ⟨x, hk x (by simp [hg]), rfl⟩
      · intro key v hv
        obtain ⟨x, g, rfl, hg, rfl⟩ := hx key v hv
        exact ⟨x, rfl⟩
      · intro key v hv
        obtain ⟨x, g, rfl, hg, rfl⟩ := hx key v hv
        exact hN k (by omega) x g hg
    · intro q s hs
      simp [encoderOf, encoderStep, anyEncoder, hs, unfoldedEncoder, mapEncoderOf, keyCoder]

/-- The encoder of a type with a definition. -/
def definedEncoder (Γ : TyEnv F) (E : EncEnv F) (n : Nat) : Def → ValEncoder F
  | .slice t => sliceEncoderOf E t (encoderOf Γ E n t)
  | .array k t => arrayEncoderOf E k t (encoderOf Γ E n t)
  | .map k t => mapEncoderOf E k (encoderOf Γ E n t)
  | .struct _ => notSupportedEncoder

theorem fine_defined {T : Ty} {d : Def} (hT : Is Γ T d) (hd : ∀ fs, d ≠ .struct fs) {v : Val F}
    (h : ∃ N, ∀ n, N ≤ n → Fine A (definedEncoder Γ E n d) v) : ∃ N, ∀ n, N ≤ n → Fine A (encoderOf Γ E n T) v := by
  obtain ⟨N, hN⟩ := h
  cases hT with
  | slice t => exact ⟨N, hN⟩
  | array k t => exact ⟨N, hN⟩
  | map k t => exact ⟨N, hN⟩
  | named i _ hdef =>
    refine ⟨N + 1, fun n hn => ?_⟩
    obtain ⟨m, rfl⟩ : ∃ m, n = m + 1 := ⟨n - 1, by omega⟩
    have := hN m (by omega)
    simp only [encoderOf, encoderStep, unfoldedEncoder, hdef]
    cases d with
    | struct fs => exact absurd rfl (hd fs)
    | slice t => exact this
    | array k t => exact this
    | map k t => exact this

theorem nil_fine {T : Ty} {n : Nat} (h : T = .unsupported → A .typeNotSupported)
    (hK : ∀ K U, Is Γ T (.map K U) → ¬ KeysKnown E K → A .typeNotSupported) (hp : pointerMethod E T = none) {q : Bool} {s : Streamer}
    (hs : s.error = none) {e : EncErr} (he : ((encoderOf Γ E (n + 1) T).encode q none s).error = some e) : A e := by
  have hs1 : s.error ≠ none ↔ False := by simp [hs]
  cases T with
  | unsupported =>
    simp only [encoderOf, encoderStep, notSupportedEncoder, fail_error hs] at he
    cases he; exact h rfl
  | slice U => simp only [encoderOf, encoderStep, sliceEncoderOf] at he; split at he <;> simp [base64Encoder, sliceEncoder, hs] at he <;> exact null_fine hs he
  | array m U => simp only [encoderOf, encoderStep, arrayEncoderOf] at he; split at he <;> simp [emptyArrayEncoder, arrayEncoder, hs] at he <;> exact null_fine hs he
  | map K U => exact fine_noMap (hK K U (.map K U)) (.inl rfl) hs he
  | ptr U => simp only [encoderOf, encoderStep] at he; split at he <;> simp [ptrEncoder, pointerMarshalerEncoder, hs] at he <;> exact null_fine hs he
  | jsonUnmarshaler i =>
    cases hr : E.recv i with
    | pointer => simp [pointerMethod, hr] at hp
    | value => simp [encoderOf, encoderStep, hr, marshalerEncoder, hs] at he; exact null_fine hs he
  | textUnmarshaler i =>
    cases hr : E.recv i with
    | pointer => simp [pointerMethod, hr] at hp
    | value => simp [encoderOf, encoderStep, hr, marshalerEncoder, hs] at he; exact null_fine hs he
  | named i =>
    simp only [encoderOf, encoderStep, unfoldedEncoder] at he
    cases hd : Γ.defn i with
    | slice U => simp only [hd, defEncoder, sliceEncoderOf] at he; split at he <;> simp [base64Encoder, sliceEncoder, hs] at he <;> exact null_fine hs he
    | array m U => simp only [hd, defEncoder, arrayEncoderOf] at he; split at he <;> simp [emptyArrayEncoder, arrayEncoder, hs] at he <;> exact null_fine hs he
    | map K U => simp only [hd, defEncoder] at he; exact fine_noMap (hK K U (.named i _ hd)) (.inl rfl) hs he
    | struct fs => simp only [hd, defEncoder] at he; split at he <;> simp [emptyStructEncoder, structEncoder, hs] at he <;> exact null_fine hs he
  | _ => exact null_fine hs he

theorem fine_encodable (hE : EncLaws E) {T : Ty} {v : Val F} (h : Encodable Γ E A T v) :
    ∃ N, ∀ n, N ≤ n → Fine A (encoderOf Γ E n T) v := by
  induction h with
  | bool b => exact ⟨0, fun n _ => fine_bool b⟩
  | str s => exact ⟨0, fun n _ => fine_str s⟩
  | int w z hz =>
    have : Decidable (Fits w.bits z) := Classical.propDecidable _
    exact ⟨0, fun n _ => fine_int fun b => by rw [appendIntOf_eq, if_pos hz]⟩
  | uint w z hz =>
    have : Decidable (FitsUnsigned w.bits z) := Classical.propDecidable _
    exact ⟨0, fun n _ => fine_int fun b => by rw [appendUintOf_eq, if_pos hz]⟩
  | float32 f hi hn => exact ⟨0, fun n _ => fine_float hi hn⟩
  | float64 f hi hn => exact ⟨0, fun n _ => fine_float hi hn⟩
  | number s => exact ⟨0, fun n _ => fine_number s⟩
  | raw s => exact ⟨0, fun n _ => fine_raw s⟩
  | any g h => exact fine_any hE h
  | nilPtr T h hK =>
    refine ⟨1, fun n hn q s hs e he => ?_⟩
    obtain ⟨m, rfl⟩ : ∃ m, n = m + 1 := ⟨n - 1, by omega⟩
    simp only [encoderOf, encoderStep] at he
    cases hp : pointerMethod E T with
    | some write => simp [hp, pointerMarshalerEncoder, hs] at he; exact null_fine hs he
    | none => simp only [hp, ptrEncoder] at he; exact nil_fine h hK hp hs he
  | ptr T v hv ih =>
    obtain ⟨N, hN⟩ := ih
    refine ⟨N, fun n hn q s hs e he => ?_⟩
    have hf := hN n hn
    simp only [encoderOf, encoderStep] at he
    cases hp : pointerMethod E T with
    | some write =>
      have := fine_prefer (enc := encoderOf Γ E n T) hv hf q s hs e
      simp only [preferPtrEncoder, hp, directEncoder] at this
      simp only [hp] at he
      exact this he
    | none => simp only [hp, ptrEncoder] at he; exact hf q s hs e he
  | nilSlice T U hT => exact fine_defined hT (by simp) ⟨0, fun n _ => fine_nilSliceOf⟩
  | slice T U vs hT hv ih =>
    obtain ⟨N, hN⟩ := bound_list (P := fun n v => Fine A (encoderOf Γ E n U) v) ih
    exact fine_defined hT (by simp) ⟨N, fun n hn => fine_sliceOf hv (hN n hn)⟩
  | arr T U k vs hT hk hv ih =>
    obtain ⟨N, hN⟩ := bound_list (P := fun n v => Fine A (encoderOf Γ E n U) v) ih
    exact fine_defined hT (by simp) ⟨N, fun n hn => fine_arrayOf hk hv (hN n hn)⟩
  | nilMap T U K hT hK => exact fine_defined hT (by simp) ⟨0, fun n _ => fine_nilMap hK⟩
  | map T U K m hT hm hK hk hv ih =>
    obtain ⟨N, hN⟩ := bound_map (P := fun n v => Fine A (encoderOf Γ E n U) v) hm ih
    exact fine_defined hT (by simp) ⟨N, fun n hn => fine_map hE hm hK hk (hN n hn)⟩
  | struct i fs vs hT hp he hv ih =>
    obtain ⟨N, hN⟩ := bound_list (P := fun n f => ∀ x, Reaches f.path (.struct vs) x → Fine A (encoderOf Γ E n f.ty) x) (l := E.fields i)
      (fun f hf => by
        by_cases hx : ∃ x, Reaches f.path (.struct vs) x
        · obtain ⟨x, hx⟩ := hx
          obtain ⟨N, hN⟩ := ih f hf x hx
          refine ⟨N, fun n hn y hy => ?_⟩
          have h1 := followPath_reaches hx
          rw [followPath_reaches hy] at h1
          cases h1
          exact hN n hn
        · exact ⟨0, fun n _ x h => absurd ⟨x, h⟩ hx⟩)
    refine ⟨N + 2, fun n hn => ?_⟩
    obtain ⟨m, rfl⟩ : ∃ m, n = m + 2 := ⟨n - 2, by omega⟩
    simp only [encoderOf, encoderStep, unfoldedEncoder, hT, defEncoder]
    split
    · exact fun q s hs e h => raw_fine hs h
    · intro q s hs e h
      simp only [structEncoder, hs, ne_eq, not_true_eq_false, if_false] at h
      have h0 : s.objectStart.error = none := by rw [objectStart_eq hs]; exact hs
      refine fine_fields hp ?_ ?_ h0 h
      · exact fun f hf ho x hx => prefer_isEmpty (n := m) hE (hv f hf x hx) (he f hf ho x hx)
      · exact fun f hf x hx => fine_prefer (hv f hf x hx) (hN (m + 1) (by omega) f hf x hx)
  | json i v hj _ ih =>
    cases hr : E.recv i with
    | value =>
      refine ⟨0, fun n _ q s hs e h => ?_⟩
      simp only [encoderOf, encoderStep, hr, marshalerEncoder, hs, ne_eq, not_true_eq_false, if_false, writeJSON] at h
      split at h
      · rename_i e' he'; cases h; exact hj _ he'
      · exact raw_fine hs h
    | pointer =>
      obtain ⟨N, hN⟩ := ih hr
      refine ⟨N + 1, fun n hn => ?_⟩
      obtain ⟨m, rfl⟩ : ∃ m, n = m + 1 := ⟨n - 1, by omega⟩
      simp only [encoderOf, encoderStep, hr, unfoldedEncoder]
      exact hN m (by omega)
  | text i v hj _ ih =>
    cases hr : E.recv i with
    | value =>
      refine ⟨0, fun n _ q s hs e h => ?_⟩
      simp only [encoderOf, encoderStep, hr, marshalerEncoder, hs, ne_eq, not_true_eq_false, if_false, writeText] at h
      split at h
      · rename_i e' he'; cases h; exact hj _ he'
      · exact string_fine hs h
    | pointer =>
      obtain ⟨N, hN⟩ := ih hr
      refine ⟨N + 1, fun n hn => ?_⟩
      obtain ⟨m, rfl⟩ : ∃ m, n = m + 1 := ⟨n - 1, by omega⟩
      simp only [encoderOf, encoderStep, hr, unfoldedEncoder]
      exact hN m (by omega)
  | unsupported v h =>
    refine ⟨0, fun n _ q s hs e he => ?_⟩
    simp only [encoderOf, encoderStep, notSupportedEncoder, fail_error hs] at he
    cases he; exact h

/-- The errors of `Marshal` have one of the reasons. -/
theorem marshal_errors (hE : EncLaws E) {T : Ty} {v : Val F} (h : Encodable Γ E A T v) :
    ∃ N, ∀ old n e, N ≤ n → Marshal Γ E old n T v = .error e → A e := by
  obtain ⟨N, hN⟩ := fine_encodable hE h
  refine ⟨N, fun old n e hn he => ?_⟩
  unfold Marshal at he
  simp only [Streamer.value, newStreamer, Streamer.escapeHTML, Streamer.reset, ne_eq, not_true_eq_false, if_false] at he
  split at he
  · rename_i e' h'
    cases he
    exact hN n hn false _ rfl e h'
  · cases he

/-! ## Values of a type -/

theorem finiteAny_encodable {arg : F → FloatArg} (hi : A .floatIsInfinity) (hn : A .floatIsNan) {g : GoVal F} (h : FiniteAny g) :
    EncodableAny A arg g := by
  induction h with
  | nil => exact .nil
  | bool b => exact .bool b
  | number l => exact .number l
  | float f => exact .float f (fun _ => hi) (fun _ => hn)
  | str s => exact .str s
  | arr l _ ih => exact .arr l ih
  | obj m hm _ ih => exact .obj m hm ih

theorem reaches_or_missing {L : Nat → List Ty} {T T' : Ty} {p : List PathStep} (hp : PathTy Γ L T p T') {v : Val F} (hv : HasTy Γ L T v) :
    Missing p v ∨ ∃ x, Reaches p v x ∧ HasTy Γ L T' x := by
  induction hp generalizing v with
  | here T => exact .inr ⟨v, .here v, hv⟩
  | member i k fs T T' p hd hk hp ih =>
    cases hv with
    | struct _ _ vs _ hn h =>
      have : k < vs.length := by rw [hn]; exact (List.getElem?_eq_some_iff.mp hk).1
      have hv : vs[k]? = some vs[k] := List.getElem?_eq_getElem this
      rcases ih (h k _ T hv hk) with h | ⟨x, h1, h2⟩
      · exact .inl (.member k p vs _ hv h)
      · exact .inr ⟨x, .member k p vs _ x hv h1, h2⟩
    | _ => rename_i hT; cases hT; rename_i hT; rw [hd] at hT; cases hT
  | deref e T T' p hp ih =>
    cases hv with
    | nilPtr => exact .inl (.nil e T p)
    | ptr _ v h =>
      rcases ih h with h | ⟨x, h1, h2⟩
      · exact .inl (.deref e T p v h)
      · exact .inr ⟨x, .deref e T p v x h1, h2⟩
    | _ => rename_i hT; cases hT

theorem encodable_of_hasTy {L : Nat → List Ty} (hE : EncLaws E) (hD : EncDeclared Γ E L) (hi : A .floatIsInfinity) (hn : A .floatIsNan)
    (hu : A .typeNotSupported) (hj : ∀ i v e, E.marshalJSON i v = .error e → A e) (ht : ∀ i v e, E.marshalText i v = .error e → A e)
    {T : Ty} {v : Val F} (h : HasTy Γ L T v) (hf : FiniteVal v) : Encodable Γ E A T v := by
  -- also for the fields, wherever they are
  suffices hs : ∀ p T' x, PathTy Γ L T p T' → Reaches p v x → Encodable Γ E A T' x from hs [] T v (.here T) (.here v)
  have hp : ∀ {T v}, (∀ i, T ≠ .named i) → (∀ U, T ≠ .ptr U) → Encodable Γ E A T v →
      ∀ p T' x, PathTy Γ L T p T' → Reaches p v x → Encodable Γ E A T' x := by
    intro T v h1 h2 h p T' x hp hr
    cases hp with
    | here => cases hr; exact h
    | member i => exact absurd rfl (h1 _)
    | deref => exact absurd rfl (h2 _)
  -- types with a definition that is no struct
  have hdef : ∀ {T d v}, Is Γ T d → (∀ fs, d ≠ .struct fs) → Encodable Γ E A T v →
      ∀ p T' x, PathTy Γ L T p T' → Reaches p v x → Encodable Γ E A T' x := by
    intro T d v hT hd h p T' x hp hr
    cases hp with
    | here => cases hr; exact h
    | member i k fs _ _ _ hs =>
      cases hT with
      | named _ _ h' => rw [hs] at h'; exact absurd h'.symm (hd fs)
    | deref => cases hT
  have hkey : ∀ {K k}, KeyOf Γ K k → KeyFine E A K k := by
    intro K k hk
    cases K with
    | text i =>
      simp only [KeyFine, hD.values i]
      cases hu : E.under i <;> first | exact hD.strings i k (by simp [hu]) (hk.2 i rfl) | exact fun e he => ht i _ e he
    | _ => exact hk.1
  induction h with
  | bool b => exact hp (by simp) (by simp) (.bool b)
  | str s => exact hp (by simp) (by simp) (.str s)
  | int w z h => exact hp (by simp) (by simp) (.int w z h)
  | uint w z h0 h => exact hp (by simp) (by simp) (.uint w z ⟨h0, h⟩)
  | float32 f => exact hp (by simp) (by simp) (.float32 f (fun _ => hi) fun _ => hn)
  | float64 f => exact hp (by simp) (by simp) (.float64 f (fun _ => hi) fun _ => hn)
  | number s => exact hp (by simp) (by simp) (.number s)
  | raw s => exact hp (by simp) (by simp) (.raw s)
  | any g =>
    cases hf with
    | any _ h => exact hp (by simp) (by simp) (.any g (finiteAny_encodable hi hn h))
  | nilPtr T =>
    intro p T' x hp hr
    cases hp with
    | here => cases hr; exact .nilPtr T (fun _ => hu) fun _ _ _ _ => hu
    | deref e _ _ p hp => cases hr
  | ptr T v h ih =>
    cases hf with
    | ptr _ hf =>
      have ih := ih hf
      intro p T' x hp hr
      cases hp with
      | here => cases hr; exact .ptr T v (ih [] T v (.here T) (.here v))
      | deref e _ _ p hp => cases hr with
        | deref _ _ _ _ _ hr => exact ih _ _ _ hp hr
  | nilSlice T U hT => exact hdef hT (by simp) (.nilSlice T U hT)
  | slice T U vs hT _ ih =>
    cases hf with
    | slice _ hf => exact hdef hT (by simp) (.slice T U vs hT fun v hv => ih v hv (hf v hv) [] U v (.here U) (.here v))
  | arr T U n vs hT hlen _ ih =>
    cases hf with
    | arr _ hf => exact hdef hT (by simp) (.arr T U n vs hT hlen fun v hv => ih v hv (hf v hv) [] U v (.here U) (.here v))
  | nilMap T U K hT => exact hdef hT (by simp) (.nilMap T U K hT fun _ => hu)
  | map T U K m hT hk _ ih =>
    cases hf with
    | map _ hm hf => exact hdef hT (by simp) (.map T U K m hT hm (fun _ => hu) (fun k v hv => hkey (hk k v hv)) fun k v hv => ih k v hv (hf k v hv) [] U v (.here U) (.here v))
  | struct i fs vs hd hlen hv ih =>
    cases hf with
    | struct _ hf =>
      have hmem : ∀ {k p T' x}, PathTy Γ L (.named i) (.member k :: p) T' → Reaches (.member k :: p) (.struct vs) x → Encodable Γ E A T' x := by
        intro k p T' x hp hr
        cases hp with
        | member _ _ _ T _ _ _ hk hp =>
          cases hr with
          | member _ _ _ w _ hw hr => exact ih k w T hw hk (hf w (List.mem_of_getElem? hw)) _ _ _ hp hr
      intro p T' x hp hr
      have hst : HasTy Γ L (.named i) (.struct vs) := .struct i fs vs hd hlen hv
      cases hp with
      | member _ _ _ _ _ _ h1 h2 h3 => exact hmem (.member _ _ _ _ _ _ h1 h2 h3) hr
      | here =>
        cases hr
        refine .struct i fs vs hd ?_ ?_ ?_
        · intro f hf
          rcases reaches_or_missing (hD.fields i fs f hd hf) hst with h | ⟨x, h, _⟩
          · exact .inl h
          · exact .inr ⟨x, h⟩
        · intro f hf ho x hx
          have := hD.omitEmpty i f hf ho
          unfold EmptyKnown
          split
          · rename_i heq; exact absurd heq (this _).1
          · rename_i heq; exact absurd heq (this _).2
          · trivial
        · intro f hf x hx
          have hpt := hD.fields i fs f hd hf
          obtain ⟨k, p, hpath⟩ := hE.paths i f hf
          rw [hpath] at hpt hx
          exact hmem hpt hx
  | jsonUnmarshaler i v =>
    exact hp (by simp) (by simp) (.json i v (hj i v) fun h => by rw [hD.values i] at h; cases h)
  | textUnmarshaler i v =>
    exact hp (by simp) (by simp) (.text i v (ht i v) fun h => by rw [hD.values i] at h; cases h)
  | unsupported v => exact hp (by simp) (by simp) (.unsupported v hu)

end

end Jzon
