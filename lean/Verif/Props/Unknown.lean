import Verif.Proof.UnknownIn
import Verif.Props.TypedSafe

/-!
# C38: unknown members
-/

set_option linter.unusedSimpArgs false

namespace Jzon.Props

open Spec Jzon

variable {F : Type} {Γ : TyEnv F} {cfg : DecCfg F} {same : Nat → Nat → Prop} {L : Nat → List Ty}

/-- The relation of a type and of the option `string` in this library. -/
abbrev DecodesHereO (Γ : TyEnv F) (cfg : DecCfg F) (same : Nat → Nat → Prop) : Ty → Rel F :=
  DecodesO Γ cfg true (SelectsHere same cfg.caseSensitive)

/-- C38, unknown members allowed: decoding succeeds exactly on `null` and on objects all of whose keys are strings, whose
unknown members are values, and whose other members decode, one after the other, into the selected fields; the unknown
members have no influence on the result. -/
theorem C38_skipped (hl : TypeLaws Γ cfg same) (hdis : cfg.disallowUnknownFields = false) (pools : Pools) (it : It) {data : List Byte}
    {i : Nat} {fs : List Field} (hi : Γ.defn i = .struct fs) {old v : Val F} :
    Unmarshal Γ cfg pools it data (.named i) old = .ok v ↔
      Around (fun t => (t = nullText ∧ v = old) ∨
        ∃ ms xs, ObjectOf t ms ∧ KnownOf (SelectsHere same cfg.caseSensitive (fs.map Field.name)) ms xs ∧
          Visits (FieldRel (Γ.zero cfg) fs (DecodesHereO Γ cfg same)) old xs v) data := by
  rw [unmarshal_iff hl]
  unfold Around
  have key : ∀ t, DecodesHere Γ cfg same (.named i) old t v ↔ (t = nullText ∧ v = old) ∨
        ∃ ms xs, ObjectOf t ms ∧ KnownOf (SelectsHere same cfg.caseSensitive (fs.map Field.name)) ms xs ∧
          Visits (FieldRel (Γ.zero cfg) fs (DecodesHereO Γ cfg same)) old xs v := by
    intro t
    refine (decodesO_struct hi).trans ?_
    unfold StructRel
    rw [hdis]
    simp only [knownOf_visits]
    constructor
    · rintro (h | ⟨ms, h1, xs, h2, h3⟩)
      · exact .inl h
      · exact .inr ⟨ms, xs, h1, h2, h3⟩
    · rintro (h | ⟨ms, xs, h1, h2, h3⟩)
      · exact .inl h
      · exact .inr ⟨ms, h1, xs, h2, h3⟩
  simp only [key]

/-- C38, unknown members forbidden: decoding succeeds exactly on `null` and on objects all of whose keys select fields
into which the values decode. -/
theorem C38_all_known (hl : TypeLaws Γ cfg same) (hdis : cfg.disallowUnknownFields = true) (pools : Pools) (it : It) {data : List Byte}
    {i : Nat} {fs : List Field} (hi : Γ.defn i = .struct fs) {old v : Val F} :
    Unmarshal Γ cfg pools it data (.named i) old = .ok v ↔
      Around (fun t => (t = nullText ∧ v = old) ∨
        ∃ ms xs, ObjectOf t ms ∧
          Each (fun m (x : Nat × List Byte) =>
            (∃ key, Str m.1 key ∧ SelectsHere same cfg.caseSensitive (fs.map Field.name) key x.1) ∧ x.2 = m.2) ms xs ∧
          Visits (FieldRel (Γ.zero cfg) fs (DecodesHereO Γ cfg same)) old xs v) data := by
  rw [unmarshal_iff hl]
  unfold Around
  have key : ∀ t, DecodesHere Γ cfg same (.named i) old t v ↔ (t = nullText ∧ v = old) ∨
        ∃ ms xs, ObjectOf t ms ∧
          Each (fun m (x : Nat × List Byte) =>
            (∃ key, Str m.1 key ∧ SelectsHere same cfg.caseSensitive (fs.map Field.name) key x.1) ∧ x.2 = m.2) ms xs ∧
          Visits (FieldRel (Γ.zero cfg) fs (DecodesHereO Γ cfg same)) old xs v := by
    intro t
    refine (decodesO_struct hi).trans ?_
    unfold StructRel
    rw [hdis]
    simp only [strict_visits]
    constructor
    · rintro (h | ⟨ms, h1, xs, h2, h3⟩)
      · exact .inl h
      · exact .inr ⟨ms, xs, h1, h2, h3⟩
    · rintro (h | ⟨ms, xs, h1, h2, h3⟩)
      · exact .inl h
      · exact .inr ⟨ms, h1, xs, h2, h3⟩
  simp only [key]

/-- The functions given to the library neither panic nor loop nor return an UnknownFieldError themselves. -/
def NoUnknown (Γ : TyEnv F) (cfg : DecCfg F) : Prop := Tame .known Γ cfg

theorem unmarshal_unknown (pools : Pools) (it : It) {data k : List Byte} {T : Ty} {old : Val F} :
    Unmarshal Γ cfg pools it data T old = .error (.unknownField k) ↔
      (decoderOf Γ cfg pools (data.length + 1) T {} old).runF (it.resetBytes data).env data = .error (.unknownField k) := by
  have hu := unread_bytes it data
  have he := env_endErr hu
  have hbad : ¬ Bad .known (it.resetBytes data).env.endErr := by rw [he]; simp [Bad]
  have key : (unmarshalProg Γ cfg pools T old).runF (it.resetBytes data).env data = .error (.unknownField k) ↔
      (decoderOf Γ cfg pools (data.length + 1) T {} old).runF (it.resetBytes data).env data = .error (.unknownField k) := by
    unfold unmarshalProg ReadVal
    rw [runF_bind_error]
    constructor
    · rintro (h | ⟨v, r, _, h⟩)
      · rw [runF_bind_error] at h
        rcases h with h | ⟨n, r, h1, h⟩
        · exact absurd h (not_safe_unknown safe_remaining)
        · obtain ⟨rfl, rfl⟩ := runs_remaining.mp h1
          exact h
      · refine absurd h (not_safe_unknown (safe_bind (safe_tokenEOF hbad) fun o l _ => ?_))
        split
        · exact safe_fail (by simp [Bad])
        · exact safe_pure _
    · intro h
      left
      rw [runF_bind_error]
      exact .inr ⟨_, _, runs_remaining.mpr ⟨rfl, rfl⟩, h⟩
  rw [← key]
  unfold Unmarshal
  constructor
  · intro h
    cases hm : (unmarshalProg Γ cfg pools T old).runM (it.resetBytes data) with
    | mk x it' =>
      rw [hm] at h
      simp only at h
      subst h
      exact (runM_error hu hm).1
  · intro h
    obtain ⟨_, h⟩ := runM_of_error hu h
    rw [h]

/-- C38: without the option no type ever reports an unknown field. -/
theorem C38_never (hl : TypeLaws Γ cfg same) (hd : Declared Γ L) (hp : NoUnknown Γ cfg) (hdis : cfg.disallowUnknownFields = false)
    (pools : Pools) (it : It) (data : List Byte) {T : Ty} {old : Val F} (hold : HasTy Γ L T old) (k : List Byte) :
    Unmarshal Γ cfg pools it data T old ≠ .error (.unknownField k) := by
  rw [ne_eq, unmarshal_unknown]
  have he := env_endErr (unread_bytes it data)
  exact not_safe_unknown (safe_decoderOf (by rw [he]; simp [Bad]) hl.decLaws hp hd closed_all (fun _ h => by rw [hdis] at h; cases h)
    (fun i fs _ key j hj => selectsHere_lt hj) pools trivial hold (by omega))

theorem member_unknown {env : Env} {sel : List Byte → Nat → Prop} {pools : Pools} {zero : Ty → Val F} {build : Ty → ValDecoder (Val F)}
    {fs : List Field} (hs : Finds cfg (fs.map Field.name) sel) (hdis : cfg.disallowUnknownFields = true) (key : List Byte) (a : Val F)
    (l : List Byte) (h : ∀ i, ¬ sel key i) :
    (structMember cfg pools zero build fs key a).runF env l = .error (.unknownField key) :=
  (unknown_member hs hdis (fun i f hi _ => absurd hi (h i))).mpr ⟨rfl, h⟩

/-- C38, unknown members forbidden, for structs with at least one field: an object whose first members decode, and
whose next key selects no field, gives an UnknownFieldError for this key, whatever follows. -/
theorem C38_reported (hl : TypeLaws Γ cfg same) (hdis : cfg.disallowUnknownFields = true) (pools : Pools) (it : It)
    {i : Nat} {fs : List Field} (hi : Γ.defn i = .struct fs) (hfs : fs ≠ []) {old s : Val F} {w l l' k : List Byte} (hw : Ws w)
    (hb : Before (MemberRel true (Γ.zero cfg) (SelectsHere same cfg.caseSensitive (fs.map Field.name)) fs (DecodesHereO Γ cfg same))
      old l s l')
    (ha : AtUnknown (SelectsHere same cfg.caseSensitive (fs.map Field.name)) l' k) :
    Unmarshal Γ cfg pools it (w ++ 0x7B :: l) (.named i) old = .error (.unknownField k) := by
  rw [unmarshal_unknown, decoderOf, decoderStep, namedDecoder, hi]
  cases fs with
  | nil => exact absurd rfl hfs
  | cons f0 fs0 =>
    simp only
    have hf := hl.decLaws.finds i _ hi
    refine unknown_struct_complete (s' := s) (R := DecodesN Γ cfg true (SelectsHere same cfg.caseSensitive) (w ++ 0x7B :: l).length) hf
      (fun T o old => decoderOf_impl hl.decLaws pools _ T o old) (fun key a l h => member_unknown hf hdis key a l h) hw ?_ ha
    rw [hdis]
    have hlen : l.length < (w ++ 0x7B :: l).length := by simp; omega
    generalize (w ++ 0x7B :: l).length = N at hlen
    clear hw
    induction hb with
    | nil => exact .nil _ _
    | cons s s1 s' w1 t w2 l1 l' m hw1 hm hg hw2 _ ih =>
      refine .cons _ s1 _ _ _ _ _ _ m hw1 hm ?_ hw2 (ih ha (by simp at hlen; omega))
      obtain ⟨key, hk, ⟨j, f, h1, h2, h3⟩ | ⟨_, h, _⟩⟩ := hg
      · obtain ⟨a, b, h4, h5⟩ := atPath_leaf h3
        refine ⟨key, hk, .inl ⟨j, f, h1, h2, h5 _ ((decodesO_iff ?_).mp h4)⟩⟩
        obtain ⟨w3, w4, _, _, rfl⟩ := hm
        simp at hlen
        omega
      · cases h

/-- C38, unknown members forbidden, for structs with at least one field whose fields do not themselves involve structs:
an UnknownFieldError is reported exactly for the first key that selects no field, if the members before decode. -/
theorem C38_flat (hl : TypeLaws Γ cfg same) (hd : Declared Γ L) (hp : NoUnknown Γ cfg) (hdis : cfg.disallowUnknownFields = true)
    (pools : Pools) (it : It) {i : Nat} {fs : List Field} (hi : Γ.defn i = .struct fs) (hfs : fs ≠ [])
    (hflat : ∀ f ∈ fs, NoStruct Γ f.ty) {old : Val F} (hold : HasTy Γ L (.named i) old) (data k : List Byte) :
    Unmarshal Γ cfg pools it data (.named i) old = .error (.unknownField k) ↔
      ∃ w l s l', Ws w ∧ data = w ++ 0x7B :: l ∧
        Before (MemberRel true (Γ.zero cfg) (SelectsHere same cfg.caseSensitive (fs.map Field.name)) fs (DecodesHereO Γ cfg same))
          old l s l' ∧
        AtUnknown (SelectsHere same cfg.caseSensitive (fs.map Field.name)) l' k := by
  constructor
  · intro h
    rw [unmarshal_unknown, decoderOf, decoderStep, namedDecoder, hi] at h
    cases fs with
    | nil => exact absurd rfl hfs
    | cons f0 fs0 =>
      simp only at h
      have hf := hl.decLaws.finds i _ hi
      have hbad : ¬ Bad .known (it.resetBytes data).env.endErr := by rw [env_endErr (unread_bytes it data)]; simp [Bad]
      have hres : ∃ w l1 s' l', Ws w ∧ data = w ++ 0x7B :: l1 ∧
          Before (MemberRel cfg.disallowUnknownFields (Γ.zero cfg) (SelectsHere same cfg.caseSensitive ((f0 :: fs0).map Field.name))
            (f0 :: fs0) (DecodesN Γ cfg true (SelectsHere same cfg.caseSensitive) data.length)) old l1 s' l' ∧
          AtUnknown (SelectsHere same cfg.caseSensitive ((f0 :: fs0).map Field.name)) l' k := by
        refine unknown_struct_sound (Q := HasTy Γ L (.named i)) hbad hf
          (fun T o old => decoderOf_impl hl.decLaws pools _ T o old) ?_ ?_ hold h
        · intro key a l' k ha hlt he
          refine (unknown_member hf hdis ?_).mp he
          intro j f _ hj
          have hmem := List.mem_of_getElem? hj
          obtain ⟨P, hP, hPT, hPs⟩ := hflat f hmem
          exact not_safe_unknown (safe_atPath hd (hd.fields i _ f hi hmem) ha fun a ha =>
            safe_decoderOf hbad hl.decLaws hp hd hP (fun _ _ => hPs) (fun i fs _ key j hj => selectsHere_lt hj) pools hPT ha hlt)
        · intro key a l b r ha hr
          rcases (structMember_iff hf).mp hr with ⟨j, f, _, h5, h6⟩ | ⟨_, _, _, rfl⟩
          · refine atPath_hasTy hd (hd.fields i _ f hi (List.mem_of_getElem? h5)) ha (fun a b ha hb => ?_) h6
            obtain ⟨_, _, _, _, hb⟩ := (decoderOf_impl hl.decLaws pools _ _ _ _).sound hb
            exact decodesN_hasTy hd ha hb
          · exact ha
      obtain ⟨w, l1, s, l', h1, h2, h3, h4⟩ := hres
      refine ⟨w, l1, s, l', h1, h2, ?_, h4⟩
      rw [hdis] at h3
      clear h2 h hold
      induction h3 with
      | nil => exact .nil _ _
      | cons s s1 s' w1 t w2 l1 l' m hw1 hm hg hw2 _ ih =>
        refine .cons _ s1 _ _ _ _ _ _ m hw1 hm ?_ hw2 (ih h4)
        obtain ⟨key, hk, ⟨j, f, h1, h2, h3⟩ | ⟨_, h, _⟩⟩ := hg
        · obtain ⟨a, b, h4, h5⟩ := atPath_leaf h3
          exact ⟨key, hk, .inl ⟨j, f, h1, h2, h5 _ ⟨_, h4⟩⟩⟩
        · cases h
  · rintro ⟨w, l, s, l', hw, rfl, hb, ha⟩
    exact C38_reported hl hdis pools it hi hfs hw hb ha

/-- C38, unknown members forbidden, for all types and at any depth: an UnknownFieldError is reported exactly when everything up to a key
is in order and this key selects no field, and it is reported for this key; what follows the key has no influence.  In full the
property is about all structs; missing are the structs without fields (`hfs` of `UnknownIn.here`), for which it does not hold, see
`C38_empty_violated`. -/
theorem C38_first_partial (hl : TypeLaws Γ cfg same) (hp : NoUnknown Γ cfg) (hdis : cfg.disallowUnknownFields = true)
    (pools : Pools) (it : It) (T : Ty) (old : Val F) (data k : List Byte) :
    Unmarshal Γ cfg pools it data T old = .error (.unknownField k) ↔
      UnknownIn Γ cfg true (SelectsHere same cfg.caseSensitive) T old data k := by
  have hbad : ¬ Bad .known (it.resetBytes data).env.endErr := by rw [env_endErr (unread_bytes it data)]; simp [Bad]
  rw [unmarshal_unknown]
  exact unknown_iff hbad hl.decLaws hp hdis pools (by omega)

/-- C38 does not hold for a struct without fields: the error is not an UnknownFieldError. -/
theorem C38_empty_violated (hdis : cfg.disallowUnknownFields = true) (pools : Pools) (it : It) {i : Nat} (hi : Γ.defn i = .struct [])
    (old : Val F) (w w2 rest : List Byte) (hw : Ws w) (hw2 : Ws w2) :
    Unmarshal Γ cfg pools it (w ++ 0x7B :: (w2 ++ 0x22 :: rest)) (.named i) old = .error (.unexpectedByte 0x22 0x7D 0) := by
  have h : (unmarshalProg Γ cfg pools (.named i) old).runF (it.resetBytes (w ++ 0x7B :: (w2 ++ 0x22 :: rest))).env
      (w ++ 0x7B :: (w2 ++ 0x22 :: rest)) = .error (.unexpectedByte 0x22 0x7D 0) := by
    unfold unmarshalProg ReadVal
    rw [runF_bind_error, runF_bind_error]
    refine .inl (.inr ⟨_, _, runs_remaining.mpr ⟨rfl, rfl⟩, ?_⟩)
    rw [decoderOf, decoderStep, namedDecoder, hi]
    simp only [emptyObjectDecoder]
    rw [runF_bind_error]
    refine .inr ⟨0x7B, _, runs_nextTokenTake.mpr ⟨w, hw, by decide, rfl⟩, ?_⟩
    rw [if_neg (by decide), if_pos rfl, if_pos hdis, runF_bind_error]
    refine .inr ⟨0x22, _, runs_nextTokenTake.mpr ⟨w2, hw2, by decide, rfl⟩, ?_⟩
    rw [if_pos (by decide)]
    rfl
  obtain ⟨_, h⟩ := runM_of_error (unread_bytes it _) h
  unfold Unmarshal
  rw [h]

/-- The sample with unknown members forbidden. -/
def strictCfg : DecCfg (List Byte) := { sampleCfg with disallowUnknownFields := true }

theorem strictTame : NoUnknown sampleEnv strictCfg := by
  refine ⟨?_, ?_, ?_, ?_, ?_⟩
  · intro _ _ h; cases h
  · intro _ _ h; cases h
  · intro _ _ h; cases h
  · intro _ _ _ _ h; cases h
  · intro _ _ _ _ h; cases h

example : TypeLaws sampleEnv strictCfg sampleSame ∧ Declared sampleEnv sampleMembers ∧ NoUnknown sampleEnv strictCfg ∧
    (∀ f ∈ [(⟨bs! "on", true, [.member 0], .bool⟩ : Field)], NoStruct sampleEnv f.ty) := by
  refine ⟨sampleLaws _ rfl rfl rfl, sampleDeclared, strictTame, ?_⟩
  · intro f hf
    simp only [List.mem_cons, List.not_mem_nil, or_false] at hf
    subst hf
    refine ⟨(· = .bool), ⟨?_, ?_, ?_, ?_, ?_⟩, rfl, ?_⟩
    · intro _ h; cases h
    · intro _ _ h h'; subst h; cases h'
    · intro _ _ _ h h'; subst h; cases h'
    · intro _ _ _ h h'; subst h; cases h'
    · intro _ _ _ h; cases h
    · intro _ _ h; cases h

example : Unmarshal sampleEnv strictCfg samplePools sampleIt (bs! "{\"on\":\"true\", \"x\" : ]") (.named 3) (.struct [.bool false]) =
    .error (.unknownField (bs! "x")) := rfl
example : Unmarshal sampleEnv sampleCfg samplePools sampleIt (bs! "{\"on\":\"true\", \"x\" : []}") (.named 3) (.struct [.bool false]) =
    .ok (.struct [.bool true]) := rfl
example : Unmarshal sampleEnv strictCfg samplePools sampleIt (bs! "{\"x\" : []}") (.named 2) (.struct []) =
    .error (.unexpectedByte 0x22 0x7D 0) := rfl

/-- An unknown member in the second element of a slice, behind a comma, with garbage behind it. -/
example : UnknownIn sampleEnv strictCfg true (SelectsHere sampleSame strictCfg.caseSensitive) (.slice (.named 3)) .nilSlice
    (bs! "[{\"on\":\"true\"},{\"x\":]") (bs! "x") :=
  (C38_first_partial (sampleLaws _ rfl rfl rfl) strictTame rfl samplePools sampleIt (.slice (.named 3)) .nilSlice _ _).mp rfl
example : ¬ UnknownIn sampleEnv strictCfg true (SelectsHere sampleSame strictCfg.caseSensitive) (.slice (.named 3)) .nilSlice
    (bs! "[{\"on\":\"truf\"},{\"x\":]") (bs! "x") := fun h => by
  have := (C38_first_partial (sampleLaws _ rfl rfl rfl) strictTame rfl samplePools sampleIt (.slice (.named 3)) .nilSlice _ _).mpr h
  cases this

end Jzon.Props
