import Verif.Proof.Words

/-! # What the encoders on memory write -/

set_option linter.unusedSimpArgs false
set_option linter.unusedVariables false

namespace Jzon.Words

variable {Γ : Types} {m m' : Memory}

/-! ## Elements and root encoders -/

theorem internal_not_direct (L : Γ.Lawful) (t : RTy) (e : Enc) : Γ.internalEnc t ≠ .direct e := by
  intro h
  have := pick L t
  rw [h] at this
  cases this

theorem elem_like (L : Γ.Lawful) {t : RTy} (h : Γ.likeElem t = true) : Γ.elemEnc t = Γ.internalEnc t := by
  have hp := pick L (.ptr t)
  have hs := special_ptr L t
  unfold Types.likeElem at h
  unfold Types.elemEnc
  generalize Γ.internalEnc (.ptr t) = e at hp
  cases hp with
  | through ht => cases ht with | json _ hc _ | text _ hc _ | kind _ hc => cases hc; rfl
  | custom hw => rw [hw] at h; cases h
  | special hw => rw [(way_special hw).1] at hs; cases hs
  | json hw hd | text hw hd => rw [L.directPtr] at hd; cases hd
  | jsonDirect _ _ hc | textDirect _ _ hc => exact absurd rfl (hc t)
  | jsonPtr hw hc hj | textPtr hw hc hj => cases hc; rw [hw] at h; simp [hj] at h
  | kindCustom hk => simp [Types.kindCustom, Types.core] at hk
  | prim _ _ hc => cases hc
  | emptyArray _ hc | array _ hc _ | eface _ hc | iface _ hc _ | map _ hc | base64 _ hc | slice _ hc | emptyStruct _ hc
  | struct _ hc => cases hc
  | notSupported hu => simp [Types.unsupported, Types.core] at hu

theorem elem_not (L : Γ.Lawful) {t : RTy} (h : Γ.likeElem t = false) : Γ.elemEnc t = .direct (Γ.internalEnc (.ptr t)) := by
  have hp := pick L (.ptr t)
  unfold Types.likeElem at h
  unfold Types.elemEnc
  generalize Γ.internalEnc (.ptr t) = e at hp
  cases hp with
  | through ht =>
    cases ht with
    | json hw hc hj | text hw hc hj => cases hc; rw [hw] at h; simp [hj] at h
    | kind hw hc => rw [hw] at h; cases h
  | _ => rfl

theorem root_direct (L : Γ.Lawful) {t : RTy} {e : Enc} (h : Γ.rootEnc t = .direct e) :
    e = Γ.internalEnc t ∧ Γ.direct t = true := by
  have hp := pick L t
  unfold Types.rootEnc at h
  generalize hi : Γ.internalEnc t = e' at hp h
  cases hp with
  | through ht => exact absurd h (internal_not_direct L _ _)
  | jsonDirect _ hd _ | textDirect _ hd _ => cases h; exact ⟨rfl, hd⟩
  | jsonPtr _ hc _ | textPtr _ hc _ => cases h; exact ⟨rfl, by rw [direct_core L, hc, L.directPtr]⟩
  | map _ hc => cases h; exact ⟨rfl, by rw [direct_core L, hc, L.directMap]⟩
  | array _ hc _ | struct _ hc _ =>
    simp only at h
    split at h
    · next hd => cases h; exact ⟨rfl, hd⟩
    · cases h
  | _ => cases h

/-! ## Fields -/

theorem HoldFields.get {i a j ts vs} : HoldFields Γ m i a j ts vs → ∀ {n t}, ts[n]? = some t →
    ∃ v, vs[n]? = some v ∧ Holds Γ m t (a + Γ.offset i (j + n)) v
  | .nil, n, t, h => by simp at h
  | .cons h h1, 0, t, hn => by simp at hn; subst hn; exact ⟨_, rfl, h⟩
  | .cons (j := j) h h1, n + 1, t, hn => by
    obtain ⟨v, hv, h2⟩ := h1.get (n := n) (by simpa using hn)
    exact ⟨v, by simpa using hv, by rw [show j + (n + 1) = j + 1 + n from by omega]; exact h2⟩
termination_by structural h => h

/-- The way through memory and the way through the value. -/
theorem locate_follows {t path f} (hl : Leads Γ t path f) : ∃ o offs, Γ.offsets t path = some (o :: offs, f) ∧
    ∀ {m : Memory} {a v}, Holds Γ m t a v →
      (locate m (a + o) offs = some none ∧ Follows path v none) ∨
      ∃ b x, locate m (a + o) offs = some (some b) ∧ Follows path v (some x) ∧ Holds Γ m f b x := by
  induction hl with
  | field hc hf =>
    next t i j f =>
    refine ⟨Γ.offset i j, [], by simp [Types.offsets, hc, hf], fun h => .inr ?_⟩
    cases h.at_core hc with
    | struct h0 =>
      obtain ⟨v, hv, h2⟩ := h0.get hf
      exact ⟨_, v, rfl, .field hv, by simpa using h2⟩
  | embedded hj hc hf hp h1 ih =>
    next t i j js e f =>
    obtain ⟨o, offs, ho, ih⟩ := ih
    refine ⟨Γ.offset i j + o, offs, ?_, fun h => ?_⟩
    · simp only [Types.offsets, hc, hf]
      rw [if_neg hj]
      cases e with
      | ptr p => exact absurd rfl (hp p)
      | _ => simp [ho]
    · cases h.at_core hc with
      | struct h0 =>
        obtain ⟨v, hv, h2⟩ := h0.get hf
        simp only [Nat.zero_add] at h2
        have hlist : ∃ ws, v = .list ws := by
          cases h1 with
          | field hc _ | embedded _ hc _ _ _ | pointer _ hc _ _ =>
            cases h2.at_core hc with
            | struct _ => exact ⟨_, rfl⟩
        obtain ⟨ws, rfl⟩ := hlist
        rcases ih h2 with ⟨h3, h4⟩ | ⟨b, x, h3, h4, h5⟩
        · exact .inl ⟨by rw [← Nat.add_assoc]; exact h3, .embedded hj hv h4⟩
        · exact .inr ⟨b, x, by rw [← Nat.add_assoc]; exact h3, .embedded hj hv h4, h5⟩
  | pointer hj hc hf h1 ih =>
    next t i j js e f =>
    obtain ⟨o, offs, ho, ih⟩ := ih
    refine ⟨Γ.offset i j, o :: offs, ?_, fun h => ?_⟩
    · simp only [Types.offsets, hc, hf]
      rw [if_neg hj]
      simp [ho]
    · cases h.at_core hc with
      | struct h0 =>
        obtain ⟨v, hv, h2⟩ := h0.get hf
        simp only [Nat.zero_add] at h2
        cases h2 with
        | nilPtr h3 => exact .inl ⟨by simp [locate, h3], .null hj hv⟩
        | ptr h3 h4 =>
          rcases ih h4 with ⟨h5, h6⟩ | ⟨b, x, h5, h6, h7⟩
          · exact .inl ⟨by simp [locate, h3]; exact h5, .pointer hj hv h6⟩
          · exact .inr ⟨b, x, by simp [locate, h3]; exact h5, .pointer hj hv h6, h7⟩

/-! ## Bytes -/

theorem ReadBytes.unique {a n xs} : ReadBytes m a n xs → ∀ {ys}, ReadBytes m a n ys → xs = ys
  | .nil, _, .nil => rfl
  | .cons h h1, _, .cons h' h1' => by rw [h] at h'; cases h'; rw [h1.unique h1']
termination_by structural h => h

theorem HoldElems.bytes (L : Γ.Lawful) {t a n vs} (hc : Γ.core t = .prim .uint8) : HoldElems Γ m t a n vs →
    ∃ ns, vs = ns.map .prim ∧ ReadBytes m a n ns
  | .nil => ⟨[], rfl, .nil⟩
  | .cons h h1 => by
    obtain ⟨ns, rfl, h2⟩ := HoldElems.bytes L hc h1
    cases h.at_core hc with
    | prim h3 => exact ⟨_ :: ns, rfl, .cons h3 (by rw [L.sizeByte t hc] at h2; exact h2)⟩
termination_by structural h => h

/-! ## Soundness -/

/-- What is to be known of a run: `internal`, `elem` and `root` for the three uses of an encoder. -/
structure Right (Γ : Types) (m : Memory) (q : Bool) (e : Enc) (w : Ptr) (o : Out) : Prop where
  internal : ∀ t a v, Γ.internalEnc t = e → w = some a → Γ.used t → Holds Γ m t a v → Shows Γ q t v o
  null : ∀ t, Γ.internalEnc t = e → w = none → Γ.special t ≠ some .textMarshaler → o = Γ.nilOut q t
  method : ∀ t a b v, Γ.internalEnc (.ptr t) = e → Γ.likeElem t = false → w = some a → m a = some (.ptr (some b)) →
    Holds Γ m t b v → Shows Γ q (.ptr t) (.ref v) o
  elem : ∀ t a v, Γ.elemEnc t = e → w = some a → Γ.used t → Holds Γ m t a v → ShowsVar Γ q t v o
  root : ∀ t v, Γ.rootEnc t = e → Γ.used t → Boxed Γ m t w v → Shows Γ q t v o

theorem boxed_pointer {t w v} (hd : Γ.direct t = false) (h : Boxed Γ m t w v) : ∃ a, w = some a ∧ Holds Γ m t a v := by
  cases h with
  | pointer _ _ h => exact ⟨_, rfl, h⟩
  | word _ h _ => rw [hd] at h; cases h

theorem boxed_word {t w v} (hd : Γ.direct t = true) (h : Boxed Γ m t w v) : Direct Γ m t w v := by
  cases h with
  | pointer _ h _ => rw [hd] at h; cases h
  | word _ _ h => exact h

theorem special_indirect (L : Γ.Lawful) {t s} (h : Γ.special t = some s) : Γ.direct t = false := by
  rw [direct_core L]
  cases s with
  | number => rw [L.number _ h, L.directPrim]
  | raw => rw [L.raw _ h, L.directSlice]
  | jsonMarshaler => obtain ⟨i, h1, _⟩ := L.jsonMarshaler _ h; rw [h1, L.directIface]
  | textMarshaler => obtain ⟨i, h1, _⟩ := L.textMarshaler _ h; rw [h1, L.directIface]

theorem kindCustom_core {t k} (h : Γ.kindCustom t = some k) : Γ.way t = .kind ∧ Γ.core t = .prim k ∧ Γ.custom (.prim k) = true := by
  unfold Types.kindCustom at h
  split at h
  · next hw hc =>
    split at h
    · next hk => cases h; exact ⟨hw, hc, hk⟩
    · cases h
  · cases h

theorem way_custom {t} (h : Γ.way t = .custom) : Γ.custom t = true := by
  unfold Types.way at h
  cases hc : Γ.custom t with
  | true => rfl
  | false =>
    simp [hc] at h
    cases hs : Γ.special t <;> simp [hs] at h
    split at h
    · cases h
    · split at h <;> cases h

theorem through_core {t e} (h : Through Γ t e) : Γ.core t = .ptr e := by cases h <;> assumption

/-- From the use inside to the use at the root and for elements. -/
theorem Right.of (L : Γ.Lawful) (C : Γ.Closed) (G : Γ.Clear) {q e w o} (hd : ∀ e', e ≠ .direct e')
    (hi : ∀ t a v, Γ.internalEnc t = e → w = some a → Γ.used t → Holds Γ m t a v → Shows Γ q t v o)
    (hn : ∀ t, Γ.internalEnc t = e → w = none → Γ.special t ≠ some .textMarshaler → o = Γ.nilOut q t)
    (hm : ∀ t a b v, Γ.internalEnc (.ptr t) = e → Γ.likeElem t = false → w = some a → m a = some (.ptr (some b)) →
      Holds Γ m t b v → Shows Γ q (.ptr t) (.ref v) o)
    (hu : e = .notSupported → o = .notSupported) : Right Γ m q e w o := by
  refine ⟨hi, hn, hm, fun t a v he hw hut h => ?_, fun t v he hut h => ?_⟩
  · cases hl : Γ.likeElem t with
    | true => exact .value hl (hi t a v (by rw [← elem_like L hl]; exact he) hw hut h)
    | false => rw [elem_not L hl] at he; exact absurd he.symm (hd _)
  · have hp := pick L t
    have indirect : Γ.direct t = false → Γ.internalEnc t = e → Shows Γ q t v o := fun h1 h2 => by
      obtain ⟨a, hw, h3⟩ := boxed_pointer h1 h
      exact hi t a v h2 hw hut h3
    unfold Types.rootEnc at he
    generalize hie : Γ.internalEnc t = e' at hp he
    cases hp with
    | custom hw => cases he; exact indirect (G.custom t hut (way_custom hw)) hie
    | special hw => cases he; exact indirect (special_indirect L (way_special hw).1) hie
    | json _ h1 | text _ h1 => cases he; exact indirect h1 hie
    | jsonDirect | textDirect | jsonPtr | textPtr | map => cases he; exact absurd rfl (hd _)
    | through ht =>
      have hc := through_core ht
      simp only at he
      have h1 := direct_word_core.1 (boxed_word (by rw [direct_core L, hc, L.directPtr]) h)
      rw [hc] at h1
      cases h1 with
      | nilPtr => rw [hn _ he rfl (G.textPtr t _ hut hc)]; exact .nil ht
      | ptr h2 => exact .ref ht (hi _ _ _ he rfl (C.ptr _ _ hut hc) h2)
    | kindCustom hk =>
      cases he
      exact indirect (by rw [direct_core L, (kindCustom_core hk).2.1, L.directPrim]) hie
    | prim _ _ hc => cases he; exact indirect (by rw [direct_core L, hc, L.directPrim]) hie
    | emptyArray _ hc =>
      cases he
      exact indirect (by rw [direct_core L, hc, ← Bool.not_eq_true, L.directArray]; simp) hie
    | array _ hc _ | struct _ hc _ =>
      simp only at he
      split at he
      · exact absurd he.symm (hd _)
      · next h1 => cases he; exact indirect (by simpa using h1) hie
    | eface _ hc | iface _ hc _ => cases he; exact indirect (by rw [direct_core L, hc, L.directIface]) hie
    | base64 _ hc _ | slice _ hc _ => cases he; exact indirect (by rw [direct_core L, hc, L.directSlice]) hie
    | emptyStruct _ hc h1 => cases he; exact indirect (G.emptyStruct t _ hut hc h1) hie
    | notSupported h1 => cases he; rw [hu rfl]; exact .notSupported h1

theorem method_cases (L : Γ.Lawful) {t e} (he : Γ.internalEnc (.ptr t) = e) (hl : Γ.likeElem t = false) :
    (e = .custom (.ptr t) ∧ Γ.way (.ptr t) = .custom) ∨
    (e = .pointerJSONMarshaler (.ptr t) ∧ Γ.way (.ptr t) = .json ∧ Γ.json t = false) ∨
    (e = .pointerTextMarshaler (.ptr t) ∧ Γ.way (.ptr t) = .text ∧ Γ.text t = false) := by
  have hp := pick L (.ptr t)
  have hs := special_ptr L t
  unfold Types.likeElem at hl
  rw [he] at hp
  cases hp with
  | through ht =>
    cases ht with
    | json hw hc hj | text hw hc hj => cases hc; rw [hw] at hl; simp [hj] at hl
    | kind hw hc => rw [hw] at hl; cases hl
  | custom hw => exact .inl ⟨rfl, hw⟩
  | special hw => rw [(way_special hw).1] at hs; cases hs
  | json hw hd | text hw hd => rw [L.directPtr] at hd; cases hd
  | jsonDirect _ _ hc | textDirect _ _ hc => exact absurd rfl (hc t)
  | jsonPtr hw hc hj => cases hc; exact .inr (.inl ⟨rfl, hw, hj⟩)
  | textPtr hw hc hj => cases hc; exact .inr (.inr ⟨rfl, hw, hj⟩)
  | kindCustom hk => simp [Types.kindCustom, Types.core] at hk
  | prim _ _ hc => cases hc
  | emptyArray _ hc | array _ hc _ | eface _ hc | iface _ hc _ | map _ hc | base64 _ hc | slice _ hc | emptyStruct _ hc
  | struct _ hc => cases hc
  | notSupported hu => simp [Types.unsupported, Types.core] at hu

theorem way_not_custom {t} (h : Γ.way t ≠ .custom) : Γ.custom t = false := by
  cases hc : Γ.custom t with
  | false => rfl
  | true => exact absurd (by simp [Types.way, hc]) h

theorem nilOut_null {q t} (h : Γ.way t ≠ .custom) (hk : Γ.kindCustom t = none) (hu : Γ.unsupported t = false) :
    Γ.nilOut q t = .null := by
  simp [Types.nilOut, way_not_custom h, hk, hu]

theorem kindCustom_way {t} (h : Γ.way t ≠ .kind) : Γ.kindCustom t = none := by
  unfold Types.kindCustom
  split
  · next hw _ => exact absurd hw h
  · rfl

theorem unsupported_way {t} (h : Γ.way t ≠ .kind) : Γ.unsupported t = false := by
  simp [Types.unsupported, h]

theorem nilOut_way {q t w} (h : Γ.way t = w) (hc : w ≠ .custom) (hk : w ≠ .kind) : Γ.nilOut q t = .null := by
  subst h
  exact nilOut_null hc (kindCustom_way hk) (unsupported_way hk)

/-- A nil pointer. -/
theorem nilOut_internal (L : Γ.Lawful) {q t e} (he : Γ.internalEnc t = e) (h : e.testsNil = true) : Γ.nilOut q t = .null := by
  have hp := pick L t
  rw [he] at hp
  have kind : Γ.way t = .kind → (∀ k, Γ.core t ≠ .prim k) → Γ.unsupported t = false → Γ.nilOut q t = .null := fun h1 h2 h3 =>
    nilOut_null (by rw [h1]; simp) (by
      cases hk : Γ.kindCustom t with
      | none => rfl
      | some k => exact absurd (kindCustom_core hk).2.1 (h2 k)) h3
  cases hp with
  | custom => cases h
  | special hw => exact nilOut_way hw (by simp) (by simp)
  | json hw _ | jsonDirect hw | jsonPtr hw | text hw _ | textDirect hw | textPtr hw => exact nilOut_way hw (by simp) (by simp)
  | through ht =>
    cases ht with
    | json hw hc hj | text hw hc hj => exact nilOut_way hw (by simp) (by simp)
    | kind hw hc => exact kind hw (by simp [hc]) (by simp [Types.unsupported, hc])
  | kindCustom => cases h
  | prim hw hk hc => exact nilOut_null (by rw [hw]; simp) hk (by simp [Types.unsupported, hc])
  | map hw hc _ hu => exact kind hw (by simp [hc]) hu
  | emptyArray hw hc | array hw hc _ | eface hw hc | iface hw hc _ | base64 hw hc | slice hw hc | emptyStruct hw hc
  | struct hw hc => exact kind hw (by simp [hc]) (by simp [Types.unsupported, hc])
  | notSupported => cases h

theorem CallJSON.right {t w v o} (hi : Γ.isIface t = false) (hj : Γ.json t = true) (h : Boxed Γ m t w v)
    (hc : CallJSON Γ m t w o) : o = .json t v := by
  cases hc with
  | panic h1 => rw [hi, hj] at h1; simp at h1
  | call _ _ h1 => rw [h1.unique h]

theorem CallText.right {t w v o} (hi : Γ.isIface t = false) (hj : Γ.text t = true) (h : Boxed Γ m t w v)
    (hc : CallText Γ m t w o) : o = .text t v := by
  cases hc with
  | panic h1 => rw [hi, hj] at h1; simp at h1
  | call _ _ h1 => rw [h1.unique h]

theorem CallKey.right {t w v o} (hi : Γ.isIface t = false) (hj : Γ.text t = true) (h : Boxed Γ m t w v)
    (hc : CallKey Γ m t w o) : o = .text t v := by
  cases hc with
  | panic h1 => rw [hi, hj] at h1; simp at h1
  | call _ _ h1 => rw [h1.unique h]

theorem way_json {t} (h : Γ.way t = .json) : Γ.json t = true ∧ Γ.special t = none := by
  unfold Types.way at h
  cases hc : Γ.custom t <;> simp [hc] at h
  cases hs : Γ.special t <;> simp [hs] at h
  cases hj : Γ.json t with
  | true => exact ⟨rfl, rfl⟩
  | false => simp [hj] at h; split at h <;> cases h

theorem way_text {t} (h : Γ.way t = .text) : Γ.text t = true ∧ Γ.special t = none ∧ Γ.json t = false := by
  unfold Types.way at h
  cases hc : Γ.custom t <;> simp [hc] at h
  cases hs : Γ.special t <;> simp [hs] at h
  cases hj : Γ.json t with
  | true => simp [hj] at h
  | false =>
    simp [hj] at h
    cases ht : Γ.text t with
    | true => exact ⟨rfl, rfl, rfl⟩
    | false => simp [ht] at h

theorem used_iface (G : Γ.Clear) {t} (hu : Γ.used t) (hw : Γ.way t = .json ∨ Γ.way t = .text) : Γ.isIface t = false := by
  cases hi : Γ.isIface t with
  | false => rfl
  | true =>
    rcases hw with hw | hw
    · have := (G.iface t hu hi (way_json hw).2).1; rw [(way_json hw).1] at this; cases this
    · have := (G.iface t hu hi (way_text hw).2.1).2; rw [(way_text hw).1] at this; cases this

theorem isIface_ptr {t e} (hc : Γ.core t = .ptr e) : Γ.isIface t = false := by simp [Types.isIface, hc]

theorem boxed_of_ptr (L : Γ.Lawful) {t e b v} (hc : Γ.core t = .ptr e) (h : Holds Γ m e b v) : Boxed Γ m t (some b) (.ref v) :=
  .word (isIface_ptr hc) (by rw [direct_core L, hc, L.directPtr]) (direct_word_core.2 (by rw [hc]; exact .ptr h))

theorem boxed_of_holds (L : Γ.Lawful) {t a v w} (hi : Γ.isIface t = false) (hd : Γ.direct t = true) (h : Holds Γ m t a v)
    (hm : m a = some (.ptr w)) : Boxed Γ m t w v := by
  obtain ⟨w', h1, h2⟩ := h.word L hd
  rw [hm] at h1
  cases h1
  exact .word hi hd h2

theorem KeyRun.right (L : Γ.Lawful) {t k a v o} (hi : Γ.text t = true → Γ.isIface t = false)
    (hd : Γ.text t = true → Γ.direct t = true → ∃ p, Γ.core t = .ptr p) (hk : Γ.keyEnc t = some k) (h : Holds Γ m t a v)
    (hr : KeyRun Γ m k a o) : ShowsKey Γ t v o := by
  unfold Types.keyEnc at hk
  split at hk
  · next hc =>
    cases hk
    cases hr with
    | prim h1 =>
      cases h.at_core hc with
      | prim h2 => rw [h1] at h2; cases h2; exact .string hc
  · next hc =>
    split at hk
    · next ht =>
      cases hk
      cases hdt : Γ.direct t with
      | false =>
        simp [hdt] at hr
        cases hr with
        | text hr =>
          rw [hr.right (hi ht) ht (.pointer (hi ht) hdt h)]
          exact .text ht hc (fun e he => by rw [direct_core L, he, L.directPtr] at hdt; cases hdt)
      | true =>
        obtain ⟨p, hp⟩ := hd ht hdt
        simp [hdt] at hr
        have h0 := h.at_core hp
        cases hr with
        | directNil h1 =>
          cases h0 with
          | nilPtr _ => exact .nil ht hp
          | ptr h2 _ => rw [h1] at h2; cases h2
        | direct h1 hr =>
          cases h0 with
          | nilPtr h2 => rw [h1] at h2; cases h2
          | ptr h2 h3 =>
            rw [h1] at h2
            cases h2
            rw [hr.right (hi ht) ht (boxed_of_ptr L hp h3)]
            exact .ref ht hp
    · next ht =>
      split at hk
      · next hc =>
        cases hk
        cases hr with
        | prim h1 =>
          cases h.at_core hc with
          | prim h2 => rw [h1] at h2; cases h2; exact .int (by simpa using ht) hc (.inl rfl)
      · next hc =>
        cases hk
        cases hr with
        | prim h1 =>
          cases h.at_core hc with
          | prim h2 => rw [h1] at h2; cases h2; exact .int (by simpa using ht) hc (.inr rfl)
      · cases hk

end Jzon.Words
