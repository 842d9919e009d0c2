import Verif.Proof.WordsRun

/-! # `IsEmpty` on memory -/

set_option linter.unusedSimpArgs false
set_option linter.unusedVariables false

namespace Jzon.Words

variable {Γ : Types} {m : Memory}

theorem KindEmpty.unique {t a r r'} (h : KindEmpty Γ m t a r) (h' : KindEmpty Γ m t a r') : r = r' := by
  cases h <;> cases h' <;> simp_all

theorem IsEmpty.unique {e a r r'} (hd : ∀ e', e ≠ .direct e') (h : IsEmpty Γ m e a r) (h' : IsEmpty Γ m e a r') : r = r' := by
  cases h with
  | custom h =>
    cases h' with
    | custom h' => rw [h.unique h']
  | direct => exact absurd rfl (hd _)
  | json h =>
    cases h' with
    | json h' => exact h.unique h'
  | directJSON h =>
    cases h' with
    | directJSON h' => exact h.unique h'
  | text h =>
    cases h' with
    | text h' => exact h.unique h'
  | directText h =>
    cases h' with
    | directText h' => exact h.unique h'
  | _ => cases h' <;> simp_all

theorem HoldElems.length {t a n vs} : HoldElems Γ m t a n vs → vs.length = n
  | .nil => rfl
  | .cons _ h => by simp [h.length]

theorem HoldEntries.length {k t es vs} : HoldEntries Γ m k t es vs → vs.length = es.length
  | .nil => rfl
  | .cons _ _ h => by simp [h.length]

theorem HoldElems.isEmpty {t a n vs} (h : HoldElems Γ m t a n vs) : vs.isEmpty = (n == 0) := by
  rw [← h.length]; cases vs <;> rfl

theorem HoldEntries.isEmpty {k t es vs} (h : HoldEntries Γ m k t es vs) : vs.isEmpty = es.isEmpty := by
  have := h.length
  cases vs <;> cases es <;> simp_all

/-- Without encoders of the user. -/
theorem emptyValue_core {t v} (h : Γ.way t ≠ .custom) (hk : Γ.kindCustom t = none) : Γ.emptyValue t v =
    match Γ.core t, v with
    | .prim k, .prim n => Γ.zero k n
    | .struct _, _ => false
    | _, .nil => true
    | _, .list vs => vs.isEmpty
    | _, .map es => es.isEmpty
    | _, _ => false := by
  simp [Types.emptyValue, way_not_custom h, hk]
  rfl

/-- The table of `is_empty.go`. -/
theorem kindEmpty_right (L : Γ.Lawful) {t a v} (hw : Γ.way t = .json ∨ Γ.way t = .text) (hi : Γ.isIface t = false)
    (hp : ∀ e, Γ.core t ≠ .ptr e) (hs : Γ.core t ≠ .prim .string) (hf : Γ.core t ≠ .func) (ha : ∀ e, Γ.core t ≠ .array 0 e)
    (h : Holds Γ m t a v) : KindEmpty Γ m t a (some (Γ.emptyValue t v)) := by
  rw [emptyValue_core (by rcases hw with h | h <;> rw [h] <;> simp)
    (kindCustom_way (by rcases hw with h | h <;> rw [h] <;> simp))]
  cases hc : Γ.core t with
  | prim k =>
    cases h.at_core hc with
    | prim h1 => exact .prim hc (by rintro rfl; exact hs hc) h1
  | ptr e => exact absurd hc (hp e)
  | slice e =>
    cases h.at_core hc with
    | nilSlice h1 => exact .slice (n := 0) hc h1
    | slice h1 h2 => simp only [h2.isEmpty]; exact .slice hc h1
  | array n e =>
    cases h.at_core hc with
    | array h1 =>
      have hn : (n == 0) = false := by
        cases n with
        | zero => exact absurd hc (ha e)
        | succ n => rfl
      simp only [h1.isEmpty, hn]
      exact .array hc
  | map k e =>
    cases h.at_core hc with
    | nilMap h1 => exact .mapNil hc h1
    | map h1 h2 h3 => simp only [h3.isEmpty]; exact .map hc h1 h2
  | struct i => exact .struct hc
  | iface i => simp [Types.isIface, hc] at hi
  | named j => exact absurd hc (core_not_named L t j)
  | func => exact absurd hc hf

theorem Types.OmitOk.like {t} (h : Γ.OmitOk t) : Γ.likeElem t = true := by cases h <;> assumption

/-- `IsEmpty` tells the empty values. -/
theorem isEmpty_right (L : Γ.Lawful) (G : Γ.Clear) {t a v} (hu : Γ.used t) (ho : Γ.OmitOk t) (h : Holds Γ m t a v) :
    IsEmpty Γ m (Γ.elemEnc t) a (some (Γ.emptyValue t v)) := by
  rw [elem_like L ho.like]
  have hp := pick L t
  generalize Γ.internalEnc t = e at hp
  have method : Γ.way t = .json ∨ Γ.way t = .text → (∀ e, Γ.core t ≠ .ptr e) → KindEmpty Γ m t a (some (Γ.emptyValue t v)) := by
    intro hw hp
    cases ho with
    | kind _ hk => rw [hk] at hw; simp at hw
    | method _ _ h1 h2 h3 => exact kindEmpty_right L hw (used_iface G hu hw) hp h1 h2 h3 h
    | other _ h1 => rcases h1 with h1 | ⟨s, h1⟩ <;> rw [h1] at hw <;> simp at hw
  have pointer : ∀ e, Γ.core t = .ptr e → Γ.way t ≠ .custom → ∃ w, m a = some (.ptr w) ∧ w.isNone = Γ.emptyValue t v := by
    intro e hc hw
    rw [emptyValue_core hw (by
      cases hk : Γ.kindCustom t with
      | none => rfl
      | some k => rw [(kindCustom_core hk).2.1] at hc; cases hc), hc]
    cases h.at_core hc with
    | nilPtr h1 => exact ⟨_, h1, rfl⟩
    | ptr h1 _ => exact ⟨_, h1, rfl⟩
  have kind : Γ.way t = .kind → (∀ k, Γ.core t ≠ .prim k) → Γ.way t ≠ .custom ∧ Γ.kindCustom t = none := fun h1 h2 =>
    ⟨by rw [h1]; simp, by
      cases hk : Γ.kindCustom t with
      | none => rfl
      | some k => exact absurd (kindCustom_core hk).2.1 (h2 k)⟩
  cases hp with
  | custom hw =>
    have : Γ.emptyValue t v = Γ.customEmpty t v := by simp [Types.emptyValue, way_custom hw]
    rw [this]
    exact .custom h
  | special hw =>
    next s =>
    rw [emptyValue_core (by rw [hw]; simp) (kindCustom_way (by rw [hw]; simp))]
    have hs := (way_special hw).1
    cases s with
    | number =>
      have hc := L.number _ hs
      cases h.at_core hc with
      | prim h1 => simp only [hc]; exact .number h1
    | raw =>
      have hc := L.raw _ hs
      cases h.at_core hc with
      | nilSlice h1 => simp only [hc]; exact .raw (n := 0) h1
      | slice h1 h2 => simp only [hc, h2.isEmpty]; exact .raw h1
    | jsonMarshaler =>
      obtain ⟨i, hc, hm, _⟩ := L.jsonMarshaler _ hs
      cases h.at_core hc with
      | nilEface h1 | eface h1 => rw [hm] at h1; cases h1
      | nilIface _ h1 => simp only [hc]; exact .dynJSON (x := none) h1
      | iface _ h1 => simp only [hc]; exact .dynJSON (x := some _) h1
    | textMarshaler =>
      obtain ⟨i, hc, hm, _⟩ := L.textMarshaler _ hs
      cases h.at_core hc with
      | nilEface h1 | eface h1 => rw [hm] at h1; cases h1
      | nilIface _ h1 => simp only [hc]; exact .dynText (x := none) h1
      | iface _ h1 => simp only [hc]; exact .dynText (x := some _) h1
  | json hw hd =>
    exact .json (method (.inl hw) (fun e he => by rw [direct_core L, he, L.directPtr] at hd; cases hd))
  | jsonDirect hw _ hc => exact .directJSON (method (.inl hw) hc)
  | jsonPtr hw hc =>
    obtain ⟨w, h1, h2⟩ := pointer _ hc (by rw [hw]; simp)
    rw [← h2]; exact .pointerJSON h1
  | text hw hd =>
    exact .text (method (.inr hw) (fun e he => by rw [direct_core L, he, L.directPtr] at hd; cases hd))
  | textDirect hw _ hc => exact .directText (method (.inr hw) hc)
  | textPtr hw hc =>
    obtain ⟨w, h1, h2⟩ := pointer _ hc (by rw [hw]; simp)
    rw [← h2]; exact .pointerText h1
  | through ht =>
    obtain ⟨w, h1, h2⟩ := pointer _ (through_core ht) (by cases ht with | json hw | text hw | kind hw => rw [hw]; simp)
    rw [← h2]; exact .ptr h1
  | kindCustom hk =>
    next k =>
    obtain ⟨hw, hc, hk'⟩ := kindCustom_core hk
    have : Γ.emptyValue t v = Γ.customEmpty (.prim k) v := by
      simp [Types.emptyValue, way_not_custom (t := t) (by rw [hw]; simp), hk]
    rw [this]
    exact .custom (h.at_core hc)
  | prim hw hk hc =>
    rw [emptyValue_core (by rw [hw]; simp) hk, hc]
    cases h.at_core hc with
    | prim h1 => exact .prim h1
  | emptyArray hw hc =>
    obtain ⟨h1, h2⟩ := kind hw (by simp [hc])
    rw [emptyValue_core h1 h2, hc]
    cases h.at_core hc with
    | array h3 => simp only [h3.isEmpty]; exact .emptyArray
  | array hw hc hn =>
    obtain ⟨h1, h2⟩ := kind hw (by simp [hc])
    rw [emptyValue_core h1 h2, hc]
    cases h.at_core hc with
    | array h3 => simp only [h3.isEmpty, beq_eq_false_iff_ne.2 hn]; exact .array
  | eface hw hc hm =>
    obtain ⟨h1, h2⟩ := kind hw (by simp [hc])
    rw [emptyValue_core h1 h2, hc]
    cases h.at_core hc with
    | nilIface h1 | iface h1 => rw [hm] at h1; cases h1
    | nilEface _ h1 => exact .eface (x := none) h1
    | eface _ h1 => exact .eface (x := some _) h1
  | iface hw hc hm =>
    obtain ⟨h1, h2⟩ := kind hw (by simp [hc])
    rw [emptyValue_core h1 h2, hc]
    cases h.at_core hc with
    | nilEface h1 | eface h1 => rw [hm] at h1; cases h1
    | nilIface _ h1 => exact .iface (x := none) h1
    | iface _ h1 => exact .iface (x := some _) h1
  | map hw hc =>
    obtain ⟨h1, h2⟩ := kind hw (by simp [hc])
    rw [emptyValue_core h1 h2, hc]
    cases h.at_core hc with
    | nilMap h1 => exact .mapNil h1
    | map h1 h2 h3 => simp only [h3.isEmpty]; exact .map h1 h2
  | base64 hw hc =>
    obtain ⟨h1, h2⟩ := kind hw (by simp [hc])
    rw [emptyValue_core h1 h2, hc]
    cases h.at_core hc with
    | nilSlice h1 => exact .base64 (n := 0) h1
    | slice h1 h2 => simp only [h2.isEmpty]; exact .base64 h1
  | slice hw hc =>
    obtain ⟨h1, h2⟩ := kind hw (by simp [hc])
    rw [emptyValue_core h1 h2, hc]
    cases h.at_core hc with
    | nilSlice h1 => exact .slice (n := 0) h1
    | slice h1 h2 => simp only [h2.isEmpty]; exact .slice h1
  | emptyStruct hw hc hd =>
    cases ho with
    | kind _ _ _ h1 => exact absurd hd (h1 _ hc)
    | method _ h1 => rw [hw] at h1; simp at h1
    | other _ h1 => rcases h1 with h1 | ⟨s, h1⟩ <;> rw [h1] at hw <;> simp at hw
  | struct hw hc =>
    obtain ⟨h1, h2⟩ := kind hw (by simp [hc])
    rw [emptyValue_core h1 h2, hc]
    exact .struct
  | notSupported hu' =>
    have hw : Γ.way t = .kind := by simp [Types.unsupported] at hu'; exact hu'.1
    cases ho with
    | kind _ _ h1 => rw [h1] at hu'; cases hu'
    | method _ h1 => rw [hw] at h1; simp at h1
    | other _ h1 => rcases h1 with h1 | ⟨s, h1⟩ <;> rw [h1] at hw <;> simp at hw

/-- And nothing else. -/
theorem isEmpty_iff (L : Γ.Lawful) (G : Γ.Clear) {t a v r} (hu : Γ.used t) (ho : Γ.OmitOk t) (h : Holds Γ m t a v) :
    IsEmpty Γ m (Γ.elemEnc t) a r ↔ r = some (Γ.emptyValue t v) := by
  refine ⟨fun hr => ?_, fun hr => by rw [hr]; exact isEmpty_right L G hu ho h⟩
  refine hr.unique (fun e' => ?_) (isEmpty_right L G hu ho h)
  rw [elem_like L ho.like]
  exact internal_not_direct L _ _

/-! ## Where it goes wrong -/

/-- The method of the pointer type decides: its encoder gets a pointer to the variable, which is never nil. -/
theorem isEmpty_pointer (L : Γ.Lawful) {t a r} (hf : ∃ b, m b = none) (hl : Γ.likeElem t = false) (hc : Γ.custom (.ptr t) = false) :
    IsEmpty Γ m (Γ.elemEnc t) a r ↔ r = some false := by
  rw [elem_not L hl]
  have hp := pick L (.ptr t)
  have hs := special_ptr L t
  have hl' := hl
  unfold Types.likeElem at hl'
  have key : ∀ e, (∀ m' b r, m' b = some (.ptr (some a)) → (IsEmpty Γ m' e b r ↔ r = some false)) →
      (IsEmpty Γ m (.direct e) a r ↔ r = some false) := by
    intro e he
    constructor
    · intro h
      cases h with
      | direct _ h => exact (he _ _ _ (by simp [Memory.add])).mp h
    · intro h
      obtain ⟨b, hb⟩ := hf
      exact .direct hb ((he _ b _ (by simp [Memory.add])).mpr h)
  generalize Γ.internalEnc (.ptr t) = e at hp
  refine key e fun m' b r hb => ?_
  cases hp with
  | through ht =>
    cases ht with
    | json hw hc hj | text hw hc hj => cases hc; rw [hw] at hl'; simp [hj] at hl'
    | kind hw hc => rw [hw] at hl'; cases hl'
  | custom hw => rw [way_custom hw] at hc; cases hc
  | special hw => rw [(way_special hw).1] at hs; cases hs
  | json hw hd | text hw hd => rw [L.directPtr] at hd; cases hd
  | jsonDirect _ _ hc | textDirect _ _ hc => exact absurd rfl (hc t)
  | jsonPtr hw hc hj =>
    exact ⟨fun h => by cases h with | pointerJSON h => rw [hb] at h; cases h; rfl, fun h => h ▸ .pointerJSON (w := some a) hb⟩
  | textPtr hw hc hj =>
    exact ⟨fun h => by cases h with | pointerText h => rw [hb] at h; cases h; rfl, fun h => h ▸ .pointerText (w := some a) hb⟩
  | kindCustom hk => simp [Types.kindCustom, Types.core] at hk
  | prim _ _ hc => cases hc
  | emptyArray _ hc | array _ hc _ | eface _ hc | iface _ hc _ | map _ hc | base64 _ hc | slice _ hc | emptyStruct _ hc
  | struct _ hc => cases hc
  | notSupported hu => simp [Types.unsupported, Types.core] at hu

/-- A method, and a kind that the table of `is_empty.go` has no function for. -/
theorem isEmpty_panic (L : Γ.Lawful) {t a r} (hl : Γ.likeElem t = true) (hw : Γ.way t = .json ∨ Γ.way t = .text)
    (hc : Γ.core t = .prim .string ∨ Γ.core t = .func) : IsEmpty Γ m (Γ.elemEnc t) a r ↔ r = none := by
  rw [elem_like L hl]
  have hp := pick L t
  generalize Γ.internalEnc t = e at hp
  have hk : KindEmpty Γ m t a none := by rcases hc with hc | hc; exact .string hc; exact .func hc
  have np : ∀ p, Γ.core t ≠ .ptr p := by rcases hc with hc | hc <;> simp [hc]
  cases hp with
  | json => exact ⟨fun h => by cases h with | json h => exact h.unique hk, fun h => h ▸ .json hk⟩
  | jsonDirect => exact ⟨fun h => by cases h with | directJSON h => exact h.unique hk, fun h => h ▸ .directJSON hk⟩
  | text => exact ⟨fun h => by cases h with | text h => exact h.unique hk, fun h => h ▸ .text hk⟩
  | textDirect => exact ⟨fun h => by cases h with | directText h => exact h.unique hk, fun h => h ▸ .directText hk⟩
  | jsonPtr _ hc _ | textPtr _ hc _ => exact absurd hc (np _)
  | through ht => exact absurd (through_core ht) (np _)
  | kindCustom hk => rw [(kindCustom_core hk).1] at hw; simp at hw
  | notSupported hu => simp [Types.unsupported] at hu; rw [hu.1] at hw; simp at hw
  | custom h | special h | prim h | emptyArray h | array h | eface h | iface h | map h | base64 h | slice h | emptyStruct h
  | struct h => rw [h] at hw; simp at hw

/-- An array of length 0 with a method. -/
theorem isEmpty_array (L : Γ.Lawful) {t e a r} (hl : Γ.likeElem t = true) (hw : Γ.way t = .json ∨ Γ.way t = .text)
    (hc : Γ.core t = .array 0 e) : IsEmpty Γ m (Γ.elemEnc t) a r ↔ r = some false := by
  rw [elem_like L hl]
  have hp := pick L t
  generalize Γ.internalEnc t = e at hp
  have hk : KindEmpty Γ m t a (some false) := .array hc
  have np : ∀ p, Γ.core t ≠ .ptr p := by simp [hc]
  cases hp with
  | json => exact ⟨fun h => by cases h with | json h => exact h.unique hk, fun h => h ▸ .json hk⟩
  | jsonDirect => exact ⟨fun h => by cases h with | directJSON h => exact h.unique hk, fun h => h ▸ .directJSON hk⟩
  | text => exact ⟨fun h => by cases h with | text h => exact h.unique hk, fun h => h ▸ .text hk⟩
  | textDirect => exact ⟨fun h => by cases h with | directText h => exact h.unique hk, fun h => h ▸ .directText hk⟩
  | jsonPtr _ hc _ | textPtr _ hc _ => exact absurd hc (np _)
  | through ht => exact absurd (through_core ht) (np _)
  | kindCustom hk => rw [(kindCustom_core hk).1] at hw; simp at hw
  | notSupported hu => simp [Types.unsupported] at hu; rw [hu.1] at hw; simp at hw
  | custom h | special h | prim h | emptyArray h | array h | eface h | iface h | map h | base64 h | slice h | emptyStruct h
  | struct h => rw [h] at hw; simp at hw

/-- A struct without fields to be written. -/
theorem isEmpty_struct (L : Γ.Lawful) {t i a r} (hl : Γ.likeElem t = true) (hw : Γ.way t = .kind)
    (hc : Γ.core t = .struct i) (hd : Γ.described t = []) : IsEmpty Γ m (Γ.elemEnc t) a r ↔ r = some true := by
  rw [elem_like L hl]
  have hp := pick L t
  generalize Γ.internalEnc t = e at hp
  cases hp with
  | emptyStruct => exact ⟨fun h => by cases h; rfl, fun h => h ▸ .emptyStruct⟩
  | struct _ _ h => exact absurd hd h
  | through ht => rw [through_core ht] at hc; cases hc
  | kindCustom hk => rw [(kindCustom_core hk).2.1] at hc; cases hc
  | notSupported hu => simp [Types.unsupported, hc] at hu
  | custom h | special h | json h | jsonDirect h | jsonPtr h | text h | textDirect h | textPtr h => rw [h] at hw; cases hw
  | prim _ _ h => rw [h] at hc; cases hc
  | emptyArray _ h | array _ h | eface _ h | iface _ h | map _ h | base64 _ h | slice _ h => rw [h] at hc; cases hc

end Jzon.Words
