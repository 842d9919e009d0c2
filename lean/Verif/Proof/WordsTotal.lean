import Verif.Proof.WordsRight

/-! # The encoders on memory come to an end without a bad read -/

set_option linter.unusedSimpArgs false
set_option linter.unusedVariables false

namespace Jzon.Words

variable {Γ : Types} {m m' : Memory}

theorem Memory.Finite.fresh (h : m.Finite) : ∃ a, m a = none := by
  obtain ⟨n, hn⟩ := h
  exact ⟨n, hn n (Nat.le_refl n)⟩

theorem run_nil (L : Γ.Lawful) (q : Bool) (t : RTy) : ∃ o, Run Γ m q (Γ.internalEnc t) none o := by
  have hp := pick L t
  generalize Γ.internalEnc t = e at hp
  cases hp with
  | custom => exact ⟨_, .customNil⟩
  | kindCustom => exact ⟨_, .customNil⟩
  | notSupported => exact ⟨_, .notSupported⟩
  | special =>
    next s _ =>
    cases s with
    | textMarshaler => exact ⟨_, .dynTextPanic⟩
    | _ => exact ⟨_, .null rfl⟩
  | _ => exact ⟨_, .null rfl⟩

/-- A variable can be written, as a value and as an element. -/
structure Able (Γ : Types) (m : Memory) (t : RTy) (a : Addr) : Prop where
  internal : ∀ q, ∃ o, Run Γ m q (Γ.internalEnc t) (some a) o
  elem : ∀ q, ∃ o, Run Γ m q (Γ.elemEnc t) (some a) o

theorem able_elem (L : Γ.Lawful) {t a v} (hf : m.Finite) (h : Holds Γ m t a v)
    (hi : ∀ q, ∃ o, Run Γ m q (Γ.internalEnc t) (some a) o) : Able Γ m t a := by
  refine ⟨hi, fun q => ?_⟩
  cases hl : Γ.likeElem t with
  | true => rw [elem_like L hl]; exact hi q
  | false =>
    rw [elem_not L hl]
    obtain ⟨b, hb⟩ := hf.fresh
    have h1 := h.mono (Memory.le_add (.ptr (some a)) hb)
    have h2 := Memory.add_self m b (.ptr (some a))
    have hr : ∃ o, Run Γ (m.add b (.ptr (some a))) q (Γ.internalEnc (.ptr t)) (some b) o := by
      rcases method_cases L rfl hl with ⟨h3, h4⟩ | ⟨h3, h4, h5⟩ | ⟨h3, h4, h5⟩
      · rw [h3]; exact ⟨_, .custom (.ptr h2 h1)⟩
      · rw [h3]; exact ⟨_, .pointerJSON h2 (.call (isIface_ptr rfl) (way_json h4).1 (boxed_of_ptr L rfl h1))⟩
      · rw [h3]; exact ⟨_, .pointerText h2 (.call (isIface_ptr rfl) (way_text h4).1 (boxed_of_ptr L rfl h1))⟩
    obtain ⟨o, ho⟩ := hr
    exact ⟨o, .direct hb ho⟩

/-- An interface value can be written if variables can. -/
theorem root_able (L : Γ.Lawful) (C : Γ.Closed) (G : Γ.Clear) {t w v} (hf : m.Finite) (hu : Γ.used t) (h : Boxed Γ m t w v)
    (ha : ∀ (m : Memory) t a v', sizeOf v' ≤ sizeOf v → m.Finite → Γ.used t → Holds Γ m t a v' → Able Γ m t a) :
    ∀ q, ∃ o, Run Γ m q (Γ.rootEnc t) w o := by
  intro q
  have direct : ∀ e, Γ.rootEnc t = .direct e → ∃ o, Run Γ m q (Γ.rootEnc t) w o := fun e he => by
    obtain ⟨rfl, hd⟩ := root_direct L he
    obtain ⟨b, hb⟩ := hf.fresh
    have h1 := ((boxed_word hd h).mono (Memory.le_add (.ptr w) hb)).holds (Memory.add_self _ _ _)
    obtain ⟨o, ho⟩ := (ha _ t b v (Nat.le_refl _) hf.add hu h1).internal q
    rw [he]
    exact ⟨o, .direct hb ho⟩
  have indirect : Γ.direct t = false → Γ.rootEnc t = Γ.internalEnc t → ∃ o, Run Γ m q (Γ.rootEnc t) w o := fun h1 h2 => by
    obtain ⟨a, rfl, h3⟩ := boxed_pointer h1 h
    rw [h2]
    exact (ha m t a v (Nat.le_refl _) hf hu h3).internal q
  have hp := pick L t
  have hr : Γ.rootEnc t = Γ.rootEnc t := rfl
  conv at hr => rhs; unfold Types.rootEnc
  generalize hie : Γ.internalEnc t = e' at hp hr indirect
  cases hp with
  | custom hw => exact indirect (G.custom t hu (way_custom hw)) hr
  | special hw => exact indirect (special_indirect L (way_special hw).1) hr
  | json _ h1 | text _ h1 => exact indirect h1 hr
  | jsonDirect | textDirect | jsonPtr | textPtr | map => exact direct _ hr
  | through ht =>
    have hc := through_core ht
    simp only at hr
    have h1 := direct_word_core.1 (boxed_word (by rw [direct_core L, hc, L.directPtr]) h)
    rw [hc] at h1
    rw [hr]
    cases h1 with
    | nilPtr => exact run_nil L _ _
    | ptr h2 => exact (ha m _ _ _ (by simp) hf (C.ptr _ _ hu hc) h2).internal q
  | kindCustom hk => exact indirect (by rw [direct_core L, (kindCustom_core hk).2.1, L.directPrim]) hr
  | prim _ _ hc => exact indirect (by rw [direct_core L, hc, L.directPrim]) hr
  | emptyArray _ hc => exact indirect (by rw [direct_core L, hc, ← Bool.not_eq_true, L.directArray]; simp) hr
  | array _ hc _ | struct _ hc _ =>
    simp only at hr
    split at hr
    · exact direct _ hr
    · next h1 => exact indirect (by simpa using h1) hr
  | eface _ hc | iface _ hc _ => exact indirect (by rw [direct_core L, hc, L.directIface]) hr
  | base64 _ hc _ | slice _ hc _ => exact indirect (by rw [direct_core L, hc, L.directSlice]) hr
  | emptyStruct _ hc h1 => exact indirect (G.emptyStruct t _ hu hc h1) hr
  | notSupported h1 => exact hr ▸ ⟨_, .notSupported⟩

theorem elems_able {t a n vs} (hf : m.Finite) (hu : Γ.used t) (h : HoldElems Γ m t a n vs)
    (ha : ∀ a v, v ∈ vs → Holds Γ m t a v → Able Γ m t a) : ∃ os, RunElems Γ m (Γ.elemEnc t) (Γ.size t) a n os := by
  induction n generalizing a vs with
  | zero => exact ⟨[], .nil⟩
  | succ n ih =>
    cases h with
    | cons h1 h2 =>
      obtain ⟨o, ho⟩ := (ha _ _ (List.mem_cons_self ..) h1).elem false
      obtain ⟨os, hos⟩ := ih h2 (fun a v hv => ha a v (List.mem_cons_of_mem _ hv))
      exact ⟨o :: os, .cons ho hos⟩

theorem key_able (L : Γ.Lawful) {t k a v} (hi : Γ.text t = true → Γ.isIface t = false)
    (hd : Γ.text t = true → Γ.direct t = true → ∃ p, Γ.core t = .ptr p) (hk : Γ.keyEnc t = some k) (h : Holds Γ m t a v) :
    ∃ o, KeyRun Γ m k a o := by
  unfold Types.keyEnc at hk
  split at hk
  · next hc =>
    cases hk
    cases h.at_core hc with
    | prim h2 => exact ⟨_, .prim h2⟩
  · next hc =>
    split at hk
    · next ht =>
      cases hk
      cases hdt : Γ.direct t with
      | false => exact ⟨_, .text (.call (hi ht) ht (.pointer (hi ht) hdt h))⟩
      | true =>
        obtain ⟨p, hp⟩ := hd ht hdt
        cases h.at_core hp with
        | nilPtr h1 => exact ⟨_, .directNil h1⟩
        | ptr h1 h2 => exact ⟨_, .direct h1 (.call (hi ht) ht (boxed_of_ptr L hp h2))⟩
    · next ht =>
      split at hk
      · next hc =>
        cases hk
        cases h.at_core hc with
        | prim h2 => exact ⟨_, .prim h2⟩
      · next hc =>
        cases hk
        cases h.at_core hc with
        | prim h2 => exact ⟨_, .prim h2⟩
      · cases hk

theorem entries_able {kt t k es vs} (h : HoldEntries Γ m kt t es vs)
    (hk : ∀ a v, Holds Γ m kt a v → ∃ o, KeyRun Γ m k a o)
    (ha : ∀ a x v, (x, v) ∈ vs → Holds Γ m t a v → Able Γ m t a) : ∃ os, RunEntries Γ m k (Γ.internalEnc t) es os := by
  induction es generalizing vs with
  | nil => exact ⟨[], .nil⟩
  | cons e es ih =>
    cases h with
    | cons h0 h1 h2 =>
      obtain ⟨ko, hko⟩ := hk _ _ h0
      obtain ⟨o, ho⟩ := (ha _ _ _ (List.mem_cons_self ..) h1).internal false
      obtain ⟨os, hos⟩ := ih h2 (fun a x v hv => ha a x v (List.mem_cons_of_mem _ hv))
      exact ⟨_, .cons hko ho hos⟩

theorem Follows.smaller {path v r} (h : Follows path v r) : ∀ x, r = some x → sizeOf x < sizeOf v := by
  induction h with
  | field h =>
    intro x hx
    cases hx
    have := List.sizeOf_lt_of_mem (List.mem_of_getElem? h)
    simp; omega
  | embedded _ h _ ih =>
    intro x hx
    have := List.sizeOf_lt_of_mem (List.mem_of_getElem? h)
    have := ih x hx
    simp at *; omega
  | pointer _ h _ ih =>
    intro x hx
    have := List.sizeOf_lt_of_mem (List.mem_of_getElem? h)
    have := ih x hx
    simp at *; omega
  | null => intro x hx; cases hx

theorem fields_able (L : Γ.Lawful) (C : Γ.Closed) (G : Γ.Clear) {t i a v ds} (hu : Γ.used t) (hc : Γ.core t = .struct i)
    (hd : ∀ d ∈ ds, d ∈ Γ.described t) (h : Holds Γ m t a v)
    (ha : ∀ f b x, sizeOf x < sizeOf v → Γ.used f → Holds Γ m f b x → Able Γ m f b) : ∃ os, RunFields Γ m t a ds os := by
  induction ds with
  | nil => exact ⟨[], .nil⟩
  | cons d ds ih =>
    obtain ⟨os, hos⟩ := ih (fun d h => hd d (List.mem_cons_of_mem _ h))
    obtain ⟨f, hl, hf⟩ := C.struct t i d hu hc (hd d (List.mem_cons_self ..))
    obtain ⟨o, offs, h3, h4⟩ := locate_follows hl
    rcases h4 h with ⟨h5, h6⟩ | ⟨b, x, h5, h6, h7⟩
    · exact ⟨os, .skip h3 h5 hos⟩
    · obtain ⟨y, hy⟩ := (ha f b x (h6.smaller x rfl) hf h7).elem d.quoted
      cases ho : d.omitEmpty with
      | false => exact ⟨_, .field h3 h5 (fun h => by rw [ho] at h; cases h) hy hos⟩
      | true =>
        have h8 := isEmpty_right L G hf (G.omits t i d f hu hc (hd d (List.mem_cons_self ..)) ho hl) h7
        cases he : Γ.emptyValue f x with
        | true => exact ⟨os, .omitted h3 h5 ho (by rw [← he]; exact h8) hos⟩
        | false => exact ⟨_, .field h3 h5 (fun _ => by rw [← he]; exact h8) hy hos⟩

/-- Every variable can be written. -/
theorem able (L : Γ.Lawful) (C : Γ.Closed) (G : Γ.Clear) (n : Nat) : ∀ (m : Memory) t a v, sizeOf v ≤ n → m.Finite → Γ.used t →
    Holds Γ m t a v → Able Γ m t a := by
  induction n with
  | zero => intro m t a v hn; cases v <;> simp at hn
  | succ n ih =>
    intro m t a v hn hf hu h
    refine able_elem L hf h fun q => ?_
    have hp := pick L t
    generalize Γ.internalEnc t = e at hp
    cases hp with
    | custom => exact ⟨_, .custom h⟩
    | special hw =>
      next s =>
      have hs := (way_special hw).1
      cases s with
      | number =>
        cases h.at_core (L.number _ hs) with
        | prim h2 => exact ⟨_, .number h2⟩
      | raw =>
        cases h.at_core (L.raw _ hs) with
        | nilSlice h2 => exact ⟨_, .rawNil h2⟩
        | slice h2 h3 =>
          obtain ⟨ns, _, h4⟩ := h3.bytes L rfl
          exact ⟨_, .raw h2 h4⟩
      | jsonMarshaler =>
        obtain ⟨i, hc, hm, hj⟩ := L.jsonMarshaler _ hs
        cases h.at_core hc with
        | nilEface h1 | eface h1 => rw [hm] at h1; cases h1
        | nilIface _ h2 => exact ⟨_, .dynJSONNil h2⟩
        | iface _ h2 _ h3 h4 => exact ⟨_, .dynJSON h2 (.call (by cases h4 <;> assumption) (hj _ h3) h4)⟩
      | textMarshaler =>
        obtain ⟨i, hc, hm, hj⟩ := L.textMarshaler _ hs
        cases h.at_core hc with
        | nilEface h1 | eface h1 => rw [hm] at h1; cases h1
        | nilIface _ h2 => exact ⟨_, .dynTextNil h2⟩
        | iface _ h2 _ h3 h4 => exact ⟨_, .dynText h2 (.call (by cases h4 <;> assumption) (hj _ h3) h4)⟩
    | json hw hd =>
      have hi := used_iface G hu (.inl hw)
      exact ⟨_, .jsonMarshaler (.call hi (way_json hw).1 (.pointer hi hd h))⟩
    | jsonDirect hw hd hc =>
      have hi := used_iface G hu (.inl hw)
      obtain ⟨w, h1, h2⟩ := h.word L hd
      exact ⟨_, .directJSONMarshaler h1 (.call hi (way_json hw).1 (.word hi hd h2))⟩
    | jsonPtr hw hc hj =>
      cases h.at_core hc with
      | nilPtr h2 => exact ⟨_, .pointerJSONNil h2⟩
      | ptr h2 h3 => exact ⟨_, .pointerJSON h2 (.call (isIface_ptr hc) (way_json hw).1 (boxed_of_ptr L hc h3))⟩
    | text hw hd =>
      have hi := used_iface G hu (.inr hw)
      exact ⟨_, .textMarshaler (.call hi (way_text hw).1 (.pointer hi hd h))⟩
    | textDirect hw hd hc =>
      have hi := used_iface G hu (.inr hw)
      obtain ⟨w, h1, h2⟩ := h.word L hd
      exact ⟨_, .directTextMarshaler h1 (.call hi (way_text hw).1 (.word hi hd h2))⟩
    | textPtr hw hc hj =>
      cases h.at_core hc with
      | nilPtr h2 => exact ⟨_, .pointerTextNil h2⟩
      | ptr h2 h3 => exact ⟨_, .pointerText h2 (.call (isIface_ptr hc) (way_text hw).1 (boxed_of_ptr L hc h3))⟩
    | through ht =>
      have hc := through_core ht
      cases h.at_core hc with
      | nilPtr h2 => obtain ⟨o, ho⟩ := run_nil (m := m) L q _; exact ⟨o, .ptr h2 ho⟩
      | ptr h2 h3 =>
        obtain ⟨o, ho⟩ := (ih m _ _ _ (by simp at hn; omega) hf (C.ptr _ _ hu hc) h3).internal q
        exact ⟨o, .ptr h2 ho⟩
    | kindCustom hk => exact ⟨_, .custom (h.at_core (kindCustom_core hk).2.1)⟩
    | prim _ _ hc =>
      cases h.at_core hc with
      | prim h2 => exact ⟨_, .prim h2⟩
    | emptyArray => exact ⟨_, .emptyArray⟩
    | array _ hc _ =>
      cases h.at_core hc with
      | array h2 =>
        have hu' := C.array _ _ _ hu hc
        obtain ⟨os, hos⟩ := elems_able hf hu' h2 (fun b x hx hb => ih m _ b x (by
          have := List.sizeOf_lt_of_mem hx
          simp at hn; omega) hf hu' hb)
        exact ⟨_, .array hos⟩
    | eface _ hc hm =>
      cases h.at_core hc with
      | nilEface _ h2 => exact ⟨_, .efaceNil h2⟩
      | eface _ h2 h3 h4 =>
        obtain ⟨o, ho⟩ := root_able L C G hf h3 h4 (fun m t a v' hv => ih m t a v' (by simp at hn; omega)) q
        exact ⟨o, .eface h2 ho⟩
      | nilIface h1 | iface h1 => rw [hm] at h1; cases h1
    | iface _ hc hm =>
      cases h.at_core hc with
      | nilIface _ h2 => exact ⟨_, .ifaceNil h2⟩
      | iface _ h2 h3 _ h4 =>
        obtain ⟨o, ho⟩ := root_able L C G hf h3 h4 (fun m t a v' hv => ih m t a v' (by simp at hn; omega)) q
        exact ⟨o, .iface h2 ho⟩
      | nilEface h1 | eface h1 => rw [hm] at h1; cases h1
    | map _ hc hk _ =>
      cases h.at_core hc with
      | nilMap h2 => exact ⟨_, .mapNil h2⟩
      | map h2 h3 h4 =>
        have hu' := C.map _ _ _ hu hc
        obtain ⟨os, hos⟩ := entries_able h4
          (fun b x hb => key_able L (G.keyIface _ _ _ hu hc) (G.keyDirect _ _ _ hu hc) hk hb)
          (fun b x y hy hb => ih m _ b y (by
            have := List.sizeOf_lt_of_mem hy
            simp at hn this; omega) hf hu' hb)
        exact ⟨_, .map h2 h3 hos⟩
    | base64 _ hc hb =>
      cases h.at_core hc with
      | nilSlice h2 => exact ⟨_, .base64Nil h2⟩
      | slice h2 h3 =>
        obtain ⟨ns, _, h4⟩ := h3.bytes L (by simp [Types.byteLike] at hb; exact hb.1.1.1)
        exact ⟨_, .base64 h2 h4⟩
    | slice _ hc _ =>
      cases h.at_core hc with
      | nilSlice h2 => exact ⟨_, .sliceNil h2⟩
      | slice h2 h3 =>
        have hu' := C.slice _ _ hu hc
        obtain ⟨os, hos⟩ := elems_able hf hu' h3 (fun b x hx hb => ih m _ b x (by
          have := List.sizeOf_lt_of_mem hx
          simp at hn; omega) hf hu' hb)
        exact ⟨_, .slice h2 hos⟩
    | emptyStruct => exact ⟨_, .emptyStruct⟩
    | struct _ hc _ =>
      obtain ⟨os, hos⟩ := fields_able L C G hu hc (fun _ h => h) h (fun f b x hx hfu hb => ih m f b x (by omega) hf hfu hb)
      exact ⟨_, .struct hos⟩
    | notSupported => exact ⟨_, .notSupported⟩

end Jzon.Words
