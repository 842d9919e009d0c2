import Verif.Proof.WordsEmpty

/-! # The encoders on memory write what is to be written -/

set_option linter.unusedSimpArgs false
set_option linter.unusedVariables false

namespace Jzon.Words

variable {Γ : Types} {m m' : Memory}

local macro "nonil" : term => `(fun _ _ h => by cases h)
local macro "nomethod" L:term : term =>
  `(fun _ _ _ _ he hl _ _ _ => by rcases method_cases $L he hl with ⟨h, _⟩ | ⟨h, _⟩ | ⟨h, _⟩ <;> cases h)

mutual
theorem Run.right (L : Γ.Lawful) (C : Γ.Closed) (G : Γ.Clear) {m q e w o} : Run Γ m q e w o → Right Γ m q e w o
  | .null hn =>
    Right.of L C G (fun e' h => by subst h; cases hn) (fun _ _ _ _ h => by cases h)
      (fun t he _ _ => (nilOut_internal L he hn).symm) (fun _ _ _ _ _ _ h => by cases h) (fun h => by subst h; cases hn)
  | .custom h =>
    Right.of L C G nofun (fun t a v he hw hu h' => by
        cases hw
        have hp := pick L t
        rw [he] at hp
        cases hp with
        | custom hw => rw [h.unique h']; exact .custom hw
        | kindCustom hk => rw [h.unique (h'.at_core (kindCustom_core hk).2.1)]; exact .kindCustom hk)
      nonil (fun t a b v he hl hw hm h' => by
        cases hw
        rcases method_cases L he hl with ⟨h1, h2⟩ | ⟨h1, _⟩ | ⟨h1, _⟩
        · cases h1; rw [h.unique (.ptr hm h')]; exact .custom h2
        · cases h1
        · cases h1) nofun
  | .customNil =>
    Right.of L C G nofun (fun _ _ _ _ h => by cases h) (fun t he _ _ => by
        have hp := pick L t
        rw [he] at hp
        cases hp with
        | custom hw => simp [Types.nilOut, way_custom hw]
        | kindCustom hk =>
          simp [Types.nilOut, way_not_custom (t := t) (by rw [(kindCustom_core hk).1]; simp), hk])
      (fun _ _ _ _ _ _ h => by cases h) nofun
  | .number h =>
    Right.of L C G nofun (fun t a v he hw hu h' => by
        cases hw
        have hp := pick L t
        rw [he] at hp
        cases hp with
        | special hw =>
          cases h'.at_core (L.number _ (way_special hw).1) with
          | prim h2 => rw [h] at h2; cases h2; exact .number hw)
      nonil (nomethod L) nofun
  | .rawNil h =>
    Right.of L C G nofun (fun t a v he hw hu h' => by
        cases hw
        have hp := pick L t
        rw [he] at hp
        cases hp with
        | special hw =>
          cases h'.at_core (L.raw _ (way_special hw).1) with
          | nilSlice _ => exact .rawNil hw
          | slice h2 _ => rw [h] at h2; cases h2)
      nonil (nomethod L) nofun
  | .raw h hb =>
    Right.of L C G nofun (fun t a v he hw hu h' => by
        cases hw
        have hp := pick L t
        rw [he] at hp
        cases hp with
        | special hw =>
          cases h'.at_core (L.raw _ (way_special hw).1) with
          | nilSlice h2 => rw [h] at h2; cases h2
          | slice h2 h3 =>
            rw [h] at h2
            cases h2
            obtain ⟨ns, rfl, h4⟩ := h3.bytes L rfl
            rw [hb.unique h4]
            exact .raw hw)
      nonil (nomethod L) nofun
  | .dynJSONNil h =>
    Right.of L C G nofun (fun t a v he hw hu h' => by
        cases hw
        have hp := pick L t
        rw [he] at hp
        cases hp with
        | special hw =>
          obtain ⟨i, hc, hm, hj⟩ := L.jsonMarshaler _ (way_special hw).1
          cases h'.at_core hc with
          | nilEface _ _ | nilIface _ _ => exact .jsonIfaceNil hw
          | eface _ h2 | iface _ h2 => rw [h] at h2; cases h2)
      nonil (nomethod L) nofun
  | .dynJSON h hr =>
    Right.of L C G nofun (fun t a v he hw hu h' => by
        cases hw
        have hp := pick L t
        rw [he] at hp
        cases hp with
        | special hw =>
          obtain ⟨i, hc, hm, hj⟩ := L.jsonMarshaler _ (way_special hw).1
          cases h'.at_core hc with
          | nilEface h1 | eface h1 => rw [hm] at h1; cases h1
          | nilIface _ h2 => rw [h] at h2; cases h2
          | iface _ h2 _ h3 h4 =>
            rw [h] at h2
            cases h2
            rw [hr.right (by cases h4 <;> assumption) (hj _ h3) h4]
            exact .jsonIface hw)
      nonil (nomethod L) nofun
  | .dynTextPanic =>
    Right.of L C G nofun (fun _ _ _ _ h => by cases h) (fun t he _ hs => by
        have hp := pick L t
        rw [he] at hp
        cases hp with
        | special hw => exact absurd (way_special hw).1 hs)
      (fun _ _ _ _ _ _ h => by cases h) nofun
  | .dynTextNil h =>
    Right.of L C G nofun (fun t a v he hw hu h' => by
        cases hw
        have hp := pick L t
        rw [he] at hp
        cases hp with
        | special hw =>
          obtain ⟨i, hc, hm, hj⟩ := L.textMarshaler _ (way_special hw).1
          cases h'.at_core hc with
          | nilEface _ _ | nilIface _ _ => exact .textIfaceNil hw
          | eface _ h2 | iface _ h2 => rw [h] at h2; cases h2)
      nonil (nomethod L) nofun
  | .dynText h hr =>
    Right.of L C G nofun (fun t a v he hw hu h' => by
        cases hw
        have hp := pick L t
        rw [he] at hp
        cases hp with
        | special hw =>
          obtain ⟨i, hc, hm, hj⟩ := L.textMarshaler _ (way_special hw).1
          cases h'.at_core hc with
          | nilEface h1 | eface h1 => rw [hm] at h1; cases h1
          | nilIface _ h2 => rw [h] at h2; cases h2
          | iface _ h2 _ h3 h4 =>
            rw [h] at h2
            cases h2
            rw [hr.right (by cases h4 <;> assumption) (hj _ h3) h4]
            exact .textIface hw)
      nonil (nomethod L) nofun
  | .jsonMarshaler hr =>
    Right.of L C G nofun (fun t a v he hw hu h' => by
        cases hw
        have hp := pick L t
        rw [he] at hp
        cases hp with
        | json hw hd =>
          have hi := used_iface G hu (.inl hw)
          rw [hr.right hi (way_json hw).1 (.pointer hi hd h')]
          exact .json hw (fun e hc => by rw [direct_core L, hc, L.directPtr] at hd; cases hd))
      nonil (nomethod L) nofun
  | .directJSONMarshaler h hr =>
    Right.of L C G nofun (fun t a v he hw hu h' => by
        cases hw
        have hp := pick L t
        rw [he] at hp
        cases hp with
        | jsonDirect hw hd hc =>
          have hi := used_iface G hu (.inl hw)
          rw [hr.right hi (way_json hw).1 (boxed_of_holds L hi hd h' h)]
          exact .json hw hc)
      nonil (nomethod L) nofun
  | .pointerJSONNil h =>
    Right.of L C G nofun (fun t a v he hw hu h' => by
        cases hw
        have hp := pick L t
        rw [he] at hp
        cases hp with
        | jsonPtr hw hc hj =>
          cases h'.at_core hc with
          | nilPtr _ => exact .jsonNil hw hc hj
          | ptr h2 _ => rw [h] at h2; cases h2)
      nonil (fun t a b v he hl hw hm h' => by cases hw; rw [h] at hm; cases hm) nofun
  | .pointerJSON h hr =>
    Right.of L C G nofun (fun t a v he hw hu h' => by
        cases hw
        have hp := pick L t
        rw [he] at hp
        cases hp with
        | jsonPtr hw hc hj =>
          cases h'.at_core hc with
          | nilPtr h2 => rw [h] at h2; cases h2
          | ptr h2 h3 =>
            rw [h] at h2
            cases h2
            rw [hr.right (isIface_ptr hc) (way_json hw).1 (boxed_of_ptr L hc h3)]
            exact .jsonPtr hw hc hj)
      nonil (fun t a b v he hl hw hm h' => by
        cases hw
        rw [h] at hm
        cases hm
        rcases method_cases L he hl with ⟨h1, h2⟩ | ⟨h1, h2, h3⟩ | ⟨h1, _⟩
        · cases h1
        · cases h1
          rw [hr.right (isIface_ptr rfl) (way_json h2).1 (boxed_of_ptr L rfl h')]
          exact .jsonPtr h2 rfl h3
        · cases h1) nofun
  | .textMarshaler hr =>
    Right.of L C G nofun (fun t a v he hw hu h' => by
        cases hw
        have hp := pick L t
        rw [he] at hp
        cases hp with
        | text hw hd =>
          have hi := used_iface G hu (.inr hw)
          rw [hr.right hi (way_text hw).1 (.pointer hi hd h')]
          exact .text hw (fun e hc => by rw [direct_core L, hc, L.directPtr] at hd; cases hd))
      nonil (nomethod L) nofun
  | .directTextMarshaler h hr =>
    Right.of L C G nofun (fun t a v he hw hu h' => by
        cases hw
        have hp := pick L t
        rw [he] at hp
        cases hp with
        | textDirect hw hd hc =>
          have hi := used_iface G hu (.inr hw)
          rw [hr.right hi (way_text hw).1 (boxed_of_holds L hi hd h' h)]
          exact .text hw hc)
      nonil (nomethod L) nofun
  | .pointerTextNil h =>
    Right.of L C G nofun (fun t a v he hw hu h' => by
        cases hw
        have hp := pick L t
        rw [he] at hp
        cases hp with
        | textPtr hw hc hj =>
          cases h'.at_core hc with
          | nilPtr _ => exact .textNil hw hc hj
          | ptr h2 _ => rw [h] at h2; cases h2)
      nonil (fun t a b v he hl hw hm h' => by cases hw; rw [h] at hm; cases hm) nofun
  | .pointerText h hr =>
    Right.of L C G nofun (fun t a v he hw hu h' => by
        cases hw
        have hp := pick L t
        rw [he] at hp
        cases hp with
        | textPtr hw hc hj =>
          cases h'.at_core hc with
          | nilPtr h2 => rw [h] at h2; cases h2
          | ptr h2 h3 =>
            rw [h] at h2
            cases h2
            rw [hr.right (isIface_ptr hc) (way_text hw).1 (boxed_of_ptr L hc h3)]
            exact .textPtr hw hc hj)
      nonil (fun t a b v he hl hw hm h' => by
        cases hw
        rw [h] at hm
        cases hm
        rcases method_cases L he hl with ⟨h1, h2⟩ | ⟨h1, _⟩ | ⟨h1, h2, h3⟩
        · cases h1
        · cases h1
        · cases h1
          rw [hr.right (isIface_ptr rfl) (way_text h2).1 (boxed_of_ptr L rfl h')]
          exact .textPtr h2 rfl h3) nofun
  | .prim h =>
    Right.of L C G nofun (fun t a v he hw hu h' => by
        cases hw
        have hp := pick L t
        rw [he] at hp
        cases hp with
        | prim hw hk hc =>
          cases h'.at_core hc with
          | prim h2 => rw [h] at h2; cases h2; exact .prim hw hk hc)
      nonil (nomethod L) nofun
  | .ptr h hr =>
    have ih := Run.right L C G hr
    Right.of L C G nofun (fun t a v he hw hu h' => by
        cases hw
        have hp := pick L t
        rw [he] at hp
        cases hp with
        | through ht =>
          have hc := through_core ht
          cases h'.at_core hc with
          | nilPtr h2 =>
            rw [h] at h2
            cases h2
            rw [ih.null _ rfl rfl (G.textPtr t _ hu hc)]
            exact .nil ht
          | ptr h2 h3 =>
            rw [h] at h2
            cases h2
            exact .ref ht (ih.internal _ _ _ rfl rfl (C.ptr _ _ hu hc) h3))
      nonil (nomethod L) nofun
  | .emptyArray =>
    Right.of L C G nofun (fun t a v he hw hu h' => by
        cases hw
        have hp := pick L t
        rw [he] at hp
        cases hp with
        | emptyArray hw hc =>
          cases h'.at_core hc with
          | array h2 => cases h2; exact .array hw hc .nil)
      nonil (nomethod L) nofun
  | .array hr =>
    have ih := RunElems.right L C G hr
    Right.of L C G nofun (fun t a v he hw hu h' => by
        cases hw
        have hp := pick L t
        rw [he] at hp
        cases hp with
        | array hw hc _ =>
          cases h'.at_core hc with
          | array h2 => exact .array hw hc (ih _ _ rfl rfl (C.array _ _ _ hu hc) h2))
      nonil (nomethod L) nofun
  | .efaceNil h =>
    Right.of L C G nofun (fun t a v he hw hu h' => by
        cases hw
        have hp := pick L t
        rw [he] at hp
        cases hp with
        | eface hw hc _ =>
          cases h'.at_core hc with
          | nilEface _ _ | nilIface _ _ => exact .ifaceNil hw hc
          | eface _ h2 | iface _ h2 => rw [h] at h2; cases h2)
      nonil (nomethod L) nofun
  | .eface h hr =>
    have ih := Run.right L C G hr
    Right.of L C G nofun (fun t a v he hw hu h' => by
        cases hw
        have hp := pick L t
        rw [he] at hp
        cases hp with
        | eface hw hc _ =>
          cases h'.at_core hc with
          | nilEface _ h2 | nilIface _ h2 | iface _ h2 => rw [h] at h2; cases h2
          | eface _ h2 h3 h4 => rw [h] at h2; cases h2; exact .iface hw hc (ih.root _ _ rfl h3 h4))
      nonil (nomethod L) nofun
  | .ifaceNil h =>
    Right.of L C G nofun (fun t a v he hw hu h' => by
        cases hw
        have hp := pick L t
        rw [he] at hp
        cases hp with
        | iface hw hc _ =>
          cases h'.at_core hc with
          | nilEface _ _ | nilIface _ _ => exact .ifaceNil hw hc
          | eface _ h2 | iface _ h2 => rw [h] at h2; cases h2)
      nonil (nomethod L) nofun
  | .iface h hr =>
    have ih := Run.right L C G hr
    Right.of L C G nofun (fun t a v he hw hu h' => by
        cases hw
        have hp := pick L t
        rw [he] at hp
        cases hp with
        | iface hw hc _ =>
          cases h'.at_core hc with
          | nilEface _ h2 | nilIface _ h2 | eface _ h2 => rw [h] at h2; cases h2
          | iface _ h2 h3 _ h4 => rw [h] at h2; cases h2; exact .iface hw hc (ih.root _ _ rfl h3 h4))
      nonil (nomethod L) nofun
  | .base64Nil h =>
    Right.of L C G nofun (fun t a v he hw hu h' => by
        cases hw
        have hp := pick L t
        rw [he] at hp
        cases hp with
        | base64 hw hc _ =>
          cases h'.at_core hc with
          | nilSlice _ => exact .sliceNil hw hc
          | slice h2 _ => rw [h] at h2; cases h2)
      nonil (nomethod L) nofun
  | .base64 h hb =>
    Right.of L C G nofun (fun t a v he hw hu h' => by
        cases hw
        have hp := pick L t
        rw [he] at hp
        cases hp with
        | base64 hw hc hbl =>
          cases h'.at_core hc with
          | nilSlice h2 => rw [h] at h2; cases h2
          | slice h2 h3 =>
            rw [h] at h2
            cases h2
            obtain ⟨ns, rfl, h4⟩ := h3.bytes L (by simp [Types.byteLike] at hbl; exact hbl.1.1.1)
            rw [hb.unique h4]
            exact .bytes hw hc hbl)
      nonil (nomethod L) nofun
  | .sliceNil h =>
    Right.of L C G nofun (fun t a v he hw hu h' => by
        cases hw
        have hp := pick L t
        rw [he] at hp
        cases hp with
        | slice hw hc _ =>
          cases h'.at_core hc with
          | nilSlice _ => exact .sliceNil hw hc
          | slice h2 _ => rw [h] at h2; cases h2)
      nonil (nomethod L) nofun
  | .slice h hr =>
    have ih := RunElems.right L C G hr
    Right.of L C G nofun (fun t a v he hw hu h' => by
        cases hw
        have hp := pick L t
        rw [he] at hp
        cases hp with
        | slice hw hc hb =>
          cases h'.at_core hc with
          | nilSlice h2 => rw [h] at h2; cases h2
          | slice h2 h3 =>
            rw [h] at h2
            cases h2
            exact .slice hw hc hb (ih _ _ rfl rfl (C.slice _ _ hu hc) h3))
      nonil (nomethod L) nofun
  | .mapNil h =>
    Right.of L C G nofun (fun t a v he hw hu h' => by
        cases hw
        have hp := pick L t
        rw [he] at hp
        cases hp with
        | map hw hc _ hs =>
          cases h'.at_core hc with
          | nilMap _ => exact .mapNil hw hc hs
          | map h2 _ => rw [h] at h2; cases h2)
      nonil (nomethod L) nofun
  | .map h h1 hr =>
    have ih := RunEntries.right L C G hr
    Right.of L C G nofun (fun t a v he hw hu h' => by
        cases hw
        have hp := pick L t
        rw [he] at hp
        cases hp with
        | map hw hc hk hs =>
          cases h'.at_core hc with
          | nilMap h2 => rw [h] at h2; cases h2
          | map h2 h3 h4 =>
            rw [h] at h2
            cases h2
            rw [h1] at h3
            cases h3
            exact .map hw hc hs (ih _ _ _ hk (G.keyIface _ _ _ hu hc) (G.keyDirect _ _ _ hu hc) rfl (C.map _ _ _ hu hc) h4))
      nonil (nomethod L) nofun
  | .emptyStruct =>
    Right.of L C G nofun (fun t a v he hw hu h' => by
        cases hw
        have hp := pick L t
        rw [he] at hp
        cases hp with
        | emptyStruct hw hc hd => exact .struct hw hc (by rw [hd]; exact .nil))
      nonil (nomethod L) nofun
  | .struct hr =>
    have ih := RunFields.right L C G hr
    Right.of L C G nofun (fun t a v he hw hu h' => by
        cases hw
        have hp := pick L t
        rw [he] at hp
        cases hp with
        | struct hw hc _ => exact .struct hw hc (ih v _ hu hc (fun _ h => h) h'))
      nonil (nomethod L) nofun
  | .direct hf hr =>
    have ih := Run.right L C G hr
    ⟨fun t _ _ he => absurd he (internal_not_direct L _ _), fun t he => absurd he (internal_not_direct L _ _),
      fun t _ _ _ he => absurd he (internal_not_direct L _ _), fun t a v he hw hu h => by
        cases hl : Γ.likeElem t with
        | true => rw [elem_like L hl] at he; exact absurd he (internal_not_direct L _ _)
        | false =>
          rw [elem_not L hl] at he
          cases he
          cases hw
          exact .pointer hl (ih.method t _ a v rfl hl rfl (Memory.add_self _ _ _) (h.mono (Memory.le_add _ hf))),
      fun t v he hu h => by
        obtain ⟨rfl, hd⟩ := root_direct L he
        exact ih.internal t _ v rfl rfl hu
          (((boxed_word hd h).mono (Memory.le_add _ hf)).holds (Memory.add_self _ _ _))⟩
  | .notSupported =>
    Right.of L C G nofun (fun t a v he hw hu h' => by
        have hp := pick L t
        rw [he] at hp
        cases hp with
        | notSupported h => exact .notSupported h)
      (fun t he _ _ => by
        have hp := pick L t
        rw [he] at hp
        cases hp with
        | notSupported h =>
          have hw : Γ.way t = .kind := by simp [Types.unsupported] at h; exact h.1
          have hk : Γ.kindCustom t = none := by
            cases hk : Γ.kindCustom t with
            | none => rfl
            | some k => simp [Types.unsupported, (kindCustom_core hk).2.1] at h
          simp [Types.nilOut, way_not_custom (t := t) (by rw [hw]; simp), hk, h])
      (nomethod L) (fun _ => rfl)
termination_by structural h => h
theorem RunElems.right (L : Γ.Lawful) (C : Γ.Closed) (G : Γ.Clear) {m e size a n os} : RunElems Γ m e size a n os →
    ∀ t vs, Γ.elemEnc t = e → Γ.size t = size → Γ.used t → HoldElems Γ m t a n vs → ShowsVars Γ t vs os
  | .nil, t, vs, he, hs, hu, h => by cases h; exact .nil
  | .cons h1 h2, t, vs, he, hs, hu, h => by
    have ih := Run.right L C G h1
    have ih' := RunElems.right L C G h2
    cases h with
    | cons h3 h4 => exact .cons (ih.elem t _ _ he rfl hu h3) (ih' t _ he hs hu (by rw [hs] at h4; exact h4))
termination_by structural h => h
theorem RunEntries.right (L : Γ.Lawful) (C : Γ.Closed) (G : Γ.Clear) {m k e es os} : RunEntries Γ m k e es os →
    ∀ kt t vs, Γ.keyEnc kt = some k → (Γ.text kt = true → Γ.isIface kt = false) →
      (Γ.text kt = true → Γ.direct kt = true → ∃ p, Γ.core kt = .ptr p) → Γ.internalEnc t = e → Γ.used t →
      HoldEntries Γ m kt t es vs → ShowsEntries Γ kt t vs os
  | .nil, kt, t, vs, hk, hi, hd, he, hu, h => by cases h; exact .nil
  | .cons h0 h1 h2, kt, t, vs, hk, hi, hd, he, hu, h => by
    have ih := Run.right L C G h1
    have ih' := RunEntries.right L C G h2
    cases h with
    | cons h3 h4 h5 => exact .cons (h0.right L hi hd hk h3) (ih.internal t _ _ he rfl hu h4) (ih' kt t _ hk hi hd he hu h5)
termination_by structural h => h
theorem RunFields.right (L : Γ.Lawful) (C : Γ.Closed) (G : Γ.Clear) {m t a ds os} : RunFields Γ m t a ds os →
    ∀ v i, Γ.used t → Γ.core t = .struct i → (∀ d ∈ ds, d ∈ Γ.described t) → Holds Γ m t a v → ShowsFields Γ t v ds os
  | .nil, v, i, hu, hc, hd, h => .nil
  | .skip h0 h1 h2, v, i, hu, hc, hd, h => by
    have ih' := RunFields.right L C G h2
    obtain ⟨f, hl, hf⟩ := C.struct t i _ hu hc (hd _ (List.mem_cons_self ..))
    obtain ⟨o, offs, h3, h4⟩ := locate_follows hl
    rw [h0] at h3
    cases h3
    rcases h4 h with ⟨h5, h6⟩ | ⟨b, x, h5, h6, h7⟩
    · exact .skip h6 (ih' v i hu hc (fun d h => hd d (List.mem_cons_of_mem _ h)) h)
    · rw [h1] at h5; cases h5
  | .panic h0 h1 ho he h2, v, i, hu, hc, hd, h => by
    obtain ⟨f, hl, hf⟩ := C.struct t i _ hu hc (hd _ (List.mem_cons_self ..))
    obtain ⟨o, offs, h3, h4⟩ := locate_follows hl
    rw [h0] at h3
    cases h3
    rcases h4 h with ⟨h5, h6⟩ | ⟨b, x, h5, h6, h7⟩
    · rw [h1] at h5; cases h5
    · rw [h1] at h5
      cases h5
      have := (isEmpty_iff L G hf (G.omits t i _ _ hu hc (hd _ (List.mem_cons_self ..)) ho hl) h7).1 he
      cases this
  | .omitted h0 h1 ho he h2, v, i, hu, hc, hd, h => by
    have ih' := RunFields.right L C G h2
    obtain ⟨f, hl, hf⟩ := C.struct t i _ hu hc (hd _ (List.mem_cons_self ..))
    obtain ⟨o, offs, h3, h4⟩ := locate_follows hl
    rw [h0] at h3
    cases h3
    rcases h4 h with ⟨h5, h6⟩ | ⟨b, x, h5, h6, h7⟩
    · rw [h1] at h5; cases h5
    · rw [h1] at h5
      cases h5
      have h8 := (isEmpty_iff L G hf (G.omits t i _ _ hu hc (hd _ (List.mem_cons_self ..)) ho hl) h7).1 he
      exact .omitted h6 hl ho (Option.some.inj h8).symm (ih' v i hu hc (fun d h => hd d (List.mem_cons_of_mem _ h)) h)
  | .field h0 h1 he h2 h3, v, i, hu, hc, hd, h => by
    have ih := Run.right L C G h2
    have ih' := RunFields.right L C G h3
    obtain ⟨f, hl, hf⟩ := C.struct t i _ hu hc (hd _ (List.mem_cons_self ..))
    obtain ⟨o, offs, h3, h4⟩ := locate_follows hl
    rw [h0] at h3
    cases h3
    rcases h4 h with ⟨h5, h6⟩ | ⟨b, x, h5, h6, h7⟩
    · rw [h1] at h5; cases h5
    · rw [h1] at h5
      cases h5
      exact .field h6 hl (fun ho => (Option.some.inj
          ((isEmpty_iff L G hf (G.omits t i _ _ hu hc (hd _ (List.mem_cons_self ..)) ho hl) h7).1 (he ho))).symm)
        (ih.elem _ _ _ rfl rfl hf h7) (ih' v i hu hc (fun d h => hd d (List.mem_cons_of_mem _ h)) h)
termination_by structural h => h
end

end Jzon.Words
