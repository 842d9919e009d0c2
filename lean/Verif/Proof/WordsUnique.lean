import Verif.Proof.WordsTotal

/-! # One output for a value -/

set_option linter.unusedSimpArgs false
set_option linter.unusedVariables false

namespace Jzon.Words

variable {Γ : Types}

theorem Follows.unique {path v r} (h : Follows path v r) : ∀ {r'}, Follows path v r' → r = r' := by
  induction h with
  | field h =>
    intro r' h'
    cases h' with
    | field h1 => rw [h] at h1; cases h1; rfl
    | embedded hj _ _ | pointer hj _ _ | null hj _ => exact absurd rfl hj
  | embedded hj h _ ih =>
    intro r' h'
    cases h' with
    | field => exact absurd rfl hj
    | embedded _ h1 h2 => rw [h] at h1; cases h1; exact ih h2
    | pointer _ h1 _ | null _ h1 => rw [h] at h1; cases h1
  | pointer hj h _ ih =>
    intro r' h'
    cases h' with
    | field => exact absurd rfl hj
    | pointer _ h1 h2 => rw [h] at h1; cases h1; exact ih h2
    | embedded _ h1 _ | null _ h1 => rw [h] at h1; cases h1
  | null hj h =>
    intro r' h'
    cases h' with
    | field => exact absurd rfl hj
    | embedded _ h1 _ | pointer _ h1 _ => rw [h] at h1; cases h1
    | null => rfl

theorem Leads.unique {t path f} (h : Leads Γ t path f) : ∀ {f'}, Leads Γ t path f' → f = f' := by
  induction h with
  | field hc h =>
    intro r' h'
    cases h' with
    | field hc' h1 => rw [hc] at hc'; cases hc'; rw [h] at h1; cases h1; rfl
    | embedded hj | pointer hj => exact absurd rfl hj
  | embedded hj hc h hp _ ih =>
    intro r' h'
    cases h' with
    | field => exact absurd rfl hj
    | embedded _ hc' h1 _ h2 => rw [hc] at hc'; cases hc'; rw [h] at h1; cases h1; exact ih h2
    | pointer _ hc' h1 _ => rw [hc] at hc'; cases hc'; rw [h] at h1; cases h1; exact absurd rfl (hp _)
  | pointer hj hc h _ ih =>
    intro r' h'
    cases h' with
    | field => exact absurd rfl hj
    | embedded _ hc' h1 hp h2 => rw [hc] at hc'; cases hc'; rw [h] at h1; cases h1; exact absurd rfl (hp _)
    | pointer _ hc' h1 h2 => rw [hc] at hc'; cases hc'; rw [h] at h1; cases h1; exact ih h2

theorem through_cases {t e} (h : Through Γ t e) : Γ.core t = .ptr e ∧
    ((Γ.way t = .json ∧ Γ.json e = true) ∨ (Γ.way t = .text ∧ Γ.text e = true) ∨ Γ.way t = .kind) := by
  cases h <;> simp_all

theorem unsupported_cases {t} (h : Γ.unsupported t = true) : Γ.way t = .kind ∧ (Γ.core t = .func ∨ ∃ k e, Γ.core t = .map k e) := by
  simp [Types.unsupported] at h
  refine ⟨h.1, ?_⟩
  have h2 := h.2
  split at h2 <;> simp_all

theorem ShowsKey.unique {t v o o'} (h : ShowsKey Γ t v o) (h' : ShowsKey Γ t v o') : o = o' := by
  cases h <;> cases h' <;> simp_all

theorem map_prim_inj {ns ns' : List Nat} (h : ns.map DVal.prim = ns'.map DVal.prim) : ns = ns' := by
  induction ns generalizing ns' with
  | nil => cases ns' <;> simp_all
  | cons n ns ih =>
    cases ns' with
    | nil => cases h
    | cons n' ns' => simp at h; rw [h.1, ih h.2]

mutual
theorem Shows.unique {q t v o o'} : Shows Γ q t v o → Shows Γ q t v o' → o = o'
  | .custom hw, h' => by
    cases h' with
    | nil ht' | ref ht' => have := through_cases ht'; simp_all
    | kindCustom hk' => have := kindCustom_core hk'; simp_all
    | notSupported hu' => have := unsupported_cases hu'; simp_all
    | _ => simp_all
  | .number hw, h' => by
    cases h' with
    | kindCustom hk' => have := kindCustom_core hk'; simp_all
    | notSupported hu' => have := unsupported_cases hu'; simp_all
    | _ => simp_all
  | .rawNil hw, h' => by
    cases h' with
    | nil ht' => have := through_cases ht'; simp_all
    | kindCustom hk' => have := kindCustom_core hk'; simp_all
    | notSupported hu' => have := unsupported_cases hu'; simp_all
    | _ => simp_all
  | .raw (ns := ns) hw, h' => by
    generalize hv : DVal.list (List.map DVal.prim ns) = v at h'
    cases h' with
    | raw _ => rw [map_prim_inj (DVal.list.inj hv)]
    | nil ht' | ref ht' => have := through_cases ht'; simp_all
    | kindCustom hk' => have := kindCustom_core hk'; simp_all
    | notSupported hu' => have := unsupported_cases hu'; simp_all
    | _ => simp_all
  | .jsonIfaceNil hw, h' => by
    cases h' with
    | nil ht' => have := through_cases ht'; simp_all
    | kindCustom hk' => have := kindCustom_core hk'; simp_all
    | notSupported hu' => have := unsupported_cases hu'; simp_all
    | _ => simp_all
  | .jsonIface hw, h' => by
    cases h' with
    | kindCustom hk' => have := kindCustom_core hk'; simp_all
    | notSupported hu' => have := unsupported_cases hu'; simp_all
    | _ => simp_all
  | .textIfaceNil hw, h' => by
    cases h' with
    | nil ht' => have := through_cases ht'; simp_all
    | kindCustom hk' => have := kindCustom_core hk'; simp_all
    | notSupported hu' => have := unsupported_cases hu'; simp_all
    | _ => simp_all
  | .textIface hw, h' => by
    cases h' with
    | kindCustom hk' => have := kindCustom_core hk'; simp_all
    | notSupported hu' => have := unsupported_cases hu'; simp_all
    | _ => simp_all
  | .json hw hc, h' => by
    cases h' with
    | nil ht' | ref ht' => have := through_cases ht'; simp_all
    | kindCustom hk' => have := kindCustom_core hk'; simp_all
    | notSupported hu' => have := unsupported_cases hu'; simp_all
    | _ => simp_all
  | .text hw hc, h' => by
    cases h' with
    | nil ht' | ref ht' => have := through_cases ht'; simp_all
    | kindCustom hk' => have := kindCustom_core hk'; simp_all
    | notSupported hu' => have := unsupported_cases hu'; simp_all
    | _ => simp_all
  | .jsonNil hw hc hj, h' => by
    cases h' with
    | nil ht' => have := through_cases ht'; simp_all
    | kindCustom hk' => have := kindCustom_core hk'; simp_all
    | notSupported hu' => have := unsupported_cases hu'; simp_all
    | _ => simp_all
  | .jsonPtr hw hc hj, h' => by
    cases h' with
    | ref ht' => have := through_cases ht'; simp_all
    | kindCustom hk' => have := kindCustom_core hk'; simp_all
    | notSupported hu' => have := unsupported_cases hu'; simp_all
    | _ => simp_all
  | .textNil hw hc hj, h' => by
    cases h' with
    | nil ht' => have := through_cases ht'; simp_all
    | kindCustom hk' => have := kindCustom_core hk'; simp_all
    | notSupported hu' => have := unsupported_cases hu'; simp_all
    | _ => simp_all
  | .textPtr hw hc hj, h' => by
    cases h' with
    | ref ht' => have := through_cases ht'; simp_all
    | kindCustom hk' => have := kindCustom_core hk'; simp_all
    | notSupported hu' => have := unsupported_cases hu'; simp_all
    | _ => simp_all
  | .nil ht, h' => by
    have h0 := through_cases ht
    cases h' with
    | nil ht' => have h2 := through_cases ht'; have h3 := h0.1.symm.trans h2.1; cases h3; rfl
    | kindCustom hk' => have := kindCustom_core hk'; simp_all
    | notSupported hu' => have := unsupported_cases hu'; simp_all
    | _ => simp_all
  | .ref ht h, h' => by
    have h0 := through_cases ht
    cases h' with
    | ref ht' h1 => have h2 := through_cases ht'; have h3 := h0.1.symm.trans h2.1; cases h3; exact h.unique h1
    | kindCustom hk' => have := kindCustom_core hk'; simp_all
    | notSupported hu' => have := unsupported_cases hu'; simp_all
    | _ => simp_all
  | .kindCustom hk, h' => by
    have h0 := kindCustom_core hk
    cases h' with
    | kindCustom hk' => rw [hk] at hk'; cases hk'; rfl
    | nil ht' | ref ht' => have := through_cases ht'; simp_all
    | notSupported hu' => have := unsupported_cases hu'; simp_all
    | _ => simp_all
  | .prim hw hk hc, h' => by
    cases h' with
    | kindCustom hk' => have := kindCustom_core hk'; simp_all
    | notSupported hu' => have := unsupported_cases hu'; simp_all
    | _ => simp_all
  | .sliceNil hw hc, h' => by
    cases h' with
    | nil ht' => have := through_cases ht'; simp_all
    | kindCustom hk' => have := kindCustom_core hk'; simp_all
    | notSupported hu' => have := unsupported_cases hu'; simp_all
    | _ => simp_all
  | .bytes (ns := ns) hw hc hb, h' => by
    generalize hv : DVal.list (List.map DVal.prim ns) = v at h'
    cases h' with
    | bytes _ _ _ => rw [map_prim_inj (DVal.list.inj hv)]
    | nil ht' | ref ht' => have := through_cases ht'; simp_all
    | kindCustom hk' => have := kindCustom_core hk'; simp_all
    | notSupported hu' => have := unsupported_cases hu'; simp_all
    | _ => simp_all
  | .slice hw hc hb h, h' => by
    cases h' with
    | slice _ hc' _ h1 => rw [hc] at hc'; cases hc'; rw [h.unique h1]
    | kindCustom hk' => have := kindCustom_core hk'; simp_all
    | notSupported hu' => have := unsupported_cases hu'; simp_all
    | _ => simp_all
  | .array hw hc h, h' => by
    cases h' with
    | array _ hc' h1 => rw [hc] at hc'; cases hc'; rw [h.unique h1]
    | kindCustom hk' => have := kindCustom_core hk'; simp_all
    | notSupported hu' => have := unsupported_cases hu'; simp_all
    | _ => simp_all
  | .mapNil hw hc hu, h' => by
    cases h' with
    | nil ht' => have := through_cases ht'; simp_all
    | kindCustom hk' => have := kindCustom_core hk'; simp_all
    | notSupported hu' => have := unsupported_cases hu'; simp_all
    | _ => simp_all
  | .map hw hc hu h, h' => by
    cases h' with
    | map _ hc' _ h1 => rw [hc] at hc'; cases hc'; rw [h.unique h1]
    | kindCustom hk' => have := kindCustom_core hk'; simp_all
    | notSupported hu' => have := unsupported_cases hu'; simp_all
    | _ => simp_all
  | .ifaceNil hw hc, h' => by
    cases h' with
    | nil ht' => have := through_cases ht'; simp_all
    | kindCustom hk' => have := kindCustom_core hk'; simp_all
    | notSupported hu' => have := unsupported_cases hu'; simp_all
    | _ => simp_all
  | .iface hw hc h, h' => by
    cases h' with
    | iface _ _ h1 => exact h.unique h1
    | kindCustom hk' => have := kindCustom_core hk'; simp_all
    | notSupported hu' => have := unsupported_cases hu'; simp_all
    | _ => simp_all
  | .struct hw hc h, h' => by
    cases h' with
    | struct _ _ h1 => rw [h.unique h1]
    | nil ht' | ref ht' => have := through_cases ht'; simp_all
    | kindCustom hk' => have := kindCustom_core hk'; simp_all
    | notSupported hu' => have := unsupported_cases hu'; simp_all
    | _ => simp_all
  | .notSupported hu, h' => by
    have h0 := unsupported_cases hu
    cases h' with
    | nil ht' | ref ht' => have := through_cases ht'; simp_all
    | kindCustom hk' => have := kindCustom_core hk'; simp_all
    | _ => simp_all
termination_by structural h => h
theorem ShowsVar.unique {q t v o o'} : ShowsVar Γ q t v o → ShowsVar Γ q t v o' → o = o'
  | .value hl h, h' => by
    cases h' with
    | value _ h1 => exact h.unique h1
    | pointer hl' _ => rw [hl] at hl'; cases hl'
  | .pointer hl h, h' => by
    cases h' with
    | value hl' _ => rw [hl] at hl'; cases hl'
    | pointer _ h1 => exact h.unique h1
termination_by structural h => h
theorem ShowsVars.unique {t vs os os'} : ShowsVars Γ t vs os → ShowsVars Γ t vs os' → os = os'
  | .nil, h' => by cases h'; rfl
  | .cons h h1, h' => by
    cases h' with
    | cons h2 h3 => rw [h.unique h2, h1.unique h3]
termination_by structural h => h
theorem ShowsEntries.unique {k t vs os os'} : ShowsEntries Γ k t vs os → ShowsEntries Γ k t vs os' → os = os'
  | .nil, h' => by cases h'; rfl
  | .cons h0 h h1, h' => by
    cases h' with
    | cons h4 h2 h3 => rw [h0.unique h4, h.unique h2, h1.unique h3]
termination_by structural h => h
theorem ShowsFields.unique {t v ds os os'} : ShowsFields Γ t v ds os → ShowsFields Γ t v ds os' → os = os'
  | .nil, h' => by cases h'; rfl
  | .skip hf h, h' => by
    cases h' with
    | skip _ h1 => exact h.unique h1
    | field hf' | omitted hf' => have := hf.unique hf'; cases this
  | .omitted hf hl ho he h, h' => by
    cases h' with
    | skip hf' => have := hf.unique hf'; cases this
    | omitted _ _ _ _ h1 => exact h.unique h1
    | field hf' hl' he' h2 h3 =>
      have h4 := hf.unique hf'
      cases h4
      have h5 := hl.unique hl'
      have := he' ho
      rw [← h5, he] at this
      cases this
  | .field hf hl he h h1, h' => by
    cases h' with
    | skip hf' => have := hf.unique hf'; cases this
    | omitted hf' hl' ho' he' h2 =>
      have h4 := hf.unique hf'
      cases h4
      have h5 := hl.unique hl'
      have := he ho'
      rw [h5, he'] at this
      cases this
    | field hf' hl' _ h2 h3 =>
      have h4 := hf.unique hf'
      cases h4
      have h5 := hl.unique hl'
      rw [← h5] at h2
      rw [h.unique h2, h1.unique h3]
termination_by structural h => h
end

/-! ## No panics -/

theorem nilOut_clean (q : Bool) (t : RTy) : ¬ (Γ.nilOut q t).Panics := by
  unfold Types.nilOut
  split
  · nofun
  · split
    · nofun
    · split <;> nofun

mutual
theorem Shows.clean {q t v o} : Shows Γ q t v o → ¬ o.Panics
  | .custom _ | .number _ | .rawNil _ | .raw _ | .jsonIfaceNil _ | .jsonIface _ | .textIfaceNil _ | .textIface _ | .json _ _
  | .text _ _ | .jsonNil _ _ _ | .jsonPtr _ _ _ | .textNil _ _ _ | .textPtr _ _ _ | .kindCustom _ | .prim _ _ _ | .sliceNil _ _
  | .bytes _ _ _ | .mapNil _ _ _ | .ifaceNil _ _ | .notSupported _ => nofun
  | .nil _ => nilOut_clean _ _
  | .ref _ h => h.clean
  | .iface _ _ h => h.clean
  | .slice _ _ _ h => fun hp => by cases hp with | arr hp => exact h.clean hp
  | .array _ _ h => fun hp => by cases hp with | arr hp => exact h.clean hp
  | .map _ _ _ h => fun hp => by cases hp with | dict hp => exact h.clean hp
  | .struct _ _ h => fun hp => by cases hp with | obj hp => exact h.clean hp
termination_by structural h => h
theorem ShowsVar.clean {q t v o} : ShowsVar Γ q t v o → ¬ o.Panics
  | .value _ h => h.clean
  | .pointer _ h => h.clean
termination_by structural h => h
theorem ShowsVars.clean {t vs os} : ShowsVars Γ t vs os → ¬ PanicsIn os
  | .nil => nofun
  | .cons h h1 => fun hp => by
    cases hp with
    | head hp => exact h.clean hp
    | tail hp => exact h1.clean hp
termination_by structural h => h
theorem ShowsEntries.clean {k t vs os} : ShowsEntries Γ k t vs os → ¬ PanicsInEntries os
  | .nil => nofun
  | .cons h0 h h1 => fun hp => by
    cases hp with
    | key => cases h0
    | head hp => exact h.clean hp
    | tail hp => exact h1.clean hp
termination_by structural h => h
theorem ShowsFields.clean {t v ds os} : ShowsFields Γ t v ds os → ¬ PanicsInFields os
  | .nil => nofun
  | .skip _ h => h.clean
  | .omitted _ _ _ _ h => h.clean
  | .field _ _ _ h h1 => fun hp => by
    cases hp with
    | head hp => exact h.clean hp
    | tail hp => exact h1.clean hp
termination_by structural h => h
end

/-! ## The two directions together -/

variable {m : Memory}

theorem run_internal (L : Γ.Lawful) (C : Γ.Closed) (G : Γ.Clear) {q t a v o} (hf : m.Finite) (hu : Γ.used t)
    (h : Holds Γ m t a v) : Run Γ m q (Γ.internalEnc t) (some a) o ↔ Shows Γ q t v o := by
  refine ⟨fun hr => (hr.right L C G).internal t a v rfl rfl hu h, fun hs => ?_⟩
  obtain ⟨o', ho⟩ := (able L C G _ m t a v (Nat.le_refl _) hf hu h).internal _
  rw [hs.unique ((ho.right L C G).internal t a v rfl rfl hu h)]
  exact ho

theorem run_elem (L : Γ.Lawful) (C : Γ.Closed) (G : Γ.Clear) {q t a v o} (hf : m.Finite) (hu : Γ.used t)
    (h : Holds Γ m t a v) : Run Γ m q (Γ.elemEnc t) (some a) o ↔ ShowsVar Γ q t v o := by
  refine ⟨fun hr => (hr.right L C G).elem t a v rfl rfl hu h, fun hs => ?_⟩
  obtain ⟨o', ho⟩ := (able L C G _ m t a v (Nat.le_refl _) hf hu h).elem _
  rw [hs.unique ((ho.right L C G).elem t a v rfl rfl hu h)]
  exact ho

theorem run_root_exists (L : Γ.Lawful) (C : Γ.Closed) (G : Γ.Clear) {q t w v} (hf : m.Finite) (hu : Γ.used t)
    (h : Boxed Γ m t w v) : ∃ o, Run Γ m q (Γ.rootEnc t) w o :=
  root_able L C G hf hu h (fun m t a v' hv => able L C G _ m t a v' hv) q

theorem run_root (L : Γ.Lawful) (C : Γ.Closed) (G : Γ.Clear) {q t w v o} (hf : m.Finite) (hu : Γ.used t)
    (h : Boxed Γ m t w v) : Run Γ m q (Γ.rootEnc t) w o ↔ Shows Γ q t v o := by
  refine ⟨fun hr => (hr.right L C G).root t v rfl hu h, fun hs => ?_⟩
  obtain ⟨o', ho⟩ := run_root_exists L C G hf hu h
  rw [hs.unique ((ho.right L C G).root t v rfl hu h)]
  exact ho

end Jzon.Words
