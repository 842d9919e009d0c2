import Verif.Spec.Words

/-! # Encoders on memory: proofs -/

set_option linter.unusedSimpArgs false
set_option linter.unusedVariables false

namespace Jzon.Words

variable {Γ : Types} {m m' : Memory}

/-- Memory with more cells. -/
def Memory.Le (m m' : Memory) : Prop := ∀ a c, m a = some c → m' a = some c

theorem Memory.Le.refl (m : Memory) : m.Le m := fun _ _ h => h

theorem Memory.Le.trans {m m' m'' : Memory} (h : m.Le m') (h' : m'.Le m'') : m.Le m'' := fun a c hc => h' a c (h a c hc)

theorem Memory.le_add {a : Addr} (c : Cell) (h : m a = none) : m.Le (m.add a c) := by
  intro b d hb
  unfold Memory.add
  split
  · next he => subst he; rw [h] at hb; cases hb
  · exact hb

theorem Memory.add_self (m : Memory) (a : Addr) (c : Cell) : m.add a c a = some c := by simp [Memory.add]

theorem Memory.Finite.add {a : Nat} {c : Cell} (h : m.Finite) : (m.add a c).Finite := by
  obtain ⟨n, hn⟩ := h
  refine ⟨n + a + 1, fun (b : Nat) hb => ?_⟩
  unfold Memory.add
  have hb' : (b : Nat) ≠ a := by omega
  rw [if_neg hb']
  exact hn b (by omega)

mutual
theorem Holds.mono (hm : m.Le m') {t a v} : Holds Γ m t a v → Holds Γ m' t a v
  | .prim h => .prim (hm _ _ h)
  | .nilPtr h => .nilPtr (hm _ _ h)
  | .ptr h h1 => .ptr (hm _ _ h) (h1.mono hm)
  | .nilSlice h => .nilSlice (hm _ _ h)
  | .slice h h1 => .slice (hm _ _ h) (h1.mono hm)
  | .array h => .array (h.mono hm)
  | .struct h => .struct (h.mono hm)
  | .nilMap h => .nilMap (hm _ _ h)
  | .map h h1 h2 => .map (hm _ _ h) (hm _ _ h1) (h2.mono hm)
  | .nilEface h h1 => .nilEface h (hm _ _ h1)
  | .eface h h1 h2 h3 => .eface h (hm _ _ h1) h2 (h3.mono hm)
  | .nilIface h h1 => .nilIface h (hm _ _ h1)
  | .iface h h1 h2 h3 h4 => .iface h (hm _ _ h1) h2 h3 (h4.mono hm)
  | .named h => .named (h.mono hm)
  | .func h => .func (hm _ _ h)
theorem HoldElems.mono (hm : m.Le m') {t a n vs} : HoldElems Γ m t a n vs → HoldElems Γ m' t a n vs
  | .nil => .nil
  | .cons h h1 => .cons (h.mono hm) (h1.mono hm)
theorem HoldFields.mono (hm : m.Le m') {i a j ts vs} : HoldFields Γ m i a j ts vs → HoldFields Γ m' i a j ts vs
  | .nil => .nil
  | .cons h h1 => .cons (h.mono hm) (h1.mono hm)
theorem HoldEntries.mono (hm : m.Le m') {k t es vs} : HoldEntries Γ m k t es vs → HoldEntries Γ m' k t es vs
  | .nil => .nil
  | .cons h h1 h2 => .cons (h.mono hm) (h1.mono hm) (h2.mono hm)
theorem Boxed.mono (hm : m.Le m') {t w v} : Boxed Γ m t w v → Boxed Γ m' t w v
  | .pointer h h1 h2 => .pointer h h1 (h2.mono hm)
  | .word h h1 h2 => .word h h1 (h2.mono hm)
theorem Direct.mono (hm : m.Le m') {t w v} : Direct Γ m t w v → Direct Γ m' t w v
  | .nilPtr => .nilPtr
  | .ptr h => .ptr (h.mono hm)
  | .nilMap => .nilMap
  | .map h h1 => .map (hm _ _ h) (h1.mono hm)
  | .array h => .array (h.mono hm)
  | .struct h h1 h2 => .struct h h1 (h2.mono hm)
  | .named h => .named (h.mono hm)
  | .func => .func
end

/-! ## A variable has one content -/

mutual
theorem Holds.unique {t a v v'} : Holds Γ m t a v → Holds Γ m t a v' → v = v'
  | .prim h, .prim h' => by rw [h] at h'; cases h'; rfl
  | .nilPtr h, .nilPtr h' => rfl
  | .nilPtr h, .ptr h' _ => by rw [h] at h'; cases h'
  | .ptr h _, .nilPtr h' => by rw [h] at h'; cases h'
  | .ptr h h1, .ptr h' h1' => by rw [h] at h'; cases h'; rw [h1.unique h1']
  | .nilSlice h, .nilSlice h' => rfl
  | .nilSlice h, .slice h' _ => by rw [h] at h'; cases h'
  | .slice h _, .nilSlice h' => by rw [h] at h'; cases h'
  | .slice h h1, .slice h' h1' => by rw [h] at h'; cases h'; rw [h1.unique h1']
  | .array h, .array h' => by rw [h.unique h']
  | .struct h, .struct h' => by rw [h.unique h']
  | .nilMap h, .nilMap h' => rfl
  | .nilMap h, .map h' _ _ => by rw [h] at h'; cases h'
  | .map h _ _, .nilMap h' => by rw [h] at h'; cases h'
  | .map h h1 h2, .map h' h1' h2' => by
    rw [h] at h'; cases h'; rw [h1] at h1'; cases h1'; rw [h2.unique h2']
  | .nilEface _ h, .nilEface _ h' => rfl
  | .nilEface _ h, .eface _ h' _ _ => by rw [h] at h'; cases h'
  | .eface _ h _ _, .nilEface _ h' => by rw [h] at h'; cases h'
  | .eface _ h _ h1, .eface _ h' _ h1' => by rw [h] at h'; cases h'; rw [h1.unique h1']
  | .nilIface _ h, .nilIface _ h' => rfl
  | .nilIface _ h, .iface _ h' _ _ _ => by rw [h] at h'; cases h'
  | .iface _ h _ _ _, .nilIface _ h' => by rw [h] at h'; cases h'
  | .iface _ h _ _ h1, .iface _ h' _ _ h1' => by rw [h] at h'; cases h'; rw [h1.unique h1']
  | .nilEface h _, .nilIface h' _ => rfl
  | .nilEface h _, .iface h' _ _ _ _ => by rw [h] at h'; cases h'
  | .eface h _ _ _, .nilIface h' _ => by rw [h] at h'; cases h'
  | .eface h _ _ _, .iface h' _ _ _ _ => by rw [h] at h'; cases h'
  | .nilIface h _, .nilEface h' _ => rfl
  | .nilIface h _, .eface h' _ _ _ => by rw [h] at h'; cases h'
  | .iface h _ _ _ _, .nilEface h' _ => by rw [h] at h'; cases h'
  | .iface h _ _ _ _, .eface h' _ _ _ => by rw [h] at h'; cases h'
  | .named h, .named h' => h.unique h'
  | .func _, .func _ => rfl
termination_by structural h => h
theorem HoldElems.unique {t a n vs vs'} : HoldElems Γ m t a n vs → HoldElems Γ m t a n vs' → vs = vs'
  | .nil, .nil => rfl
  | .cons h h1, .cons h' h1' => by rw [h.unique h', h1.unique h1']
termination_by structural h => h
theorem HoldFields.unique {i a j ts vs vs'} : HoldFields Γ m i a j ts vs → HoldFields Γ m i a j ts vs' → vs = vs'
  | .nil, .nil => rfl
  | .cons h h1, .cons h' h1' => by rw [h.unique h', h1.unique h1']
termination_by structural h => h
theorem HoldEntries.unique {k t es vs vs'} : HoldEntries Γ m k t es vs → HoldEntries Γ m k t es vs' → vs = vs'
  | .nil, .nil => rfl
  | .cons h h1 h2, .cons h' h1' h2' => by rw [h.unique h', h1.unique h1', h2.unique h2']
termination_by structural h => h
theorem Boxed.unique {t w v v'} : Boxed Γ m t w v → Boxed Γ m t w v' → v = v'
  | .pointer _ _ h, .pointer _ _ h' => h.unique h'
  | .pointer _ h _, .word _ h' _ => by rw [h] at h'; cases h'
  | .word _ h _, .pointer _ h' _ => by rw [h] at h'; cases h'
  | .word _ _ h, .word _ _ h' => h.unique h'
termination_by structural h => h
theorem Direct.unique {t w v v'} : Direct Γ m t w v → Direct Γ m t w v' → v = v'
  | .nilPtr, .nilPtr => rfl
  | .ptr h, .ptr h' => by rw [h.unique h']
  | .nilMap, .nilMap => rfl
  | .map h h1, .map h' h1' => by rw [h] at h'; cases h'; rw [h1.unique h1']
  | .array h, .array h' => by rw [h.unique h']
  | .struct h _ h1, .struct h' _ h1' => by rw [h] at h'; cases h'; rw [h1.unique h1']
  | .named h, .named h' => h.unique h'
  | .func, .func => rfl
termination_by structural h => h
end

/-! ## Pointers that are stored directly -/

theorem Direct.holds {t w v a} : Direct Γ m t w v → m a = some (.ptr w) → Holds Γ m t a v
  | .nilPtr, h => .nilPtr h
  | .ptr h1, h => .ptr h h1
  | .nilMap, h => .nilMap h
  | .map h1 h2, h => .map h h1 h2
  | .array h1, h => .array (.cons (h1.holds h) .nil)
  | .struct h1 h2 h3, h => .struct (h1 ▸ .cons (by rw [h2]; exact h3.holds h) .nil)
  | .named h1, h => .named (h1.holds h)
  | .func, h => .func h

mutual
theorem Holds.word (L : Γ.Lawful) {t a v} : Holds Γ m t a v → Γ.direct t = true → ∃ w, m a = some (.ptr w) ∧ Direct Γ m t w v
  | .prim h, hd => by simp [L.directPrim] at hd
  | .nilPtr h, _ => ⟨_, h, .nilPtr⟩
  | .ptr h h1, _ => ⟨_, h, .ptr h1⟩
  | .nilSlice h, hd => by simp [L.directSlice] at hd
  | .slice h h1, hd => by simp [L.directSlice] at hd
  | .array (t := t) (n := n) h, hd => by
    obtain ⟨h1, h2⟩ := (L.directArray _ _).1 hd
    obtain ⟨w, v, hv, hw, h5⟩ := h.word L h1 h2
    subst h1 hv
    exact ⟨w, hw, .array h5⟩
  | .struct (i := i) h, hd => by
    obtain ⟨t, h1, h2⟩ := (L.directStruct _).1 hd
    obtain ⟨w, v, hv, hw, h5⟩ := h.word L h1 h2
    rw [L.offsetFirst] at hw
    subst hv
    exact ⟨w, hw, .struct h1 (L.offsetFirst _) h5⟩
  | .nilMap h, _ => ⟨_, h, .nilMap⟩
  | .map h h1 h2, _ => ⟨_, h, .map h1 h2⟩
  | .nilEface h h1, hd => by simp [L.directIface] at hd
  | .eface h h1 h2 h3, hd => by simp [L.directIface] at hd
  | .nilIface h h1, hd => by simp [L.directIface] at hd
  | .iface h h1 h2 h3 h4, hd => by simp [L.directIface] at hd
  | .named (i := i) h, hd => by
    obtain ⟨w, hw, h5⟩ := h.word L (by rw [← L.directNamed]; exact hd)
    exact ⟨w, hw, .named h5⟩
  | .func h, _ => ⟨_, h, .func⟩
termination_by structural h => h
theorem HoldElems.word (L : Γ.Lawful) {t a n vs} : HoldElems Γ m t a n vs → n = 1 → Γ.direct t = true →
    ∃ w v, vs = [v] ∧ m a = some (.ptr w) ∧ Direct Γ m t w v
  | .nil, h, _ => by cases h
  | .cons h h1, hn, hd => by
    obtain ⟨w, hw, h2⟩ := h.word L hd
    cases h1 with
    | nil => exact ⟨w, _, rfl, hw, h2⟩
    | cons _ _ => omega
termination_by structural h => h
theorem HoldFields.word (L : Γ.Lawful) {i a j ts t vs} : HoldFields Γ m i a j ts vs → ts = [t] → Γ.direct t = true →
    ∃ w v, vs = [v] ∧ m (a + Γ.offset i j) = some (.ptr w) ∧ Direct Γ m t w v
  | .nil, h, _ => by cases h
  | .cons (t := t0) h h1, ht, hd => by
    have h0 := (List.cons.inj ht).1
    obtain ⟨w, hw, h2⟩ := h.word L (by rw [h0]; exact hd)
    have h3 := (List.cons.inj ht).2
    subst h0 h3
    cases h1
    exact ⟨w, _, rfl, hw, h2⟩
termination_by structural h => h
end

/-! ## Types without their names -/

theorem core_not_named (L : Γ.Lawful) (t : RTy) (j : Nat) : Γ.core t ≠ .named j := by
  cases t <;> simp [Types.core, L.under]

theorem core_core (L : Γ.Lawful) (t : RTy) : Γ.core (Γ.core t) = Γ.core t := by
  cases h : Γ.core t with
  | named j => exact absurd h (core_not_named L t j)
  | _ => rfl

theorem direct_core (L : Γ.Lawful) (t : RTy) : Γ.direct t = Γ.direct (Γ.core t) := by
  cases t <;> simp [Types.core, L.directNamed]

theorem holds_core {t a v} : Holds Γ m t a v ↔ Holds Γ m (Γ.core t) a v := by
  cases t with
  | named i => exact ⟨fun h => by cases h with | named h => exact h, .named⟩
  | _ => exact Iff.rfl

theorem direct_word_core {t w v} : Direct Γ m t w v ↔ Direct Γ m (Γ.core t) w v := by
  cases t with
  | named i => exact ⟨fun h => by cases h with | named h => exact h, .named⟩
  | _ => exact Iff.rfl

theorem Holds.at_core {t c a v} (hc : Γ.core t = c) (h : Holds Γ m t a v) : Holds Γ m c a v := by
  rw [← hc]; exact holds_core.1 h

theorem way_special {t s} (h : Γ.way t = .special s) : Γ.special t = some s ∧ Γ.custom t = false := by
  unfold Types.way at h
  cases hc : Γ.custom t <;> simp [hc] at h
  cases hs : Γ.special t <;> simp [hs] at h
  · split at h
    · cases h
    · split at h <;> cases h
  · exact ⟨by rw [h], rfl⟩

/-- Which encoder there is for which type. -/
inductive Pick (Γ : Types) (t : RTy) : Enc → Prop
  | custom : Γ.way t = .custom → Pick Γ t (.custom t)
  | special {s} : Γ.way t = .special s → Pick Γ t (.special s)
  | json : Γ.way t = .json → Γ.direct t = false → Pick Γ t (.jsonMarshaler t)
  | jsonDirect : Γ.way t = .json → Γ.direct t = true → (∀ e, Γ.core t ≠ .ptr e) → Pick Γ t (.directJSONMarshaler t)
  | jsonPtr {e} : Γ.way t = .json → Γ.core t = .ptr e → Γ.json e = false → Pick Γ t (.pointerJSONMarshaler t)
  | text : Γ.way t = .text → Γ.direct t = false → Pick Γ t (.textMarshaler t)
  | textDirect : Γ.way t = .text → Γ.direct t = true → (∀ e, Γ.core t ≠ .ptr e) → Pick Γ t (.directTextMarshaler t)
  | textPtr {e} : Γ.way t = .text → Γ.core t = .ptr e → Γ.text e = false → Pick Γ t (.pointerTextMarshaler t)
  | through {e} : Through Γ t e → Pick Γ t (.ptr e)
  | kindCustom {k} : Γ.kindCustom t = some k → Pick Γ t (.custom (.prim k))
  | prim {k} : Γ.way t = .kind → Γ.kindCustom t = none → Γ.core t = .prim k → Pick Γ t (.prim k)
  | emptyArray {e} : Γ.way t = .kind → Γ.core t = .array 0 e → Pick Γ t .emptyArray
  | array {n e} : Γ.way t = .kind → Γ.core t = .array n e → n ≠ 0 → Pick Γ t (.array n e)
  | eface {i} : Γ.way t = .kind → Γ.core t = .iface i → Γ.methods i = false → Pick Γ t .eface
  | iface {i} : Γ.way t = .kind → Γ.core t = .iface i → Γ.methods i = true → Pick Γ t .iface
  | map {k e ke} : Γ.way t = .kind → Γ.core t = .map k e → Γ.keyEnc k = some ke → Γ.unsupported t = false → Pick Γ t (.map ke e)
  | base64 {e} : Γ.way t = .kind → Γ.core t = .slice e → Γ.byteLike e = true → Pick Γ t .base64
  | slice {e} : Γ.way t = .kind → Γ.core t = .slice e → Γ.byteLike e = false → Pick Γ t (.slice e)
  | emptyStruct {i} : Γ.way t = .kind → Γ.core t = .struct i → Γ.described t = [] → Pick Γ t .emptyStruct
  | struct {i} : Γ.way t = .kind → Γ.core t = .struct i → Γ.described t ≠ [] → Pick Γ t (.struct t)
  | notSupported : Γ.unsupported t = true → Pick Γ t .notSupported

theorem head_of_way {t} : Γ.headEnc t =
    match Γ.way t with
    | .custom => some (.custom t)
    | .special s => some (.special s)
    | .json =>
      if Γ.direct t = false then some (.jsonMarshaler t)
      else
        match Γ.core t with
        | .ptr e => some (if Γ.json e then .ptr e else .pointerJSONMarshaler t)
        | _ => some (.directJSONMarshaler t)
    | .text =>
      if Γ.direct t = false then some (.textMarshaler t)
      else
        match Γ.core t with
        | .ptr e => some (if Γ.text e then .ptr e else .pointerTextMarshaler t)
        | _ => some (.directTextMarshaler t)
    | .kind =>
      match Γ.core t with
      | .prim k => some (if Γ.custom (.prim k) then .custom (.prim k) else .prim k)
      | _ => none := by
  unfold Types.headEnc Types.way
  cases Γ.custom t
  · cases Γ.special t
    · cases Γ.json t
      · cases Γ.text t <;> rfl
      · rfl
    · rfl
  · rfl

theorem special_ptr (L : Γ.Lawful) (t : RTy) : Γ.special (.ptr t) = none := by
  cases h : Γ.special (.ptr t) with
  | none => rfl
  | some s =>
    cases s with
    | number => have := L.number _ h; cases this
    | raw => have := L.raw _ h; cases this
    | jsonMarshaler => obtain ⟨i, h1, _⟩ := L.jsonMarshaler _ h; cases h1
    | textMarshaler => obtain ⟨i, h1, _⟩ := L.textMarshaler _ h; cases h1

theorem plainPtr_eq (L : Γ.Lawful) (t : RTy) : Γ.plainPtr t = Γ.likeElem t := by
  unfold Types.plainPtr Types.likeElem
  rw [head_of_way]
  cases h : Γ.way (.ptr t) with
  | custom => rfl
  | special s => exact absurd (way_special h).1 (by rw [special_ptr L]; simp)
  | json => simp [L.directPtr, Types.core]; cases Γ.json t <;> rfl
  | text => simp [L.directPtr, Types.core]; cases Γ.text t <;> rfl
  | kind => rfl

theorem isBytes_eq (L : Γ.Lawful) (t : RTy) : Γ.isBytes t = Γ.byteLike t := by
  unfold Types.isBytes Types.byteLike
  rw [plainPtr_eq L, head_of_way]
  cases h : Γ.way t <;> simp
  · intro h1 _; simp [direct_core L t, h1, L.directPrim]
  · intro h1 _; simp [direct_core L t, h1, L.directPrim]
  · cases hc : decide (Γ.core t = .prim .uint8) <;> simp at hc
    · simp [hc]
    · cases hk : Γ.custom (.prim .uint8) <;> cases Γ.likeElem t <;> simp [hc, hk]

theorem pick (L : Γ.Lawful) (t : RTy) : Pick Γ t (Γ.internalEnc t) := by
  unfold Types.internalEnc
  rw [head_of_way]
  cases h : Γ.way t with
  | custom => exact .custom h
  | special s => exact .special h
  | json =>
    simp only
    cases hd : Γ.direct t with
    | false => exact .json h hd
    | true =>
      simp only [Bool.true_eq_false, if_false]
      cases hc : Γ.core t with
      | ptr e =>
        cases hj : Γ.json e with
        | false => simp [hj]; exact .jsonPtr h hc hj
        | true => simp [hj]; exact .through (.json h hc hj)
      | _ => exact .jsonDirect h hd (by simp [hc])
  | text =>
    simp only
    cases hd : Γ.direct t with
    | false => exact .text h hd
    | true =>
      simp only [Bool.true_eq_false, if_false]
      cases hc : Γ.core t with
      | ptr e =>
        cases hj : Γ.text e with
        | false => simp [hj]; exact .textPtr h hc hj
        | true => simp [hj]; exact .through (.text h hc hj)
      | _ => exact .textDirect h hd (by simp [hc])
  | kind =>
    cases hc : Γ.core t with
    | prim k =>
      cases hk : Γ.custom (.prim k) with
      | true => simp [hk]; exact .kindCustom (by simp [Types.kindCustom, h, hc, hk])
      | false => simp [hk]; exact .prim h (by simp [Types.kindCustom, h, hc, hk]) hc
    | ptr e => simp [Types.kindEnc, hc]; exact .through (.kind h hc)
    | slice e =>
      simp [Types.kindEnc, hc, isBytes_eq L]
      cases hb : Γ.byteLike e with
      | true => exact .base64 h hc hb
      | false => exact .slice h hc hb
    | array n e =>
      simp [Types.kindEnc, hc]
      split
      · next hn => subst hn; exact .emptyArray h hc
      · next hn => exact .array h hc hn
    | map k e =>
      simp [Types.kindEnc, hc]
      cases hk : Γ.keyEnc k with
      | none =>
        refine .notSupported ?_
        simp [Types.unsupported, h, hc]
        revert hk
        unfold Types.keyEnc
        cases hck : Γ.core k with
        | prim p => cases p <;> simp <;> (cases Γ.text k <;> simp)
        | _ => simp; try (cases Γ.text k <;> simp)
      | some ke =>
        refine .map h hc hk ?_
        simp [Types.unsupported, h, hc]
        revert hk
        unfold Types.keyEnc
        cases hck : Γ.core k with
        | prim p => cases p <;> simp <;> (cases Γ.text k <;> simp)
        | _ => simp; try (cases Γ.text k <;> simp)
    | struct i =>
      simp [Types.kindEnc, hc]
      split
      · next hn => exact .emptyStruct h hc hn
      · next hn => exact .struct h hc hn
    | iface i =>
      simp [Types.kindEnc, hc]
      cases hm : Γ.methods i with
      | true => exact .iface h hc hm
      | false => exact .eface h hc hm
    | named j => exact absurd hc (core_not_named L t j)
    | func => simp [Types.kindEnc, hc]; exact .notSupported (by simp [Types.unsupported, h, hc])

end Jzon.Words
