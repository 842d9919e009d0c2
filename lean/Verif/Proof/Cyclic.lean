import Verif.Proof.WordsTotal
import Verif.Spec.Cyclic

/-! # Encoders end on finite values only -/

set_option linter.unusedSimpArgs false
set_option linter.unusedVariables false

namespace Jzon.Words

variable {Γ : Types} {m m' : Memory} {V : RTy → Addr → Prop} {W : RTy → Ptr → Prop}

/-! ## What is held in a larger memory -/

theorem same_cell {a c c'} (hm : m.Le m') (h : m a = some c) (h' : m' a = some c') : c = c' := by
  have := hm a c h
  rw [h'] at this
  exact (Option.some.inj this).symm

mutual
theorem Holds.shrink (T : WellTyped Γ m V W) (hm : m.Le m') {t a v} : Holds Γ m' t a v → V t a → Holds Γ m t a v
  | .prim h, hv => by
    cases T.var _ _ hv with
    | prim h1 => cases same_cell hm h1 h; exact .prim h1
  | .nilPtr h, hv => by
    cases T.var _ _ hv with
    | nilPtr h1 => exact .nilPtr h1
    | ptr h1 _ => cases same_cell hm h1 h
  | .ptr h h2, hv => by
    cases T.var _ _ hv with
    | nilPtr h1 => cases same_cell hm h1 h
    | ptr h1 h3 => cases same_cell hm h1 h; exact .ptr h1 (h2.shrink T hm h3)
  | .nilSlice h, hv => by
    cases T.var _ _ hv with
    | nilSlice h1 => exact .nilSlice h1
    | slice h1 _ => cases same_cell hm h1 h
  | .slice h h2, hv => by
    cases T.var _ _ hv with
    | nilSlice h1 => cases same_cell hm h1 h
    | slice h1 h3 => cases same_cell hm h1 h; exact .slice h1 (h2.shrink T hm h3)
  | .array h, hv => by
    cases T.var _ _ hv with
    | array h1 => exact .array (h.shrink T hm h1)
  | .struct h, hv => by
    cases T.var _ _ hv with
    | struct h1 => exact .struct (h.shrink T hm (fun n f hf => by simpa using h1 n f hf))
  | .nilMap h, hv => by
    cases T.var _ _ hv with
    | nilMap h1 => exact .nilMap h1
    | map h1 _ _ => cases same_cell hm h1 h
  | .map h h2 h3, hv => by
    cases T.var _ _ hv with
    | nilMap h1 => cases same_cell hm h1 h
    | map h1 h4 h5 =>
      cases same_cell hm h1 h
      cases same_cell hm h4 h2
      exact .map h1 h4 (h3.shrink T hm h5)
  | .nilEface h0 h, hv => by
    cases T.var _ _ hv with
    | nilEface _ h1 => exact .nilEface h0 h1
    | eface _ h1 => cases same_cell hm h1 h
    | nilIface h1 | iface h1 => rw [h0] at h1; cases h1
  | .eface h0 h hu h2, hv => by
    cases T.var _ _ hv with
    | nilEface _ h1 => cases same_cell hm h1 h
    | eface _ h1 _ h3 => cases same_cell hm h1 h; exact .eface h0 h1 hu (h2.shrink T hm h3)
    | nilIface h1 | iface h1 => rw [h0] at h1; cases h1
  | .nilIface h0 h, hv => by
    cases T.var _ _ hv with
    | nilIface _ h1 => exact .nilIface h0 h1
    | iface _ h1 => cases same_cell hm h1 h
    | nilEface h1 | eface h1 => rw [h0] at h1; cases h1
  | .iface h0 h hu hi h2, hv => by
    cases T.var _ _ hv with
    | nilIface _ h1 => cases same_cell hm h1 h
    | iface _ h1 _ _ h3 => cases same_cell hm h1 h; exact .iface h0 h1 hu hi (h2.shrink T hm h3)
    | nilEface h1 | eface h1 => rw [h0] at h1; cases h1
  | .named h, hv => by
    cases T.var _ _ hv with
    | named h1 => exact .named (h.shrink T hm h1)
  | .func h, hv => by
    cases T.var _ _ hv with
    | func h1 => exact .func h1
termination_by structural h => h
theorem HoldElems.shrink (T : WellTyped Γ m V W) (hm : m.Le m') {t a n vs} : HoldElems Γ m' t a n vs →
    (∀ i : Nat, i < n → V t (a + i * Γ.size t)) → HoldElems Γ m t a n vs
  | .nil, _ => .nil
  | .cons h h1, hv => .cons (h.shrink T hm (by simpa using hv 0 (by omega))) (h1.shrink T hm (fun i hi => by
      have := hv (i + 1) (by omega)
      rw [Nat.succ_mul] at this
      rw [Nat.add_assoc, Nat.add_comm (Γ.size t)]
      exact this))
termination_by structural h => h
theorem HoldFields.shrink (T : WellTyped Γ m V W) (hm : m.Le m') {i a j ts vs} : HoldFields Γ m' i a j ts vs →
    (∀ n f, ts[n]? = some f → V f (a + Γ.offset i (j + n))) → HoldFields Γ m i a j ts vs
  | .nil, _ => .nil
  | .cons h h1, hv => .cons (h.shrink T hm (by simpa using hv 0 _ rfl)) (h1.shrink T hm (fun n f hf => by
      have := hv (n + 1) f (by simpa using hf)
      rw [Nat.add_assoc, Nat.add_comm 1]
      exact this))
termination_by structural h => h
theorem HoldEntries.shrink (T : WellTyped Γ m V W) (hm : m.Le m') {k t es vs} : HoldEntries Γ m' k t es vs →
    (∀ x ∈ es, V k x.1 ∧ V t x.2) → HoldEntries Γ m k t es vs
  | .nil, _ => .nil
  | .cons h h1 h2, hv => .cons (h.shrink T hm (hv _ (List.mem_cons_self ..)).1) (h1.shrink T hm (hv _ (List.mem_cons_self ..)).2)
      (h2.shrink T hm (fun x hx => hv x (List.mem_cons_of_mem _ hx)))
termination_by structural h => h
theorem Boxed.shrink (T : WellTyped Γ m V W) (hm : m.Le m') {t w v} : Boxed Γ m' t w v → BoxLooks Γ V W t w → Boxed Γ m t w v
  | .pointer h h1 h2, hv => by
    rcases hv.2 with ⟨_, a, ha, h3⟩ | ⟨h3, _⟩
    · cases ha; exact .pointer h h1 (h2.shrink T hm h3)
    · rw [h1] at h3; cases h3
  | .word h h1 h2, hv => by
    rcases hv.2 with ⟨h3, _⟩ | ⟨_, h3⟩
    · rw [h1] at h3; cases h3
    · exact .word h h1 (h2.shrink T hm h3)
termination_by structural h => h
theorem Direct.shrink (T : WellTyped Γ m V W) (hm : m.Le m') {t w v} : Direct Γ m' t w v → W t w → Direct Γ m t w v
  | .nilPtr, _ => .nilPtr
  | .ptr h, hv => by
    cases T.word _ _ hv with
    | ptr h1 => exact .ptr (h.shrink T hm h1)
  | .nilMap, _ => .nilMap
  | .map h h2, hv => by
    cases T.word _ _ hv with
    | map h1 h3 => cases same_cell hm h1 h; exact .map h1 (h2.shrink T hm h3)
  | .array h, hv => by
    cases T.word _ _ hv with
    | array h1 => exact .array (h.shrink T hm h1)
  | .struct hf ho h, hv => by
    cases T.word _ _ hv with
    | struct h1 h2 => rw [hf] at h1; cases h1; exact .struct hf ho (h.shrink T hm h2)
  | .named h, hv => by
    cases T.word _ _ hv with
    | named h1 => exact .named (h.shrink T hm h1)
  | .func, _ => .func
termination_by structural h => h
end

/-! ## A variable for a word -/

theorem VarLooks.mono {V' : RTy → Addr → Prop} (hm : m.Le m') (hV : ∀ t a, V t a → V' t a) {t a} (h : VarLooks Γ m V W t a) :
    VarLooks Γ m' V' W t a := by
  have box : ∀ {t w}, BoxLooks Γ V W t w → BoxLooks Γ V' W t w := fun h =>
    ⟨h.1, h.2.imp (fun ⟨h1, a, h2, h3⟩ => ⟨h1, a, h2, hV _ _ h3⟩) id⟩
  cases h with
  | prim h => exact .prim (hm _ _ h)
  | nilPtr h => exact .nilPtr (hm _ _ h)
  | ptr h h1 => exact .ptr (hm _ _ h) (hV _ _ h1)
  | nilSlice h => exact .nilSlice (hm _ _ h)
  | slice h h1 => exact .slice (hm _ _ h) (fun i hi => hV _ _ (h1 i hi))
  | array h1 => exact .array (fun i hi => hV _ _ (h1 i hi))
  | struct h1 => exact .struct (fun j f hf => hV _ _ (h1 j f hf))
  | nilMap h => exact .nilMap (hm _ _ h)
  | map h h1 h2 => exact .map (hm _ _ h) (hm _ _ h1) (fun x hx => ⟨hV _ _ (h2 x hx).1, hV _ _ (h2 x hx).2⟩)
  | nilEface h0 h => exact .nilEface h0 (hm _ _ h)
  | eface h0 h hu h1 => exact .eface h0 (hm _ _ h) hu (box h1)
  | nilIface h0 h => exact .nilIface h0 (hm _ _ h)
  | iface h0 h hu hi h1 => exact .iface h0 (hm _ _ h) hu hi (box h1)
  | named h => exact .named (hV _ _ h)
  | func h => exact .func (hm _ _ h)

theorem WordLooks.mono {V' : RTy → Addr → Prop} (hm : m.Le m') (hV : ∀ t a, V t a → V' t a) {t w} (h : WordLooks Γ m V W t w) :
    WordLooks Γ m' V' W t w := by
  cases h with
  | nilPtr => exact .nilPtr
  | ptr h => exact .ptr (hV _ _ h)
  | nilMap => exact .nilMap
  | map h h1 => exact .map (hm _ _ h) (fun x hx => ⟨hV _ _ (h1 x hx).1, hV _ _ (h1 x hx).2⟩)
  | array h => exact .array h
  | struct h h1 => exact .struct h h1
  | named h => exact .named h
  | func => exact .func

/-- The variables, with a new one at `b`. -/
def withWord (V : RTy → Addr → Prop) (W : RTy → Ptr → Prop) (b : Addr) (w : Ptr) (t : RTy) (a : Addr) : Prop :=
  V t a ∨ (a = b ∧ W t w)

theorem WellTyped.add (L : Γ.Lawful) (T : WellTyped Γ m V W) {b w} (hb : m b = none) :
    WellTyped Γ (m.add b (.ptr w)) (withWord V W b w) W := by
  have hm := Memory.le_add (.ptr w) hb
  have hs := Memory.add_self m b (.ptr w)
  refine ⟨fun t a h => ?_, fun t w' h => (T.word t w' h).mono hm (fun _ _ => .inl)⟩
  rcases h with h | ⟨rfl, h⟩
  · exact (T.var t a h).mono hm (fun _ _ => .inl)
  · cases T.word t w h with
    | nilPtr => exact .nilPtr hs
    | ptr h1 => exact .ptr hs (.inl h1)
    | nilMap => exact .nilMap hs
    | map h1 h2 => exact .map hs (hm _ _ h1) (fun x hx => ⟨.inl (h2 x hx).1, .inl (h2 x hx).2⟩)
    | array h1 =>
      refine .array (fun i hi => ?_)
      have : i = 0 := by omega
      subst this
      exact .inr ⟨by simp, h1⟩
    | struct h1 h2 =>
      refine .struct (fun j f hf => ?_)
      rw [h1] at hf
      match j, hf with
      | 0, hf => cases hf; exact .inr ⟨by rw [L.offsetFirst]; rfl, h2⟩
      | j + 1, hf => simp at hf
    | named h1 => exact .named (.inr ⟨rfl, h1⟩)
    | func => exact .func hs

/-! ## Typed variables by their kind -/

theorem VarLooks.at_core (L : Γ.Lawful) (T : WellTyped Γ m V W) {t a c} (hc : Γ.core t = c) (h : V t a) : VarLooks Γ m V W c a := by
  subst hc
  cases t with
  | named i =>
    cases T.var _ _ h with
    | named h1 => exact T.var _ _ h1
  | _ => exact T.var _ _ h

theorem WordLooks.at_core (L : Γ.Lawful) (T : WellTyped Γ m V W) {t w c} (hc : Γ.core t = c) (h : W t w) : WordLooks Γ m V W c w := by
  subst hc
  cases t with
  | named i =>
    cases T.word _ _ h with
    | named h1 => exact T.word _ _ h1
  | _ => exact T.word _ _ h

theorem holds_prim (L : Γ.Lawful) (T : WellTyped Γ m V W) {t a k} (hc : Γ.core t = .prim k) (h : V t a) : ∃ v, Holds Γ m t a v := by
  cases VarLooks.at_core L T hc h with
  | prim h1 => exact ⟨_, holds_core.2 (by rw [hc]; exact .prim h1)⟩

theorem holdElems_of {t n} : ∀ {a}, (∀ i : Nat, i < n → ∃ v, Holds Γ m t (a + i * Γ.size t) v) → ∃ vs, HoldElems Γ m t a n vs := by
  induction n with
  | zero => intro a _; exact ⟨[], .nil⟩
  | succ n ih =>
    intro a h
    obtain ⟨v, hv⟩ := h 0 (by omega)
    obtain ⟨vs, hvs⟩ := @ih (a + Γ.size t) (fun i hi => by
      have := h (i + 1) (by omega)
      rw [Nat.succ_mul] at this
      rw [Nat.add_assoc, Nat.add_comm (Γ.size t)]
      exact this)
    exact ⟨v :: vs, .cons (by simpa using hv) hvs⟩

theorem holdFields_of {i a ts} : ∀ {j}, (∀ n f, ts[n]? = some f → ∃ v, Holds Γ m f (a + Γ.offset i (j + n)) v) →
    ∃ vs, HoldFields Γ m i a j ts vs := by
  induction ts with
  | nil => intro j _; exact ⟨[], .nil⟩
  | cons t ts ih =>
    intro j h
    obtain ⟨v, hv⟩ := h 0 t rfl
    obtain ⟨vs, hvs⟩ := @ih (j + 1) (fun n f hf => by
      have := h (n + 1) f (by simpa using hf)
      rw [Nat.add_assoc, Nat.add_comm 1]
      exact this)
    exact ⟨v :: vs, .cons (by simpa using hv) hvs⟩

theorem holdEntries_of {k t es} (h : ∀ x ∈ es, (∃ v, Holds Γ m k x.1 v) ∧ ∃ v, Holds Γ m t x.2 v) : ∃ vs, HoldEntries Γ m k t es vs := by
  induction es with
  | nil => exact ⟨[], .nil⟩
  | cons x es ih =>
    obtain ⟨⟨v, hv⟩, v', hv'⟩ := h x (List.mem_cons_self ..)
    obtain ⟨vs, hvs⟩ := ih (fun y hy => h y (List.mem_cons_of_mem _ hy))
    exact ⟨(v, v') :: vs, .cons hv hv' hvs⟩

/-- A slice of bytes. -/
theorem holds_bytes (L : Γ.Lawful) (T : WellTyped Γ m V W) {t e a} (hc : Γ.core t = .slice e) (he : Γ.core e = .prim .uint8) (h : V t a) :
    ∃ v, Holds Γ m t a v := by
  cases VarLooks.at_core L T hc h with
  | nilSlice h1 => exact ⟨_, holds_core.2 (by rw [hc]; exact .nilSlice h1)⟩
  | slice h1 h2 =>
    obtain ⟨vs, hvs⟩ := holdElems_of (fun i hi => holds_prim L T he (h2 i hi))
    exact ⟨_, holds_core.2 (by rw [hc]; exact .slice h1 hvs)⟩

/-- Keys without method. -/
theorem holds_key (L : Γ.Lawful) (T : WellTyped Γ m V W) {t a k} (hk : Γ.keyEnc t = some k) (ht : Γ.text t = false) (h : V t a) :
    ∃ v, Holds Γ m t a v := by
  unfold Types.keyEnc at hk
  split at hk
  · next hc => exact holds_prim L T hc h
  · rw [ht] at hk
    simp only [Bool.false_eq_true, if_false] at hk
    split at hk
    · next hc => exact holds_prim L T hc h
    · next hc => exact holds_prim L T hc h
    · cases hk

theorem byKind_not (K : Γ.ByKind) {t} (hu : Γ.used t) : Γ.way t ≠ .custom ∧ Γ.way t ≠ .json ∧ Γ.way t ≠ .text := by
  rcases K.way t hu with h | h | h <;> rw [h] <;> simp

theorem kindCustom_none (K : Γ.ByKind) (t : RTy) : Γ.kindCustom t = none := by
  cases h : Γ.kindCustom t with
  | none => rfl
  | some k => have := (kindCustom_core h).2.2; rw [K.custom] at this; cases this

/-- The encoder of a type that is written as its kind says. -/
inductive KindPick (Γ : Types) (t : RTy) : Enc → Prop
  | number : Γ.core t = .prim .string → KindPick Γ t (.special .number)
  | raw : Γ.core t = .slice (.prim .uint8) → KindPick Γ t (.special .raw)
  | ptr {e} : Γ.core t = .ptr e → KindPick Γ t (.ptr e)
  | prim {k} : Γ.core t = .prim k → KindPick Γ t (.prim k)
  | emptyArray {e} : Γ.core t = .array 0 e → KindPick Γ t .emptyArray
  | array {n e} : Γ.core t = .array n e → KindPick Γ t (.array n e)
  | eface {i} : Γ.core t = .iface i → Γ.methods i = false → KindPick Γ t .eface
  | iface {i} : Γ.core t = .iface i → Γ.methods i = true → KindPick Γ t .iface
  | map {k e ke} : Γ.core t = .map k e → Γ.keyEnc k = some ke → Γ.text k = false → KindPick Γ t (.map ke e)
  | base64 {e} : Γ.core t = .slice e → Γ.core e = .prim .uint8 → KindPick Γ t .base64
  | slice {e} : Γ.core t = .slice e → KindPick Γ t (.slice e)
  | emptyStruct {i} : Γ.core t = .struct i → Γ.fields i = [] → KindPick Γ t .emptyStruct
  | struct {i} : Γ.core t = .struct i → KindPick Γ t (.struct t)

theorem kindPick (L : Γ.Lawful) (K : Γ.ByKind) {t} (hu : Γ.used t) : KindPick Γ t (Γ.internalEnc t) := by
  have hp := pick L t
  obtain ⟨n1, n2, n3⟩ := byKind_not K hu
  generalize Γ.internalEnc t = e at hp
  cases hp with
  | custom h => exact absurd h n1
  | special h =>
    rcases K.way t hu with h1 | h1 | h1
    · rw [h1] at h; cases h
    · rw [h1] at h; cases h; exact .number (L.number _ (way_special h1).1)
    · rw [h1] at h; cases h; exact .raw (L.raw _ (way_special h1).1)
  | json h | jsonDirect h | jsonPtr h => exact absurd h n2
  | text h | textDirect h | textPtr h => exact absurd h n3
  | through h => exact .ptr (through_core h)
  | kindCustom h => rw [kindCustom_none K] at h; cases h
  | prim _ _ h => exact .prim h
  | emptyArray _ h => exact .emptyArray h
  | array _ h _ => exact .array h
  | eface _ h h1 => exact .eface h h1
  | iface _ h h1 => exact .iface h h1
  | map _ h h1 _ => exact .map h h1 (K.key t _ _ hu h)
  | base64 _ h h1 =>
    refine .base64 h ?_
    simp [Types.byteLike] at h1
    exact h1.1.1.1
  | slice _ h _ => exact .slice h
  | emptyStruct _ h h1 =>
    next i _ =>
    refine .emptyStruct h ?_
    cases hf : Γ.fields i with
    | nil => rfl
    | cons f fs =>
      obtain ⟨_, d, hd, _⟩ := K.written t i 0 f hu h (by rw [hf]; rfl)
      rw [h1] at hd; cases hd
  | struct _ h _ => exact .struct h
  | notSupported h => rw [K.supported t hu] at h; cases h

/-! ## Empty values are finite -/

theorem holds_empty (L : Γ.Lawful) (K : Γ.ByKind) (T : WellTyped Γ m V W) {t a} (hu : Γ.used t) (hv : V t a)
    (h : IsEmpty Γ m (Γ.internalEnc t) a (some true)) : ∃ v, Holds Γ m t a v := by
  have hp := kindPick L K hu
  generalize Γ.internalEnc t = e at hp h
  have core : ∀ {c v}, Γ.core t = c → Holds Γ m c a v → ∃ v, Holds Γ m t a v := fun hc h => ⟨_, holds_core.2 (by rw [hc]; exact h)⟩
  have hslice : ∀ {e}, Γ.core t = .slice e → ∀ {b n}, m a = some (.slice b n) → (n == 0) = true → ∃ v, Holds Γ m t a v := by
    intro e hc b n h1 h2
    have : n = 0 := by simpa using h2
    subst this
    cases VarLooks.at_core L T hc hv with
    | nilSlice h3 => exact core hc (.nilSlice h3)
    | slice h3 _ => rw [h3] at h1; cases h1; exact core hc (.slice h3 .nil)
  cases hp with
  | number hc => exact holds_prim L T hc hv
  | raw hc => exact holds_bytes L T hc rfl hv
  | ptr hc =>
    cases VarLooks.at_core L T hc hv with
    | nilPtr h1 => exact core hc (.nilPtr h1)
    | ptr h1 _ =>
      generalize hr : some true = r at h
      cases h with
      | ptr h2 => rw [h1] at h2; cases h2; cases hr
  | prim hc => exact holds_prim L T hc hv
  | emptyArray hc => exact core hc (.array .nil)
  | array hc => cases h
  | eface hc hm =>
    generalize hr : some true = r at h
    cases h with
    | eface h2 =>
      next x =>
      cases x with
      | none => exact core hc (.nilEface hm h2)
      | some _ => cases hr
  | iface hc hm =>
    generalize hr : some true = r at h
    cases h with
    | iface h2 =>
      next x =>
      cases x with
      | none => exact core hc (.nilIface hm h2)
      | some _ => cases hr
  | map hc _ _ =>
    generalize hr : some true = r at h
    cases h with
    | mapNil h1 => exact core hc (.nilMap h1)
    | map h1 h2 =>
      next es =>
      cases es with
      | nil => exact core hc (.map h1 h2 .nil)
      | cons _ _ => cases hr
  | base64 hc he => exact holds_bytes L T hc he hv
  | slice hc =>
    generalize hr : some true = r at h
    cases h with
    | slice h1 => exact hslice hc h1 (Option.some.inj hr).symm
  | emptyStruct hc hf => exact core hc (.struct (vs := []) (by rw [hf]; exact .nil))
  | struct hc => cases h

/-! ## What is written is finite -/

/-- The value that an encoder has written is finite. -/
structure Ends (Γ : Types) (m : Memory) (e : Enc) (w : Ptr) : Prop where
  internal : ∀ V W, WellTyped Γ m V W → ∀ t a, Γ.internalEnc t = e → w = some a → Γ.used t → V t a → ∃ v, Holds Γ m t a v
  root : ∀ V W, WellTyped Γ m V W → ∀ t, Γ.rootEnc t = e → Γ.used t → BoxLooks Γ V W t w → ∃ v, Boxed Γ m t w v

theorem Ends.of (L : Γ.Lawful) (C : Γ.Closed) (K : Γ.ByKind) {e w} (hd : ∀ e', e ≠ .direct e')
    (hi : ∀ V W, WellTyped Γ m V W → ∀ t a, Γ.internalEnc t = e → w = some a → Γ.used t → V t a → ∃ v, Holds Γ m t a v) :
    Ends Γ m e w := by
  refine ⟨hi, fun V W T t he hu hb => ?_⟩
  have indirect : Γ.direct t = false → Γ.internalEnc t = e → ∃ v, Boxed Γ m t w v := fun h1 h2 => by
    rcases hb.2 with ⟨_, a, ha, h3⟩ | ⟨h3, _⟩
    · obtain ⟨v, hv⟩ := hi V W T t a h2 ha hu h3
      subst ha
      exact ⟨v, .pointer hb.1 h1 hv⟩
    · rw [h1] at h3; cases h3
  have hp := kindPick L K hu
  have hr := he
  unfold Types.rootEnc at hr
  generalize hie : Γ.internalEnc t = e' at hp hr indirect
  cases hp with
  | number hc => exact indirect (by rw [direct_core L, hc, L.directPrim]) hr
  | raw hc => exact indirect (by rw [direct_core L, hc, L.directSlice]) hr
  | ptr hc =>
    simp only at hr
    have hdt : Γ.direct t = true := by rw [direct_core L, hc, L.directPtr]
    rcases hb.2 with ⟨h3, _⟩ | ⟨_, h3⟩
    · rw [hdt] at h3; cases h3
    · cases WordLooks.at_core L T hc h3 with
      | nilPtr => exact ⟨_, .word hb.1 hdt (direct_word_core.2 (by rw [hc]; exact .nilPtr))⟩
      | ptr h4 =>
        obtain ⟨v, hv⟩ := hi V W T _ _ hr rfl (C.ptr _ _ hu hc) h4
        exact ⟨_, .word hb.1 hdt (direct_word_core.2 (by rw [hc]; exact .ptr hv))⟩
  | prim hc => exact indirect (by rw [direct_core L, hc, L.directPrim]) hr
  | emptyArray hc => exact indirect (by rw [direct_core L, hc, ← Bool.not_eq_true, L.directArray]; simp) hr
  | array hc | struct hc =>
    simp only at hr
    split at hr
    · exact absurd hr.symm (hd _)
    · next h1 => exact indirect (by simpa using h1) hr
  | eface hc _ | iface hc _ => exact indirect (by rw [direct_core L, hc, L.directIface]) hr
  | map => exact absurd hr.symm (hd _)
  | base64 hc _ | slice hc => exact indirect (by rw [direct_core L, hc, L.directSlice]) hr
  | emptyStruct hc hf => exact indirect (by rw [direct_core L, hc, ← Bool.not_eq_true, L.directStruct, hf]; simp) hr

mutual
theorem Run.ends (L : Γ.Lawful) (C : Γ.Closed) (K : Γ.ByKind) {m q e w o} : Run Γ m q e w o → Ends Γ m e w
  | .null hn => by
    have hd : ∀ e', e ≠ .direct e' := fun e' h => by subst h; cases hn
    exact Ends.of L C K hd (fun _ _ _ _ _ _ h => by cases h)
  | .custom _ => Ends.of L C K nofun (fun V W T t a he _ hu _ => by have := kindPick L K hu; rw [he] at this; cases this)
  | .customNil => Ends.of L C K nofun (fun _ _ _ _ _ _ h => by cases h)
  | .number _ => Ends.of L C K nofun (fun V W T t a he _ hu hv => by
      have := kindPick L K hu; rw [he] at this
      cases this with
      | number hc => exact holds_prim L T hc hv)
  | .rawNil _ => Ends.of L C K nofun (fun V W T t a he _ hu hv => by
      have := kindPick L K hu; rw [he] at this
      cases this with
      | raw hc => exact holds_bytes L T hc rfl hv)
  | .raw _ _ => Ends.of L C K nofun (fun V W T t a he _ hu hv => by
      have := kindPick L K hu; rw [he] at this
      cases this with
      | raw hc => exact holds_bytes L T hc rfl hv)
  | .dynJSONNil _ => Ends.of L C K nofun (fun V W T t a he _ hu _ => by have := kindPick L K hu; rw [he] at this; cases this)
  | .dynJSON _ _ => Ends.of L C K nofun (fun V W T t a he _ hu _ => by have := kindPick L K hu; rw [he] at this; cases this)
  | .dynTextPanic => Ends.of L C K nofun (fun _ _ _ _ _ _ h => by cases h)
  | .dynTextNil _ => Ends.of L C K nofun (fun V W T t a he _ hu _ => by have := kindPick L K hu; rw [he] at this; cases this)
  | .dynText _ _ => Ends.of L C K nofun (fun V W T t a he _ hu _ => by have := kindPick L K hu; rw [he] at this; cases this)
  | .jsonMarshaler _ => Ends.of L C K nofun (fun V W T t a he _ hu _ => by have := kindPick L K hu; rw [he] at this; cases this)
  | .directJSONMarshaler _ _ => Ends.of L C K nofun (fun V W T t a he _ hu _ => by have := kindPick L K hu; rw [he] at this; cases this)
  | .pointerJSONNil _ => Ends.of L C K nofun (fun V W T t a he _ hu _ => by have := kindPick L K hu; rw [he] at this; cases this)
  | .pointerJSON _ _ => Ends.of L C K nofun (fun V W T t a he _ hu _ => by have := kindPick L K hu; rw [he] at this; cases this)
  | .textMarshaler _ => Ends.of L C K nofun (fun V W T t a he _ hu _ => by have := kindPick L K hu; rw [he] at this; cases this)
  | .directTextMarshaler _ _ => Ends.of L C K nofun (fun V W T t a he _ hu _ => by have := kindPick L K hu; rw [he] at this; cases this)
  | .pointerTextNil _ => Ends.of L C K nofun (fun V W T t a he _ hu _ => by have := kindPick L K hu; rw [he] at this; cases this)
  | .pointerText _ _ => Ends.of L C K nofun (fun V W T t a he _ hu _ => by have := kindPick L K hu; rw [he] at this; cases this)
  | .prim _ => Ends.of L C K nofun (fun V W T t a he _ hu hv => by
      have := kindPick L K hu; rw [he] at this
      cases this with
      | prim hc => exact holds_prim L T hc hv)
  | .ptr h h1 => by
    have ih := h1.ends L C K
    refine Ends.of L C K nofun (fun V W T t a he ha hu hv => ?_)
    cases ha
    have := kindPick L K hu; rw [he] at this
    cases this with
    | ptr hc =>
      cases VarLooks.at_core L T hc hv with
      | nilPtr h2 => exact ⟨_, holds_core.2 (by rw [hc]; exact .nilPtr h2)⟩
      | ptr h2 h3 =>
        rw [h2] at h
        cases h
        obtain ⟨v, hv'⟩ := ih.internal V W T _ _ rfl rfl (C.ptr _ _ hu hc) h3
        exact ⟨_, holds_core.2 (by rw [hc]; exact .ptr h2 hv')⟩
  | .emptyArray => Ends.of L C K nofun (fun V W T t a he _ hu hv => by
      have := kindPick L K hu; rw [he] at this
      cases this with
      | emptyArray hc => exact ⟨_, holds_core.2 (by rw [hc]; exact .array .nil)⟩)
  | .array h1 => by
    have ih := h1.ends L C K
    refine Ends.of L C K nofun (fun V W T t a he ha hu hv => ?_)
    cases ha
    have := kindPick L K hu; rw [he] at this
    cases this with
    | array hc =>
      cases VarLooks.at_core L T hc hv with
      | array h2 =>
        obtain ⟨vs, hvs⟩ := ih V W T _ rfl rfl (C.array _ _ _ hu hc) h2
        exact ⟨_, holds_core.2 (by rw [hc]; exact .array hvs)⟩
  | .efaceNil h => Ends.of L C K nofun (fun V W T t a he ha hu hv => by
      cases ha
      have := kindPick L K hu; rw [he] at this
      cases this with
      | eface hc hm => exact ⟨_, holds_core.2 (by rw [hc]; exact .nilEface hm h)⟩)
  | .eface h h1 => by
    have ih := h1.ends L C K
    refine Ends.of L C K nofun (fun V W T t a he ha hu hv => ?_)
    cases ha
    have := kindPick L K hu; rw [he] at this
    cases this with
    | eface hc hm =>
      cases VarLooks.at_core L T hc hv with
      | nilEface _ h2 => rw [h2] at h; cases h
      | eface _ h2 hu' h3 =>
        rw [h2] at h
        cases h
        obtain ⟨v, hv'⟩ := ih.root V W T _ rfl hu' h3
        exact ⟨_, holds_core.2 (by rw [hc]; exact .eface hm h2 hu' hv')⟩
      | nilIface h2 | iface h2 => rw [hm] at h2; cases h2
  | .ifaceNil h => Ends.of L C K nofun (fun V W T t a he ha hu hv => by
      cases ha
      have := kindPick L K hu; rw [he] at this
      cases this with
      | iface hc hm => exact ⟨_, holds_core.2 (by rw [hc]; exact .nilIface hm h)⟩)
  | .iface h h1 => by
    have ih := h1.ends L C K
    refine Ends.of L C K nofun (fun V W T t a he ha hu hv => ?_)
    cases ha
    have := kindPick L K hu; rw [he] at this
    cases this with
    | iface hc hm =>
      cases VarLooks.at_core L T hc hv with
      | nilIface _ h2 => rw [h2] at h; cases h
      | iface _ h2 hu' hi h3 =>
        rw [h2] at h
        cases h
        obtain ⟨v, hv'⟩ := ih.root V W T _ rfl hu' h3
        exact ⟨_, holds_core.2 (by rw [hc]; exact .iface hm h2 hu' hi hv')⟩
      | nilEface h2 | eface h2 => rw [hm] at h2; cases h2
  | .base64Nil _ => Ends.of L C K nofun (fun V W T t a he _ hu hv => by
      have := kindPick L K hu; rw [he] at this
      cases this with
      | base64 hc h1 => exact holds_bytes L T hc h1 hv)
  | .base64 _ _ => Ends.of L C K nofun (fun V W T t a he _ hu hv => by
      have := kindPick L K hu; rw [he] at this
      cases this with
      | base64 hc h1 => exact holds_bytes L T hc h1 hv)
  | .sliceNil h => Ends.of L C K nofun (fun V W T t a he ha hu hv => by
      cases ha
      have := kindPick L K hu; rw [he] at this
      cases this with
      | slice hc =>
        cases VarLooks.at_core L T hc hv with
        | nilSlice h2 => exact ⟨_, holds_core.2 (by rw [hc]; exact .nilSlice h2)⟩
        | slice h2 _ => rw [h2] at h; cases h)
  | .slice h h1 => by
    have ih := h1.ends L C K
    refine Ends.of L C K nofun (fun V W T t a he ha hu hv => ?_)
    cases ha
    have := kindPick L K hu; rw [he] at this
    cases this with
    | slice hc =>
      cases VarLooks.at_core L T hc hv with
      | nilSlice h2 => rw [h2] at h; cases h
      | slice h2 h3 =>
        rw [h2] at h
        cases h
        obtain ⟨vs, hvs⟩ := ih V W T _ rfl rfl (C.slice _ _ hu hc) h3
        exact ⟨_, holds_core.2 (by rw [hc]; exact .slice h2 hvs)⟩
  | .mapNil h => Ends.of L C K nofun (fun V W T t a he ha hu hv => by
      cases ha
      have := kindPick L K hu; rw [he] at this
      cases this with
      | map hc _ _ => exact ⟨_, holds_core.2 (by rw [hc]; exact .nilMap h)⟩)
  | .map h h0 h1 => by
    have ih := h1.ends L C K
    refine Ends.of L C K nofun (fun V W T t a he ha hu hv => ?_)
    cases ha
    have := kindPick L K hu; rw [he] at this
    cases this with
    | map hc hk ht =>
      cases VarLooks.at_core L T hc hv with
      | nilMap h2 => rw [h2] at h; cases h
      | map h2 h3 h4 =>
        rw [h2] at h
        cases h
        rw [h3] at h0
        cases h0
        obtain ⟨vs, hvs⟩ := holdEntries_of (fun x hx => ⟨holds_key L T hk ht (h4 x hx).1,
          ih V W T _ rfl (C.map _ _ _ hu hc) x hx (h4 x hx).2⟩)
        exact ⟨_, holds_core.2 (by rw [hc]; exact .map h2 h3 hvs)⟩
  | .emptyStruct => Ends.of L C K nofun (fun V W T t a he _ hu hv => by
      have := kindPick L K hu; rw [he] at this
      cases this with
      | emptyStruct hc hf => exact ⟨.list [], holds_core.2 (by rw [hc]; exact .struct (by rw [hf]; exact .nil))⟩)
  | .struct (a := a0) h1 => by
    have ih := h1.ends L C K
    refine Ends.of L C K nofun (fun V W T t a he ha hu hv => ?_)
    cases ha
    have := kindPick L K hu; rw [he] at this
    cases this with
    | struct hc =>
      next i =>
      cases VarLooks.at_core L T hc hv with
      | struct h2 =>
        obtain ⟨vs, hvs⟩ := @holdFields_of Γ m i a0 (Γ.fields i) 0 (fun n f hf => by
          obtain ⟨huf, d, hd, hp⟩ := K.written _ _ _ _ hu hc hf
          rw [Nat.zero_add]
          exact ih V W T i n f hc hf huf (h2 n f hf) d hd hp)
        exact ⟨_, holds_core.2 (by rw [hc]; exact .struct hvs)⟩
  | .direct (e := e') (a := b) hb h1 => by
    have ih := h1.ends L C K
    refine ⟨fun V W T t a he _ hu _ => absurd he (internal_not_direct L t e'), fun V W T t he hu hx => ?_⟩
    obtain ⟨h2, h3⟩ := root_direct L he
    rcases hx.2 with ⟨h4, _⟩ | ⟨_, h4⟩
    · rw [h3] at h4; cases h4
    · obtain ⟨v, hv⟩ := ih.internal _ _ (T.add L hb) t b h2.symm rfl hu (.inr ⟨rfl, h4⟩)
      obtain ⟨w', h5, h6⟩ := hv.word L h3
      rw [Memory.add_self] at h5
      cases h5
      exact ⟨v, .word hx.1 h3 (h6.shrink T (Memory.le_add _ hb) h4)⟩
  | .notSupported => Ends.of L C K nofun (fun V W T t a he _ hu _ => by have := kindPick L K hu; rw [he] at this; cases this)
termination_by structural h => h
theorem RunElems.ends (L : Γ.Lawful) (C : Γ.Closed) (K : Γ.ByKind) {m e size a n os} : RunElems Γ m e size a n os →
    ∀ V W, WellTyped Γ m V W → ∀ t, Γ.elemEnc t = e → Γ.size t = size → Γ.used t → (∀ i : Nat, i < n → V t (a + i * Γ.size t)) →
      ∃ vs, HoldElems Γ m t a n vs
  | .nil, _, _, _, _, _, _, _, _ => ⟨[], .nil⟩
  | .cons h h1, V, W, T, t, he, hs, hu, hv => by
    have ih := h.ends L C K
    have ih1 := h1.ends L C K
    obtain ⟨v, h2⟩ := ih.internal V W T t _ (by rw [← elem_like L (K.like t hu)]; exact he) rfl hu (by simpa using hv 0 (by omega))
    obtain ⟨vs, h3⟩ := ih1 V W T t he hs hu (fun i hi => by
      have := hv (i + 1) (by omega)
      rw [Nat.succ_mul] at this
      rw [← hs, Nat.add_assoc, Nat.add_comm (Γ.size t)]
      exact this)
    subst hs
    exact ⟨v :: vs, .cons h2 h3⟩
termination_by structural h => h
theorem RunEntries.ends (L : Γ.Lawful) (C : Γ.Closed) (K : Γ.ByKind) {m k e es os} : RunEntries Γ m k e es os →
    ∀ V W, WellTyped Γ m V W → ∀ t, Γ.internalEnc t = e → Γ.used t → ∀ x ∈ es, V t x.2 → ∃ v, Holds Γ m t x.2 v
  | .nil, _, _, _, _, _, _, _, hx, _ => by cases hx
  | .cons _ h h1, V, W, T, t, he, hu, x, hx, hv => by
    have ih := h.ends L C K
    have ih1 := h1.ends L C K
    cases hx with
    | head => exact ih.internal V W T t _ he rfl hu hv
    | tail _ hx => exact ih1 V W T t he hu x hx hv
termination_by structural h => h
theorem RunFields.ends (L : Γ.Lawful) (C : Γ.Closed) (K : Γ.ByKind) {m t a ds os} : RunFields Γ m t a ds os →
    ∀ V W, WellTyped Γ m V W → ∀ i j f, Γ.core t = .struct i → (Γ.fields i)[j]? = some f → Γ.used f → V f (a + Γ.offset i j) →
      ∀ d ∈ ds, d.path = [j] → ∃ v, Holds Γ m f (a + Γ.offset i j) v
  | .nil, _, _, _, _, _, _, _, _, _, _, _, hd, _ => by cases hd
  | .skip h0 h h1, V, W, T, i, j, f, hc, hf, hu, hv, d, hd, hp => by
    have ih := h1.ends L C K
    cases hd with
    | head =>
      rw [hp] at h0
      simp [Types.offsets, hc, hf] at h0
      obtain ⟨⟨_, rfl⟩, _⟩ := h0
      simp [locate] at h
    | tail _ hd => exact ih V W T i j f hc hf hu hv d hd hp
  | .panic h0 h _ h2 h1, V, W, T, i, j, f, hc, hf, hu, hv, d, hd, hp => by
    have ih := h1.ends L C K
    cases hd with
    | head =>
      rw [hp] at h0
      simp [Types.offsets, hc, hf] at h0
      obtain ⟨⟨_, rfl⟩, rfl⟩ := h0
      rw [elem_like L (K.like _ hu)] at h2
      have h3 := kindPick L K hu
      generalize Γ.internalEnc f = e at h2 h3
      cases h3 <;> cases h2
    | tail _ hd => exact ih V W T i j f hc hf hu hv d hd hp
  | .omitted h0 h _ h2 h1, V, W, T, i, j, f, hc, hf, hu, hv, d, hd, hp => by
    have ih := h1.ends L C K
    cases hd with
    | head =>
      rw [hp] at h0
      simp [Types.offsets, hc, hf] at h0
      obtain ⟨⟨rfl, rfl⟩, rfl⟩ := h0
      simp [locate] at h
      subst h
      rw [elem_like L (K.like _ hu)] at h2
      exact holds_empty L K T hu hv h2
    | tail _ hd => exact ih V W T i j f hc hf hu hv d hd hp
  | .field h0 h _ h2 h1, V, W, T, i, j, f, hc, hf, hu, hv, d, hd, hp => by
    have ih0 := h2.ends L C K
    have ih := h1.ends L C K
    cases hd with
    | head =>
      rw [hp] at h0
      simp [Types.offsets, hc, hf] at h0
      obtain ⟨⟨rfl, rfl⟩, rfl⟩ := h0
      simp [locate] at h
      subst h
      exact ih0.internal V W T _ _ (elem_like L (K.like _ hu)).symm rfl hu hv
    | tail _ hd => exact ih V W T i j f hc hf hu hv d hd hp
termination_by structural h => h
end

/-! ## Parts are smaller -/

theorem HoldElems.get {t a n vs} (h : HoldElems Γ m t a n vs) {i} (hi : i < n) : ∃ v ∈ vs, Holds Γ m t (a + i * Γ.size t) v := by
  induction n generalizing a vs i with
  | zero => omega
  | succ n ih =>
    cases h with
    | cons h1 h2 =>
      cases i with
      | zero => exact ⟨_, List.mem_cons_self .., by simpa using h1⟩
      | succ i =>
        obtain ⟨v, hv, h3⟩ := ih h2 (i := i) (by omega)
        refine ⟨v, List.mem_cons_of_mem _ hv, ?_⟩
        rw [Nat.succ_mul]
        rw [Nat.add_assoc, Nat.add_comm (Γ.size t)] at h3
        exact h3

theorem HoldEntries.get {k t es vs} (h : HoldEntries Γ m k t es vs) {x} (hx : x ∈ es) :
    ∃ y ∈ vs, Holds Γ m k x.1 y.1 ∧ Holds Γ m t x.2 y.2 := by
  induction es generalizing vs with
  | nil => cases hx
  | cons e es ih =>
    cases h with
    | cons h1 h2 h3 =>
      cases hx with
      | head => exact ⟨_, List.mem_cons_self .., h1, h2⟩
      | tail _ hx =>
        obtain ⟨y, hy, h4⟩ := ih h3 hx
        exact ⟨y, List.mem_cons_of_mem _ hy, h4⟩

theorem WordPart.smaller {t w y v} (h : WordPart Γ m t w y) : Direct Γ m t w v → ∃ v', Holds Γ m y.1 y.2 v' ∧ sizeOf v' < sizeOf v := by
  induction h generalizing v with
  | ptr hc =>
    intro hv
    replace hv := direct_word_core.1 hv
    rw [hc] at hv
    cases hv with
    | ptr h => exact ⟨_, h, by simp⟩
  | key hc hb hx =>
    intro hv
    replace hv := direct_word_core.1 hv
    rw [hc] at hv
    cases hv with
    | map h h1 =>
      rw [hb] at h; cases h
      obtain ⟨y, hy, h2, h3⟩ := h1.get hx
      refine ⟨_, h2, ?_⟩
      have := List.sizeOf_lt_of_mem hy
      have : sizeOf y = 1 + sizeOf y.1 + sizeOf y.2 := rfl
      simp; omega
  | elem hc hb hx =>
    intro hv
    replace hv := direct_word_core.1 hv
    rw [hc] at hv
    cases hv with
    | map h h1 =>
      rw [hb] at h; cases h
      obtain ⟨y, hy, h2, h3⟩ := h1.get hx
      refine ⟨_, h3, ?_⟩
      have := List.sizeOf_lt_of_mem hy
      have : sizeOf y = 1 + sizeOf y.1 + sizeOf y.2 := rfl
      simp; omega
  | array hc _ ih =>
    intro hv
    replace hv := direct_word_core.1 hv
    rw [hc] at hv
    cases hv with
    | array h =>
      obtain ⟨v', h1, h2⟩ := ih h
      exact ⟨v', h1, by simp; omega⟩
  | struct hc hf _ ih =>
    intro hv
    replace hv := direct_word_core.1 hv
    rw [hc] at hv
    cases hv with
    | struct h0 _ h =>
      rw [hf] at h0; cases h0
      obtain ⟨v', h1, h2⟩ := ih h
      exact ⟨v', h1, by simp; omega⟩

theorem BoxPart.smaller {t w y v} (h : BoxPart Γ m t w y) (hv : Boxed Γ m t w v) :
    ∃ v', Holds Γ m y.1 y.2 v' ∧ sizeOf v' ≤ sizeOf v := by
  cases h with
  | pointer hd =>
    cases hv with
    | pointer _ _ h => exact ⟨v, h, Nat.le_refl _⟩
    | word _ h => rw [hd] at h; cases h
  | word hd h =>
    cases hv with
    | pointer _ h1 => rw [hd] at h1; cases h1
    | word _ _ h1 =>
      obtain ⟨v', h2, h3⟩ := h.smaller h1
      exact ⟨v', h2, by omega⟩

theorem Part.smaller {x y : RTy × Addr} {v} (h : Part Γ m x y) (hv : Holds Γ m x.1 x.2 v) :
    ∃ v', Holds Γ m y.1 y.2 v' ∧ sizeOf v' < sizeOf v := by
  replace hv := holds_core.1 hv
  cases h with
  | ptr hc ha =>
    rw [hc] at hv
    cases hv with
    | nilPtr h => rw [ha] at h; cases h
    | ptr h h1 => rw [ha] at h; cases h; exact ⟨_, h1, by simp⟩
  | slice hc ha hi =>
    rw [hc] at hv
    cases hv with
    | nilSlice h => rw [ha] at h; cases h
    | slice h h1 =>
      rw [ha] at h; cases h
      obtain ⟨v', hm, h2⟩ := h1.get hi
      have := List.sizeOf_lt_of_mem hm
      exact ⟨_, h2, by simp; omega⟩
  | array hc hi =>
    rw [hc] at hv
    cases hv with
    | array h1 =>
      obtain ⟨v', hm, h2⟩ := h1.get hi
      have := List.sizeOf_lt_of_mem hm
      exact ⟨_, h2, by simp; omega⟩
  | field hc hf =>
    rw [hc] at hv
    cases hv with
    | struct h1 =>
      obtain ⟨v', hm, h2⟩ := h1.get hf
      have := List.sizeOf_lt_of_mem (List.mem_of_getElem? hm)
      exact ⟨_, by simpa using h2, by simp; omega⟩
  | key hc ha hb hx =>
    rw [hc] at hv
    cases hv with
    | nilMap h => rw [ha] at h; cases h
    | map h h0 h1 =>
      rw [ha] at h; cases h
      rw [hb] at h0; cases h0
      obtain ⟨y, hy, h2, h3⟩ := h1.get hx
      refine ⟨_, h2, ?_⟩
      have := List.sizeOf_lt_of_mem hy
      have : sizeOf y = 1 + sizeOf y.1 + sizeOf y.2 := rfl
      simp; omega
  | elem hc ha hb hx =>
    rw [hc] at hv
    cases hv with
    | nilMap h => rw [ha] at h; cases h
    | map h h0 h1 =>
      rw [ha] at h; cases h
      rw [hb] at h0; cases h0
      obtain ⟨y, hy, h2, h3⟩ := h1.get hx
      refine ⟨_, h3, ?_⟩
      have := List.sizeOf_lt_of_mem hy
      have : sizeOf y = 1 + sizeOf y.1 + sizeOf y.2 := rfl
      simp; omega
  | eface hc ha hp =>
    rw [hc] at hv
    cases hv with
    | nilEface _ h | nilIface _ h | iface _ h => rw [ha] at h; cases h
    | eface _ h _ h1 =>
      rw [ha] at h; cases h
      obtain ⟨v', h2, h3⟩ := hp.smaller h1
      exact ⟨v', h2, by simp; omega⟩
  | iface hc ha hp =>
    rw [hc] at hv
    cases hv with
    | nilEface _ h | nilIface _ h | eface _ h => rw [ha] at h; cases h
    | iface _ h _ _ h1 =>
      rw [ha] at h; cases h
      obtain ⟨v', h2, h3⟩ := hp.smaller h1
      exact ⟨v', h2, by simp; omega⟩

/-- Content that goes on for ever is not finite. -/
theorem not_holds {f : Nat → RTy × Addr} (h : ∀ n, Part Γ m (f n) (f (n + 1))) : ∀ k n v, sizeOf v ≤ k → ¬ Holds Γ m (f n).1 (f n).2 v := by
  intro k
  induction k with
  | zero =>
    intro n v hs hv
    obtain ⟨v', _, h2⟩ := (h n).smaller hv
    omega
  | succ k ih =>
    intro n v hs hv
    obtain ⟨v', h1, h2⟩ := (h n).smaller hv
    exact ih (n + 1) v' (by omega) h1

end Jzon.Words
