import Verif.Spec.Deferred
import Verif.Proof.Reorder

/-!
# Decoding in two steps
-/

set_option linter.unusedSimpArgs false

namespace Jzon

open Spec

/-! ## Texts without repeated names -/

theorem unrepeated_value {apart : List Byte → List Byte → Prop} {t : List Byte} (h : Unrepeated apart t) : IsValue t := by
  induction h with
  | scalar t h _ _ => exact h
  | array t ts h _ ih => exact arrayOf_value h ih
  | object t ms h hk _ _ ih => exact (objectOf_value.mp ⟨ms, h, fun m hm => ⟨hk m hm, ih m hm⟩⟩).1

theorem unrepeated_solid {apart : List Byte → List Byte → Prop} {t : List Byte} (h : Unrepeated apart t) : Solid t :=
  .value (unrepeated_value h).choose_spec

theorem unrepeated_array {apart : List Byte → List Byte → Prop} {t : List Byte} (h : Unrepeated apart t) {ts : List (List Byte)}
    (ht : ArrayOf t ts) (hs : ∀ u ∈ ts, Solid u) : ∀ u ∈ ts, Unrepeated apart u := by
  obtain ⟨x, hx⟩ := enclosed_head ht
  cases h with
  | scalar _ _ ha _ => exact absurd hx (ha x)
  | array _ us h h1 =>
    obtain rfl := arrayOf_same h ht (fun u hu => unrepeated_solid (h1 u hu)) hs
    exact h1
  | object _ ms h _ _ _ =>
    obtain ⟨y, hy⟩ := object_head h
    rw [hx] at hy
    cases hy

theorem unrepeated_object {apart : List Byte → List Byte → Prop} {t : List Byte} (h : Unrepeated apart t) {ms : List (List Byte × List Byte)}
    (ht : ObjectOf t ms) (hs : ∀ m ∈ ms, Solid m.1 ∧ Solid m.2) :
    (∀ m ∈ ms, ∃ s, Str m.1 s) ∧ (ms.Pairwise fun m n => ∀ s s', Str m.1 s → Str n.1 s' → apart s s') ∧ ∀ m ∈ ms, Unrepeated apart m.2 := by
  obtain ⟨x, hx⟩ := object_head ht
  cases h with
  | scalar _ _ _ ho => exact absurd hx (ho x)
  | array _ us h h1 =>
    obtain ⟨y, hy⟩ := enclosed_head h
    rw [hx] at hy
    cases hy
  | object _ us h h1 h2 h3 =>
    obtain rfl := objectOf_same h ht (fun m hm => ⟨.str (h1 m hm).choose_spec, unrepeated_solid (h3 m hm)⟩) hs
    exact ⟨h1, h2, h3⟩

theorem array_texts {t u : List Byte} (h : IsValue t) (hu : t = 0x5B :: u) : ∃ ts, ArrayOf t ts ∧ ∀ x ∈ ts, IsValue x := by
  obtain ⟨v, h⟩ := h
  cases h with
  | arrEmpty w hw => exact ⟨[], .empty w hw, by simp⟩
  | arr b vs hm =>
    obtain ⟨ts, h1, h2⟩ := elems_items_iff.mp hm
    refine ⟨ts, .items b ts h1, fun x hx => ?_⟩
    obtain ⟨v, _, hv⟩ := each_left h2 hx
    exact ⟨v, hv⟩
  | num _ h => exact absurd (hu ▸ h) (not_number_open (.inl rfl))
  | str _ _ h =>
    obtain ⟨b, _, h⟩ := h
    rw [h] at hu
    cases hu
  | _ => cases hu

section
variable {F : Type} {Γ : TyEnv F} {cfg : DecCfg F} {sel : List (List Byte) → List Byte → Nat → Prop} {apart : List Byte → List Byte → Prop}
  {dec : Ty → List Byte → Val F → Prop}

/-! ## Zero values -/

theorem each_replicate {R : Val F → Val F → Prop} {x y : Val F} (h : R x y) (n : Nat) : Each R (List.replicate n x) (List.replicate n y) := by
  induction n with
  | zero => exact .nil
  | succ n ih =>
    rw [List.replicate_succ, List.replicate_succ]
    exact .cons h ih

theorem each_of_replicate {R : Val F → Val F → Prop} {x z : Val F} (h : ∀ y, R x y → y = z) {n : Nat} {ys : List (Val F)}
    (he : Each R (List.replicate n x) ys) : ys = List.replicate n z := by
  induction n generalizing ys with
  | zero =>
    cases he
    rfl
  | succ n ih =>
    rw [List.replicate_succ] at he
    obtain ⟨b, bs, h1, h2, rfl⟩ := each_uncons he
    rw [List.replicate_succ, h _ h1, ih h2]

/-- Only the zero values belong to the zero values. -/
theorem deferred_zero (h0 : ∀ T v, ¬ dec T [] v) {T T' : Ty} {R : Val F → Val F → Prop} (h : Deferred Γ cfg apart dec T T' R) (y : Val F) :
    R (Γ.zero cfg T') y ↔ y = Γ.zero cfg T := by
  induction h generalizing y with
  | same T => exact eq_comm
  | raw T =>
    constructor
    · rintro (⟨s, h, h'⟩ | ⟨_, h⟩)
      · cases h
        exact absurd h' (h0 _ _)
      · exact h
    · rintro rfl
      exact .inr ⟨rfl, rfl⟩
  | ptr T T' R _ _ =>
    constructor
    · rintro (⟨_, h⟩ | ⟨_, _, h, _⟩)
      · exact h
      · cases h
    · rintro rfl
      exact .inl ⟨rfl, rfl⟩
  | slice T T' E E' R _ _ hz hz' _ _ _ =>
    rw [hz, hz']
    constructor
    · rintro (⟨_, h⟩ | ⟨_, _, h, _⟩)
      · exact h
      · cases h
    · rintro rfl
      exact .inl ⟨rfl, rfl⟩
  | map T T' E E' K R _ _ hz hz' _ _ _ =>
    rw [hz, hz']
    constructor
    · rintro (⟨_, h⟩ | ⟨_, _, h, _⟩)
      · exact h
      · cases h
    · rintro rfl
      exact .inl ⟨rfl, rfl⟩
  | array T T' E E' n R _ _ hz hz' _ ih =>
    rw [hz, hz']
    constructor
    · rintro ⟨xs, ys, h, rfl, he⟩
      cases h
      rw [each_of_replicate (fun y => (ih y).mp) he]
    · rintro rfl
      exact ⟨_, _, rfl, rfl, each_replicate ((ih _).mpr rfl) n⟩
  | struct i j fs fs' zs zs' U U' R kept _ _ hz hz' hn h1 h2 _ _ _ _ ih =>
    rw [hz, hz']
    constructor
    · rintro ⟨xs, ys, h, rfl, hl, he⟩
      cases h
      rw [Val.struct.injEq]
      refine List.ext_getElem? fun k => ?_
      by_cases hk : kept k
      · obtain ⟨h3, h4⟩ := h1 k hk
        rw [h4]
        cases hx : zs'[k]? with
        | none =>
          rw [List.getElem?_eq_none_iff] at hx ⊢
          omega
        | some x =>
          cases hy : ys[k]? with
          | none =>
            rw [List.getElem?_eq_none_iff] at hy
            have := (List.getElem?_eq_some_iff.mp hx).1
            omega
          | some y =>
            have := he k x y hx hy
            rw [h3] at this
            rw [this]
      · obtain ⟨h3, h4⟩ := h2 k hk
        cases hy : ys[k]? with
        | none =>
          rw [List.getElem?_eq_none_iff] at hy
          have := (List.getElem?_eq_some_iff.mp h4).1
          omega
        | some y => rw [h3, (ih k hk y).mp (he k _ y h4 hy)]
    · rintro rfl
      refine ⟨_, _, rfl, rfl, hn.symm, fun k x y hx hy => ?_⟩
      by_cases hk : kept k
      · obtain ⟨h3, h4⟩ := h1 k hk
        rw [h3]
        rw [h4, hx] at hy
        exact Option.some.inj hy
      · obtain ⟨h3, h4⟩ := h2 k hk
        rw [h3] at hy
        rw [h4] at hx
        cases hx
        cases hy
        exact (ih k hk _).mpr rfl

/-! ## Maps -/

theorem putAll_each {R : Val F → Val F → Prop} {xs ys : List (Key × Val F)} (h : Each (fun a b => a.1 = b.1 ∧ R a.2 b.2) xs ys) (k : Key) :
    (putAll (fun _ => none) xs k = none ∧ putAll (fun _ => none) ys k = none) ∨
      ∃ x y, putAll (fun _ => none) xs k = some x ∧ putAll (fun _ => none) ys k = some y ∧ R x y := by
  have rev : ∀ {xs ys : List (Key × Val F)}, Each (fun a b => a.1 = b.1 ∧ R a.2 b.2) xs ys →
      Each (fun a b => a.1 = b.1 ∧ R a.2 b.2) xs.reverse ys.reverse := by
    intro xs ys h
    induction h with
    | nil => exact .nil
    | cons h _ ih =>
      rw [List.reverse_cons, List.reverse_cons]
      exact each_appended ih (.cons h .nil)
  unfold putAll
  have h' := rev h
  generalize xs.reverse = as at h' ⊢
  generalize ys.reverse = bs at h' ⊢
  induction h' with
  | nil => exact .inl ⟨rfl, rfl⟩
  | @cons a b as bs h _ ih =>
    rw [List.find?_cons, List.find?_cons, ← h.1]
    cases hk : a.1 == k with
    | true => exact .inr ⟨a.2, b.2, rfl, rfl, h.2⟩
    | false => exact ih

/-- With different keys every entry is found. -/
theorem putAll_mem {xs : List (Key × Val F)} (h : xs.Pairwise fun a b => a.1 ≠ b.1) {x : Key × Val F} (hx : x ∈ xs) :
    putAll (fun _ => none) xs x.1 = some x.2 := by
  unfold putAll
  have h' : xs.reverse.Pairwise fun a b => a.1 ≠ b.1 := by
    rw [List.pairwise_reverse]
    exact h.imp fun h => h.symm
  have hx' : x ∈ xs.reverse := List.mem_reverse.mpr hx
  generalize xs.reverse = as at h' hx'
  induction as with
  | nil => cases hx'
  | cons a as ih =>
    rw [List.pairwise_cons] at h'
    rw [List.find?_cons]
    rcases List.mem_cons.mp hx' with rfl | hm
    · simp
    · have : (a.1 == x.1) = false := by
        have := h'.1 x hm
        simpa using this
      rw [this]
      exact ih h'.2 hm

theorem each_pairwise {A B : Type} {R : A → B → Prop} {P : A → A → Prop} {Q : B → B → Prop} {as : List A} {bs : List B} (h : Each R as bs)
    (hp : as.Pairwise P) (hq : ∀ a a' b b', P a a' → R a b → R a' b' → Q b b') : bs.Pairwise Q := by
  induction h with
  | nil => exact .nil
  | cons h hr ih =>
    rw [List.pairwise_cons] at hp ⊢
    refine ⟨fun b hb => ?_, ih hp.2⟩
    obtain ⟨a, ha, hab⟩ := each_right hr hb
    exact hq _ _ _ _ (hp.1 a ha) h hab

/-! ## Structs -/

/-- One of the members goes to the place. -/
def Touches (sl : List Byte → Nat → Prop) (fs : List Field) (ms : List (List Byte × List Byte)) (k : Nat) : Prop :=
  ∃ m ∈ ms, ∃ key n f p, Str m.1 key ∧ sl key n ∧ fs[n]? = some f ∧ f.path = .member k :: p

/-- Two struct values on the way: the places that are kept have the same values; of the other places, those that are still to come have
their zero values, for those that are done `Q` holds. -/
structure InStep (sl : List Byte → Nat → Prop) (fs : List Field) (kept : Nat → Prop) (Z Z' : Nat → Val F)
    (Q : Nat → Option (Val F) → Option (Val F) → Prop) (ms : List (List Byte × List Byte)) (xs ys : List (Val F)) : Prop where
  len : xs.length = ys.length
  alike : ∀ k, kept k → xs[k]? = ys[k]?
  rest : ∀ k, ¬ kept k → (xs[k]? = some (Z' k) ∧ ys[k]? = some (Z k)) ∨ (¬ Touches sl fs ms k ∧ Q k xs[k]? ys[k]?)

variable {sl : List Byte → Nat → Prop} {fs fs' : List Field} {kept : Nat → Prop} {Z Z' : Nat → Val F}
  {Q : Nat → Option (Val F) → Option (Val F) → Prop} {ms : List (List Byte × List Byte)} {m : List Byte × List Byte} {xs ys : List (Val F)}

theorem InStep.skip (h : InStep sl fs kept Z Z' Q (m :: ms) xs ys) : InStep sl fs kept Z Z' Q ms xs ys where
  len := h.len
  alike := h.alike
  rest k hk := (h.rest k hk).imp id fun ⟨h1, h2⟩ => ⟨fun ⟨m, hm, h⟩ => h1 ⟨m, by simp [hm], h⟩, h2⟩

theorem InStep.setKept (h : InStep sl fs kept Z Z' Q (m :: ms) xs ys) {k : Nat} (hk : kept k) (b : Val F) :
    InStep sl fs kept Z Z' Q ms (xs.set k b) (ys.set k b) where
  len := by simpa using h.len
  alike l hl := by
    by_cases hkl : k = l
    · subst hkl
      have := h.len
      by_cases hlt : k < ys.length
      · rw [List.getElem?_set_self (by omega), List.getElem?_set_self hlt]
      · rw [List.getElem?_eq_none (by simp; omega), List.getElem?_eq_none (by simp; omega)]
    · rw [List.getElem?_set_ne hkl, List.getElem?_set_ne hkl]
      exact h.alike l hl
  rest l hl := by
    have hkl : k ≠ l := fun e => hl (e ▸ hk)
    rw [List.getElem?_set_ne hkl, List.getElem?_set_ne hkl]
    exact h.skip.rest l hl

theorem InStep.setDone (h : InStep sl fs kept Z Z' Q (m :: ms) xs ys) {k : Nat} (hk : ¬ kept k) (hlt : k < xs.length) {x y : Val F}
    (hq : Q k (some x) (some y)) (ht : ¬ Touches sl fs ms k) : InStep sl fs kept Z Z' Q ms (xs.set k x) (ys.set k y) where
  len := by simpa using h.len
  alike l hl := by
    have hkl : k ≠ l := fun e => hk (e ▸ hl)
    rw [List.getElem?_set_ne hkl, List.getElem?_set_ne hkl]
    exact h.alike l hl
  rest l hl := by
    by_cases hkl : k = l
    · subst hkl
      rw [List.getElem?_set_self hlt, List.getElem?_set_self (h.len ▸ hlt)]
      exact .inr ⟨ht, hq⟩
    · rw [List.getElem?_set_ne hkl, List.getElem?_set_ne hkl]
      exact h.skip.rest l hl

/-- What is needed about the fields. -/
structure Twins (sl : List Byte → Nat → Prop) (fs fs' : List Field) (kept : Nat → Prop) (U U' : Nat → Ty) : Prop where
  names : fs.map Field.name = fs'.map Field.name
  paths : ∀ (n : Nat) (f f' : Field), fs[n]? = some f → fs'[n]? = some f' → ∃ k p, f.path = .member k :: p ∧ (kept k → f = f') ∧
    (¬ kept k → p = [] ∧ f'.path = f.path ∧ f.ty = U k ∧ f'.ty = U' k ∧ f.quoted = false ∧ f'.quoted = false)
  once : ∀ (n m : Nat) (f g : Field) (k : Nat) (p q : List PathStep), fs[n]? = some f → fs[m]? = some g → f.path = .member k :: p →
    g.path = .member k :: q → ¬ kept k → n = m

theorem Twins.other {U U' : Nat → Ty} (h : Twins sl fs fs' kept U U') {n : Nat} {f : Field} (hf : fs[n]? = some f) : ∃ f', fs'[n]? = some f' := by
  have := congrArg List.length h.names
  simp only [List.length_map] at this
  exact ⟨_, List.getElem?_eq_getElem (this ▸ (List.getElem?_eq_some_iff.mp hf).1)⟩

theorem Twins.back {U U' : Nat → Ty} (h : Twins sl fs fs' kept U U') {n : Nat} {f : Field} (hf : fs'[n]? = some f) : ∃ f', fs[n]? = some f' := by
  have := congrArg List.length h.names
  simp only [List.length_map] at this
  exact ⟨_, List.getElem?_eq_getElem (this ▸ (List.getElem?_eq_some_iff.mp hf).1)⟩

/-- A place that is not kept is reached by one member only. -/
theorem Twins.untouched {U U' : Nat → Ty} (h : Twins sl fs fs' kept U U')
    (hap : ∀ s s', apart s s' → ∀ i, ¬ (sl s i ∧ sl s' i))
    (ha : (m :: ms).Pairwise fun m n => ∀ s s', Str m.1 s → Str n.1 s' → apart s s') {key : List Byte} (hkey : Str m.1 key) {n k : Nat} {f : Field}
    {p : List PathStep} (hs : sl key n) (hf : fs[n]? = some f) (hp : f.path = .member k :: p) (hk : ¬ kept k) : ¬ Touches sl fs ms k := by
  rintro ⟨m', hm', key', n', f', p', hkey', hs', hf', hp'⟩
  rw [List.pairwise_cons] at ha
  obtain rfl := h.once n n' f f' k p p' hf hf' hp hp' hk
  exact hap _ _ (ha.1 m' hm' key key' hkey hkey') n ⟨hs, hs'⟩

variable {strict : Bool} {zero : Ty → Val F} {D : Ty → Rel F} {U U' : Nat → Ty} {R : Nat → Val F → Val F → Prop}

theorem visits_defer (tw : Twins sl fs fs' kept U U') (hap : ∀ s s', apart s s' → ∀ i, ¬ (sl s i ∧ sl s' i))
    (ih : ∀ k, ¬ kept k → ∀ t, Unrepeated apart t → ∀ v, D (U k) {} (zero (U k)) t v → ∃ r, D (U' k) {} (zero (U' k)) t r ∧ R k r v)
    (ha : ms.Pairwise fun m n => ∀ s s', Str m.1 s → Str n.1 s' → apart s s') (hu : ∀ m ∈ ms, Unrepeated apart m.2)
    (hi : InStep sl fs kept (fun k => zero (U k)) (fun k => zero (U' k)) (fun k a b => ∃ x y, a = some x ∧ b = some y ∧ R k x y) ms xs ys)
    {v : Val F} (hv : Visits (MemberRel strict zero sl fs D) (.struct ys) ms v) :
    ∃ xs' ys', v = .struct ys' ∧ Visits (MemberRel strict zero sl fs' D) (.struct xs) ms (.struct xs') ∧
      InStep sl fs kept (fun k => zero (U k)) (fun k => zero (U' k)) (fun k a b => ∃ x y, a = some x ∧ b = some y ∧ R k x y) [] xs' ys' := by
  induction ms generalizing xs ys with
  | nil =>
    cases hv
    exact ⟨xs, ys, rfl, .nil _, hi⟩
  | cons m ms ihm =>
    cases hv with
    | cons h hr =>
      have ha' := (List.pairwise_cons.mp ha).2
      have hu' : ∀ m ∈ ms, Unrepeated apart m.2 := fun m hm => hu m (by simp [hm])
      obtain ⟨key, hkey, ⟨n, f, hs, hf, hA⟩ | ⟨hno, hst, hval, rfl⟩⟩ := h
      · obtain ⟨f', hf'⟩ := tw.other hf
        obtain ⟨k, p, hp, h1, h2⟩ := tw.paths n f f' hf hf'
        rw [hp] at hA
        cases hA with
        | member _ _ _ a b hb hA =>
          by_cases hk : kept k
          · obtain rfl := h1 hk
            obtain ⟨xs', ys', e, h3, h4⟩ := ihm ha' hu' (hi.setKept hk b) hr
            refine ⟨xs', ys', e, .cons ⟨key, hkey, .inl ⟨n, f, hs, hf', ?_⟩⟩ h3, h4⟩
            rw [hp]
            exact .member k p xs a b (by rw [hi.alike k hk, hb]) hA
          · obtain ⟨rfl, h3, h4, h5, h6, h7⟩ := h2 hk
            have ht := tw.untouched hap ha hkey hs hf hp hk
            rcases hi.rest k hk with ⟨h8, h9⟩ | ⟨h8, _⟩
            · rw [h9] at hb
              cases hb
              cases hA with
              | here _ _ hA =>
                rw [h6, h4] at hA
                obtain ⟨r, hr1, hr2⟩ := ih k hk m.2 (hu m (by simp)) b hA
                obtain ⟨xs', ys', e, h10, h11⟩ := ihm ha' hu' (hi.setDone hk (List.getElem?_eq_some_iff.mp h8).1 ⟨r, b, rfl, rfl, hr2⟩ ht) hr
                refine ⟨xs', ys', e, .cons ⟨key, hkey, .inl ⟨n, f', hs, hf', ?_⟩⟩ h10, h11⟩
                rw [h3, hp]
                refine .member k [] xs _ r h8 (.here _ _ ?_)
                rw [h7, h5]
                exact hr1
            · exact absurd ⟨m, by simp, key, n, f, _, hkey, hs, hf, hp⟩ h8
      · obtain ⟨xs', ys', e, h3, h4⟩ := ihm ha' hu' hi.skip hr
        exact ⟨xs', ys', e, .cons ⟨key, hkey, .inr ⟨hno, hst, hval, rfl⟩⟩ h3, h4⟩

/-- Places that no member goes to stay as they are. -/
theorem visits_stay (tw : Twins sl fs fs' kept U U') {k : Nat} (hk : ¬ Touches sl fs ms k) {r : Val F}
    (hv : Visits (MemberRel strict zero sl fs' D) (.struct xs) ms r) : ∃ rs, r = .struct rs ∧ rs[k]? = xs[k]? ∧ rs.length = xs.length := by
  induction ms generalizing xs with
  | nil =>
    cases hv
    exact ⟨xs, rfl, rfl, rfl⟩
  | cons m ms ihm =>
    have hk' : ¬ Touches sl fs ms k := fun ⟨m, hm, h⟩ => hk ⟨m, by simp [hm], h⟩
    cases hv with
    | cons h hr =>
      obtain ⟨key, hkey, ⟨n, f', hs, hf', hA⟩ | ⟨_, _, _, rfl⟩⟩ := h
      · obtain ⟨f, hf⟩ := tw.back hf'
        obtain ⟨l, p, hp, h1, h2⟩ := tw.paths n f f' hf hf'
        have hlk : l ≠ k := fun e => hk ⟨m, by simp, key, n, f, p, hkey, hs, hf, e ▸ hp⟩
        have hp' : f'.path = .member l :: p := by
          by_cases hl : kept l
          · rw [← h1 hl, hp]
          · rw [(h2 hl).2.1, hp]
        rw [hp'] at hA
        cases hA with
        | member _ _ _ a b hb hA =>
          obtain ⟨rs, h3, h4, h5⟩ := ihm hk' hr
          exact ⟨rs, h3, by rw [h4, List.getElem?_set_ne hlk], by simpa using h5⟩
      · exact ihm hk' hr

theorem visits_recover (tw : Twins sl fs fs' kept U U') (hap : ∀ s s', apart s s' → ∀ i, ¬ (sl s i ∧ sl s' i))
    (ih : ∀ k, ¬ kept k → ∀ t, Unrepeated apart t → ∀ r v, D (U' k) {} (zero (U' k)) t r → R k r v → D (U k) {} (zero (U k)) t v)
    (ha : ms.Pairwise fun m n => ∀ s s', Str m.1 s → Str n.1 s' → apart s s') (hu : ∀ m ∈ ms, Unrepeated apart m.2)
    {rs vs : List (Val F)} (hlen : rs.length = vs.length) (hR : ∀ k, ¬ kept k → ∀ x y, rs[k]? = some x → vs[k]? = some y → R k x y)
    (hi : InStep sl fs kept (fun k => zero (U k)) (fun k => zero (U' k)) (fun k _ b => b = vs[k]?) ms xs ys)
    (hv : Visits (MemberRel strict zero sl fs' D) (.struct xs) ms (.struct rs)) :
    ∃ ys', Visits (MemberRel strict zero sl fs D) (.struct ys) ms (.struct ys') ∧
      InStep sl fs kept (fun k => zero (U k)) (fun k => zero (U' k)) (fun k _ b => b = vs[k]?) [] rs ys' := by
  induction ms generalizing xs ys with
  | nil =>
    cases hv
    exact ⟨ys, .nil _, hi⟩
  | cons m ms ihm =>
    cases hv with
    | cons h hr =>
      have ha' := (List.pairwise_cons.mp ha).2
      have hu' : ∀ m ∈ ms, Unrepeated apart m.2 := fun m hm => hu m (by simp [hm])
      obtain ⟨key, hkey, ⟨n, f', hs, hf', hA⟩ | ⟨hno, hst, hval, rfl⟩⟩ := h
      · obtain ⟨f, hf⟩ := tw.back hf'
        obtain ⟨k, p, hp, h1, h2⟩ := tw.paths n f f' hf hf'
        by_cases hk : kept k
        · obtain rfl := h1 hk
          rw [hp] at hA
          cases hA with
          | member _ _ _ a b hb hA =>
            obtain ⟨ys', h3, h4⟩ := ihm ha' hu' (hi.setKept hk b) hr
            refine ⟨ys', .cons ⟨key, hkey, .inl ⟨n, f, hs, hf, ?_⟩⟩ h3, h4⟩
            rw [hp]
            exact .member k p ys a b (by rw [← hi.alike k hk, hb]) hA
        · obtain ⟨rfl, h3, h4, h5, h6, h7⟩ := h2 hk
          rw [h3, hp] at hA
          have ht := tw.untouched hap ha hkey hs hf hp hk
          cases hA with
          | member _ _ _ a x hb hA =>
            rcases hi.rest k hk with ⟨h8, h9⟩ | ⟨h8, _⟩
            · rw [h8] at hb
              cases hb
              have hlt := (List.getElem?_eq_some_iff.mp h8).1
              obtain ⟨rs', e, hr1, hr2⟩ := visits_stay tw ht hr
              cases e
              rw [List.getElem?_set_self hlt] at hr1
              have hlt' : k < vs.length := hlen ▸ (List.getElem?_eq_some_iff.mp hr1).1
              have hy : vs[k]? = some vs[k] := List.getElem?_eq_getElem hlt'
              cases hA with
              | here _ _ hA =>
                rw [h7, h5] at hA
                have hd := ih k hk m.2 (hu m (by simp)) x _ hA (hR k hk x _ hr1 hy)
                obtain ⟨ys', h10, h11⟩ := ihm ha' hu' (hi.setDone hk hlt (x := x) hy.symm ht) hr
                refine ⟨ys', .cons ⟨key, hkey, .inl ⟨n, f, hs, hf, ?_⟩⟩ h10, h11⟩
                rw [hp]
                refine .member k [] ys _ _ h9 (.here _ _ ?_)
                rw [h6, h4]
                exact hd
            · exact absurd ⟨m, by simp, key, n, f, _, hkey, hs, hf, hp⟩ h8
      · obtain ⟨ys', h3, h4⟩ := ihm ha' hu' hi.skip hr
        exact ⟨ys', .cons ⟨key, hkey, .inr ⟨hno, hst, hval, rfl⟩⟩ h3, h4⟩

/-! ## All types -/

theorem deferred_byte {T T' : Ty} {R : Val F → Val F → Prop} (h : Deferred Γ cfg apart dec T T' R) (hT : T ≠ .uint .w8) : T' ≠ .uint .w8 := by
  cases h with
  | same => exact hT
  | slice _ _ _ _ _ _ hT' | array _ _ _ _ _ _ _ hT' | map _ _ _ _ _ _ _ hT' =>
    rintro rfl
    cases hT'
  | _ => nofun

theorem decodesO_raw {o : DecOpts} {a v : Val F} {t : List Byte} : DecodesO Γ cfg true sel .raw o a t v ↔ IsValue t ∧ v = .str t := by
  constructor
  · rintro ⟨n, h⟩
    simpa only [DecodesN, RawRel] using h
  · intro h
    exact ⟨0, by simpa only [DecodesN, RawRel] using h⟩

/-- Decoding at once gives what decoding in two steps gives. -/
theorem deferred_main (h0 : ∀ T v, ¬ dec T [] v)
    (hdec : ∀ T s v, IsValue s → (dec T s v ↔ DecodesO Γ cfg true sel T {} (Γ.zero cfg T) s v))
    (hap : ∀ s s', apart s s' → ∀ names i, ¬ (sel names s i ∧ sel names s' i)) {T T' : Ty} {R : Val F → Val F → Prop}
    (h : Deferred Γ cfg apart dec T T' R) : ∀ t, Unrepeated apart t →
      (∀ v, DecodesO Γ cfg true sel T {} (Γ.zero cfg T) t v → ∃ r, DecodesO Γ cfg true sel T' {} (Γ.zero cfg T') t r ∧ R r v) ∧
      (∀ r v, DecodesO Γ cfg true sel T' {} (Γ.zero cfg T') t r → R r v → DecodesO Γ cfg true sel T {} (Γ.zero cfg T) t v) := by
  induction h with
  | same T =>
    intro t _
    refine ⟨fun v h => ⟨v, h, rfl⟩, ?_⟩
    rintro r _ h rfl
    exact h
  | raw T =>
    intro t ht
    have hv := unrepeated_value ht
    refine ⟨fun v h => ⟨.str t, decodesO_raw.mpr ⟨hv, rfl⟩, .inl ⟨t, rfl, (hdec _ _ _ hv).mpr h⟩⟩, ?_⟩
    intro r v hr hv'
    obtain ⟨_, rfl⟩ := decodesO_raw.mp hr
    rcases hv' with ⟨s, h, h'⟩ | ⟨h, rfl⟩
    · cases h
      exact (hdec _ _ _ hv).mp h'
    · cases h
      exact absurd rfl (unrepeated_solid ht).ne
  | ptr T T' R _ ih =>
    intro t ht
    obtain ⟨ih1, ih2⟩ := ih t ht
    refine ⟨fun v h => ?_, fun r v h hr => ?_⟩
    · rcases decodesO_ptr.mp h with ⟨rfl, rfl⟩ | ⟨hn, x, hx, rfl⟩
      · exact ⟨.nilPtr, decodesO_ptr.mpr (.inl ⟨rfl, rfl⟩), .inl ⟨rfl, rfl⟩⟩
      · obtain ⟨r, h1, h2⟩ := ih1 x hx
        exact ⟨.ptr r, decodesO_ptr.mpr (.inr ⟨hn, r, h1, rfl⟩), .inr ⟨r, x, rfl, rfl, h2⟩⟩
    · rcases decodesO_ptr.mp h with ⟨rfl, rfl⟩ | ⟨hn, x, hx, rfl⟩
      · rcases hr with ⟨_, rfl⟩ | ⟨_, _, h, _⟩
        · exact decodesO_ptr.mpr (.inl ⟨rfl, rfl⟩)
        · cases h
      · rcases hr with ⟨h, _⟩ | ⟨x', y, h, rfl, h1⟩
        · cases h
        · cases h
          exact decodesO_ptr.mpr (.inr ⟨hn, y, ih2 x y hx h1, rfl⟩)
  | slice T T' E E' R hT hT' _ _ hE hd ih =>
    intro t ht
    have hb : (E == .uint .w8) = false := by simpa using hE
    have hb' : (E' == .uint .w8) = false := by simpa using deferred_byte hd hE
    have sub : ∀ ts (vs : List (Val F)) X a, ArrayOf t ts → Each (DecodesO Γ cfg true sel X {} a) ts vs → ∀ u ∈ ts, Unrepeated apart u := by
      intro ts vs X a h1 h2
      refine unrepeated_array ht h1 fun u hu => ?_
      obtain ⟨b, _, hb⟩ := each_left h2 hu
      exact decodesO_solid hb
    refine ⟨fun v h => ?_, fun r v h hr => ?_⟩
    · rcases (decodesO_slice hT).mp h with ⟨rfl, rfl⟩ | ⟨h, _⟩ | ⟨ts, vs, h1, h2, rfl⟩
      · exact ⟨.nilSlice, (decodesO_slice hT').mpr (.inl ⟨rfl, rfl⟩), .inl ⟨rfl, rfl⟩⟩
      · rw [hb] at h
        cases h
      · have hs := sub ts vs _ _ h1 h2
        obtain ⟨rs, h3, h4⟩ := each_split (each_mono (fun u hu v h => (ih u (hs u hu)).1 v h) h2)
        exact ⟨.slice rs, (decodesO_slice hT').mpr (.inr (.inr ⟨ts, rs, h1, h3, rfl⟩)), .inr ⟨rs, vs, rfl, rfl, h4⟩⟩
    · rcases (decodesO_slice hT').mp h with ⟨rfl, rfl⟩ | ⟨h, _⟩ | ⟨ts, rs, h1, h2, rfl⟩
      · rcases hr with ⟨_, rfl⟩ | ⟨_, _, h, _⟩
        · exact (decodesO_slice hT).mpr (.inl ⟨rfl, rfl⟩)
        · cases h
      · rw [hb'] at h
        cases h
      · rcases hr with ⟨h, _⟩ | ⟨_, vs, h, rfl, h3⟩
        · cases h
        · cases h
          have hs := sub ts rs _ _ h1 h2
          exact (decodesO_slice hT).mpr (.inr (.inr ⟨ts, vs, h1,
            each_mono (fun u hu v ⟨r, h, h'⟩ => (ih u (hs u hu)).2 r v h h') (each_comp h2 h3), rfl⟩))
  | array T T' E E' n R hT hT' hz hz' hd ih =>
    intro t ht
    have zero := deferred_zero h0 hd
    have elem : ∀ (z : Val F) i, element z (.arr (List.replicate n z)) i = z := by
      intro z i
      simp only [element, List.getElem?_replicate]
      split <;> rfl
    have sub : ∀ ts (vs : List (Val F)) X (z a : Val F), ArrayOf t ts → vs.length = n → (∀ i u, ts[i]? = some u → n ≤ i → IsValue u) →
        (∀ i u x, ts[i]? = some u → vs[i]? = some x → DecodesO Γ cfg true sel X {} (element z a i) u x) → ∀ u ∈ ts, Unrepeated apart u := by
      intro ts vs X z a h1 h2 h3 h4
      refine unrepeated_array ht h1 fun u hu => ?_
      obtain ⟨i, hi⟩ := List.getElem?_of_mem hu
      by_cases hlt : n ≤ i
      · exact .value (h3 i u hi hlt).choose_spec
      · exact decodesO_solid (h4 i u _ hi (List.getElem?_eq_getElem (by omega)))
    refine ⟨fun v h => ?_, fun r v h hr => ?_⟩
    · rcases (decodesO_array hT).mp h with ⟨rfl, rfl⟩ | ⟨ts, vs, h1, rfl, h2, h3, h4, h5⟩
      · refine ⟨Γ.zero cfg T', (decodesO_array hT').mpr (.inl ⟨rfl, rfl⟩), ?_⟩
        rw [hz, hz']
        exact ⟨_, _, rfl, rfl, each_replicate ((zero _).mpr rfl) n⟩
      · have hs := sub ts vs _ _ _ h1 h2 h3 h4
        rw [hz] at h4
        have ex : ∀ i, ∃ r, ∀ y, vs[i]? = some y → R r y ∧ (∀ u, ts[i]? = some u → DecodesO Γ cfg true sel E' {} (Γ.zero cfg E') u r) ∧
            (ts.length ≤ i → r = Γ.zero cfg E') := by
          intro i
          cases hy : vs[i]? with
          | none => exact ⟨.nilPtr, nofun⟩
          | some y =>
            cases hu : ts[i]? with
            | none =>
              refine ⟨Γ.zero cfg E', ?_⟩
              rintro _ ⟨⟩
              exact ⟨(zero _).mpr (h5 i y (List.getElem?_eq_none_iff.mp hu) hy), nofun, fun _ => rfl⟩
            | some u =>
              have := h4 i u y hu hy
              rw [elem] at this
              obtain ⟨r, h6, h7⟩ := (ih u (hs u (List.mem_of_getElem? hu))).1 y this
              refine ⟨r, ?_⟩
              rintro _ ⟨⟩
              refine ⟨h7, ?_, fun hle => ?_⟩
              · rintro _ ⟨⟩
                exact h6
              · have := (List.getElem?_eq_some_iff.mp hu).1
                omega
        obtain ⟨f, hf⟩ := Classical.axiomOfChoice ex
        have get : ∀ i r, ((List.range n).map f)[i]? = some r → r = f i ∧ ∃ y, vs[i]? = some y := by
          intro i r h
          have hlt : i < n := by
            have := (List.getElem?_eq_some_iff.mp h).1
            simpa using this
          rw [List.getElem?_map, List.getElem?_range hlt] at h
          cases h
          exact ⟨rfl, _, List.getElem?_eq_getElem (by omega)⟩
        refine ⟨.arr ((List.range n).map f), (decodesO_array hT').mpr (.inr ⟨ts, _, h1, rfl, by simp, h3, fun i u r hu hr => ?_, fun i r hle hr => ?_⟩),
          _, vs, rfl, rfl, each_of_get (by simp [h2]) fun i r y hr hy => ?_⟩
        · obtain ⟨rfl, y, hy⟩ := get i r hr
          rw [hz', elem]
          exact (hf i y hy).2.1 u hu
        · obtain ⟨rfl, y, hy⟩ := get i r hr
          exact (hf i y hy).2.2 hle
        · obtain ⟨rfl, _⟩ := get i r hr
          exact (hf i y hy).1
    · rcases (decodesO_array hT').mp h with ⟨rfl, rfl⟩ | ⟨ts, rs, h1, rfl, h2, h3, h4, h5⟩
      · rw [hz'] at hr
        obtain ⟨xs, ys, h, rfl, he⟩ := hr
        cases h
        rw [each_of_replicate (fun y => (zero y).mp) he]
        exact (decodesO_array hT).mpr (.inl ⟨rfl, hz.symm⟩)
      · have hs := sub ts rs _ _ _ h1 h2 h3 h4
        rw [hz'] at h4
        obtain ⟨xs, ys, h, rfl, he⟩ := hr
        cases h
        have hlen := each_length he
        refine (decodesO_array hT).mpr (.inr ⟨ts, ys, h1, rfl, by omega, h3, fun i u y hu hy => ?_, fun i y hle hy => ?_⟩)
        · rw [hz, elem]
          have hx : rs[i]? = some (rs[i]'(hlen ▸ (List.getElem?_eq_some_iff.mp hy).1)) := List.getElem?_eq_getElem _
          have h6 := h4 i u _ hu hx
          rw [elem] at h6
          exact (ih u (hs u (List.mem_of_getElem? hu))).2 _ y h6 (each_get he hx hy)
        · have hx : rs[i]? = some (rs[i]'(hlen ▸ (List.getElem?_eq_some_iff.mp hy).1)) := List.getElem?_eq_getElem _
          have h6 := each_get he hx hy
          rw [h5 i _ hle hx] at h6
          exact (zero y).mp h6
  | map T T' E E' K R hT hT' hz hz' hK _ ih =>
    intro t ht
    rw [hz, hz']
    have sub : ∀ ms (xs : List (Key × Val F)) X a, ObjectOf t ms →
        Each (fun m x => KeyRel Γ true K m.1 x.1 ∧ DecodesO Γ cfg true sel X {} a m.2 x.2) ms xs →
        (∀ m ∈ ms, ∃ s, Str m.1 s) ∧ (ms.Pairwise fun m n => ∀ s s', Str m.1 s → Str n.1 s' → apart s s') ∧ ∀ m ∈ ms, Unrepeated apart m.2 := by
      intro ms xs X a h1 h2
      refine unrepeated_object ht h1 fun m hm => ?_
      obtain ⟨b, _, hb⟩ := each_left h2 hm
      refine ⟨?_, decodesO_solid hb.2⟩
      rcases keyRel_text hb.1 with ⟨s, hs⟩ | ⟨_, hs⟩
      · exact .str hs
      · exact .literal (.inl hs)
    refine ⟨fun v h => ?_, fun r v h hr => ?_⟩
    · rcases (decodesO_map hT).mp h with ⟨rfl, rfl⟩ | ⟨ms, xs, h1, h2, rfl⟩
      · exact ⟨.nilMap, (decodesO_map hT').mpr (.inl ⟨rfl, rfl⟩), .inl ⟨rfl, rfl⟩⟩
      · have hs := sub ms xs _ _ h1 h2
        obtain ⟨rs, h3, h4⟩ := each_split (Q := fun (a b : Key × Val F) => a.1 = b.1 ∧ R a.2 b.2)
          (P := fun (m : List Byte × List Byte) (x : Key × Val F) => KeyRel Γ true K m.1 x.1 ∧ DecodesO Γ cfg true sel E' {} (Γ.zero cfg E') m.2 x.2)
          (each_mono (fun m hm x h => by
            obtain ⟨r, h5, h6⟩ := (ih m.2 (hs.2.2 m hm)).1 x.2 h.2
            exact ⟨(x.1, r), ⟨h.1, h5⟩, rfl, h6⟩) h2)
        exact ⟨_, (decodesO_map hT').mpr (.inr ⟨ms, rs, h1, h3, rfl⟩), .inr ⟨_, _, rfl, rfl, putAll_each h4⟩⟩
    · rcases (decodesO_map hT').mp h with ⟨rfl, rfl⟩ | ⟨ms, xs, h1, h2, rfl⟩
      · rcases hr with ⟨_, rfl⟩ | ⟨_, _, h, _⟩
        · exact (decodesO_map hT).mpr (.inl ⟨rfl, rfl⟩)
        · cases h
      · rcases hr with ⟨h, _⟩ | ⟨_, m', h, rfl, h3⟩
        · cases h
        · cases h
          have hs := sub ms xs _ _ h1 h2
          have hp : xs.Pairwise fun a b => a.1 ≠ b.1 := by
            have : ms.Pairwise fun m n => (∃ s s', Str m.1 s ∧ Str n.1 s' ∧ apart s s') :=
              hs.2.1.imp_of_mem fun {m n} hm hn h => by
                obtain ⟨s, hm⟩ := hs.1 m hm
                obtain ⟨s', hn⟩ := hs.1 n hn
                exact ⟨s, s', hm, hn, h s s' hm hn⟩
            exact each_pairwise h2 this fun m n a b ⟨s, s', e1, e2, e3⟩ ha hb => hK m.1 n.1 s s' a.1 b.1 e1 e2 e3 ha.1 hb.1
          have found : ∀ x ∈ xs, ∃ y, m' x.1 = some y ∧ R x.2 y := by
            intro x hx
            rcases h3 x.1 with ⟨h4, _⟩ | ⟨a, y, h4, h5, h6⟩
            · simp only [entries] at h4
              rw [putAll_mem hp hx] at h4
              cases h4
            · simp only [entries] at h4
              rw [putAll_mem hp hx] at h4
              cases h4
              exact ⟨y, h5, h6⟩
          have hys : ∃ ys : List (Key × Val F), Each (fun a b => (a.1 = b.1 ∧ R a.2 b.2) ∧ m' b.1 = some b.2) xs ys := by
            clear h2 hp h3 h hs
            induction xs with
            | nil => exact ⟨[], .nil⟩
            | cons x xs ihx =>
              obtain ⟨ys, h⟩ := ihx fun x hx => found x (by simp [hx])
              obtain ⟨y, h4, h5⟩ := found x (by simp)
              exact ⟨(x.1, y) :: ys, .cons ⟨⟨rfl, h5⟩, h4⟩ h⟩
          obtain ⟨ys, hys⟩ := hys
          have hys1 := each_mono (fun _ _ _ h => h.1) hys
          have hms : Each (fun m x => KeyRel Γ true K m.1 x.1 ∧ DecodesO Γ cfg true sel E {} (Γ.zero cfg E) m.2 x.2) ms ys :=
            each_mono (fun m hm y ⟨x, h4, h5⟩ => ⟨h5.1 ▸ h4.1, (ih m.2 (hs.2.2 m hm)).2 _ _ h4.2 h5.2⟩) (each_comp h2 hys1)
          refine (decodesO_map hT).mpr (.inr ⟨ms, ys, h1, hms, ?_⟩)
          · rw [Val.map.injEq]
            funext k
            simp only [entries]
            rcases putAll_each hys1 k with ⟨h4, h5⟩ | ⟨x, y, h4, h5, _⟩
            · rw [h5]
              rcases h3 k with ⟨_, h⟩ | ⟨_, _, h, _⟩
              · exact h
              · simp only [entries] at h
                rw [h4] at h
                cases h
            · rw [h5]
              unfold putAll at h5
              cases hf : ys.reverse.find? fun x => x.1 == k with
              | none =>
                rw [hf] at h5
                cases h5
              | some z =>
                rw [hf] at h5
                cases h5
                have hz := List.mem_of_find?_eq_some hf
                obtain ⟨a, _, ha⟩ := each_right hys (List.mem_reverse.mp hz)
                have hk := List.find?_some hf
                simp only [beq_iff_eq] at hk
                rw [← hk]
                exact ha.2
  | struct i j fs fs' zs zs' U U' R kept hd hd' hz hz' hn h1 h2 hf hp hu hR ih =>
    intro t ht
    have zero : ∀ y, StructLater R (.struct zs') y ↔ y = .struct zs := by
      have := deferred_zero h0 (.struct i j fs fs' zs zs' U U' R kept hd hd' hz hz' hn h1 h2 hf hp hu hR)
      rwa [hz, hz'] at this
    have tw : Twins (sel (fs.map Field.name)) fs fs' kept U U' := ⟨hf, hp, hu⟩
    have hap' : ∀ s s', apart s s' → ∀ i, ¬ (sel (fs.map Field.name) s i ∧ sel (fs.map Field.name) s' i) := fun s s' h => hap s s' h _
    rw [hz, hz']
    have sub : ∀ {ms gs} {a v : Val F}, ObjectOf t ms →
        Visits (MemberRel cfg.disallowUnknownFields (Γ.zero cfg) (sel (fs.map Field.name)) gs (DecodesO Γ cfg true sel)) a ms v →
        (∀ m ∈ ms, ∃ s, Str m.1 s) ∧ (ms.Pairwise fun m n => ∀ s s', Str m.1 s → Str n.1 s' → apart s s') ∧ ∀ m ∈ ms, Unrepeated apart m.2 := by
      intro ms gs a v h1 h2
      refine unrepeated_object ht h1 fun m hm => ?_
      obtain ⟨_, _, h⟩ := visits_mem h2 hm
      exact memberRel_str (fun _ _ _ _ _ h => decodesO_solid h) h
    have start : ∀ Q ms, InStep (sel (fs.map Field.name)) fs kept (fun k => Γ.zero cfg (U k)) (fun k => Γ.zero cfg (U' k)) Q ms zs' zs :=
      fun Q ms => ⟨hn.symm, fun k hk => (h1 k hk).2.symm, fun k hk => .inl ⟨(h2 k hk).2, (h2 k hk).1⟩⟩
    refine ⟨fun v h => ?_, fun r v h hr => ?_⟩
    · rcases (decodesO_struct hd).mp h with ⟨rfl, rfl⟩ | ⟨ms, h3, h4⟩
      · exact ⟨_, (decodesO_struct hd').mpr (.inl ⟨rfl, rfl⟩), (zero _).mpr rfl⟩
      · obtain ⟨h5, h6, h7⟩ := sub h3 h4
        obtain ⟨xs', ys', rfl, h8, h9⟩ := visits_defer (R := R) tw hap' (fun k hk t ht => (ih k hk t ht).1) h6 h7 (start _ _) h4
        rw [hf] at h8
        refine ⟨_, (decodesO_struct hd').mpr (.inr ⟨ms, h3, h8⟩), xs', ys', rfl, rfl, h9.len, fun k x y hx hy => ?_⟩
        by_cases hk : kept k
        · rw [(h1 k hk).1]
          have := h9.alike k hk
          rw [hx, hy] at this
          exact Option.some.inj this
        · rcases h9.rest k hk with ⟨h10, h11⟩ | ⟨_, x', y', h10, h11, h12⟩
          · rw [hx] at h10
            rw [hy] at h11
            cases h10
            cases h11
            exact (deferred_zero h0 (hR k hk) _).mpr rfl
          · rw [hx] at h10
            rw [hy] at h11
            cases h10
            cases h11
            exact h12
    · rcases (decodesO_struct hd').mp h with ⟨rfl, rfl⟩ | ⟨ms, h3, h4⟩
      · exact (decodesO_struct hd).mpr (.inl ⟨rfl, (zero v).mp hr⟩)
      · rw [← hf] at h4
        obtain ⟨h5, h6, h7⟩ := sub h3 h4
        obtain ⟨rs, vs, rfl, rfl, hlen, hall⟩ := hr
        obtain ⟨ys', h8, h9⟩ := visits_recover (R := R) tw hap' (fun k hk t ht => (ih k hk t ht).2) h6 h7 hlen (fun k _ => hall k) (start _ _) h4
        have : vs = ys' := by
          refine List.ext_getElem? fun k => ?_
          have hl9 := h9.len
          cases hx : rs[k]? with
          | none =>
            rw [List.getElem?_eq_none_iff] at hx
            rw [List.getElem?_eq_none (by omega), List.getElem?_eq_none (by omega)]
          | some x =>
            have hlt := (List.getElem?_eq_some_iff.mp hx).1
            have hy : vs[k]? = some (vs[k]'(by omega)) := List.getElem?_eq_getElem _
            have hxy := hall k x _ hx hy
            by_cases hk : kept k
            · rw [(h1 k hk).1] at hxy
              rw [← h9.alike k hk, hx, hxy, hy]
            · rcases h9.rest k hk with ⟨h10, h11⟩ | ⟨_, h10⟩
              · rw [hx] at h10
                cases h10
                rw [h11, hy, (deferred_zero h0 (hR k hk) _).mp hxy]
              · exact h10.symm
        rw [this]
        exact (decodesO_struct hd).mpr (.inr ⟨ms, h3, h8⟩)

end

end Jzon
