import Verif.Proof.TypedParts

/-!
# Typed decoding: every type
-/

set_option linter.unusedSimpArgs false

namespace Jzon

open Spec

section
variable {F : Type} {env : Env}

/-! ## Structs without fields -/

theorem items_members {b : List Byte} {ts : List (List Byte)} (h : Items b ts) {ms : List (List Byte × List Byte)}
    (hm : Each MemberOf ts ms) (hv : ∀ m ∈ ms, (∃ key, Str m.1 key) ∧ IsValue m.2) : ∃ vs, Members b vs := by
  induction h generalizing ms with
  | one w1 t w2 h1 h2 =>
    rcases hm with _ | ⟨⟨a, c, ha, hc, rfl⟩, hm⟩
    cases hm
    obtain ⟨⟨key, hk⟩, v, hv⟩ := hv _ (List.mem_cons_self ..)
    exact ⟨_, by simpa using Members.single w1 _ a c _ w2 key v h1 hk ha hc hv h2⟩
  | cons w1 t w2 b ts h1 h2 hb ih =>
    rcases hm with _ | ⟨⟨a, c, ha, hc, rfl⟩, hm⟩
    obtain ⟨vs, hvs⟩ := ih hm fun m h => hv m (List.mem_cons_of_mem _ h)
    obtain ⟨⟨key, hk⟩, v, hv⟩ := hv _ (List.mem_cons_self ..)
    exact ⟨_, by simpa using Members.more w1 _ a c _ w2 b key v vs h1 hk ha hc hv h2 hvs⟩

theorem members_items {b : List Byte} {vs : List (List Byte × JVal)} (h : Members b vs) :
    ∃ ts ms, Items b ts ∧ Each MemberOf ts ms ∧ ∀ m ∈ ms, (∃ key, Str m.1 key) ∧ IsValue m.2 := by
  suffices hx : ∀ n (b : List Byte) (vs : List (List Byte × JVal)), vs.length ≤ n → Members b vs →
      ∃ ts ms, Items b ts ∧ Each MemberOf ts ms ∧ ∀ m ∈ ms, (∃ key, Str m.1 key) ∧ IsValue m.2 from
    hx vs.length b vs (Nat.le_refl _) h
  intro n
  induction n with
  | zero =>
    intro b vs hl h
    cases h <;> simp at hl
  | succ n ih =>
    intro b vs hl h
    cases h with
    | single w1 k w2 w3 t w4 key v h1 hk h2 h3 h h4 =>
      refine ⟨[k ++ (w2 ++ 0x3A :: (w3 ++ t))], [(k, t)], ?_, .cons ⟨w2, w3, h2, h3, rfl⟩ .nil, ?_⟩
      · have := Items.one w1 (k ++ (w2 ++ 0x3A :: (w3 ++ t))) w4 h1 h4
        simpa using this
      · simp
        exact ⟨⟨key, hk⟩, v, h⟩
    | more w1 k w2 w3 t w4 r key v ms h1 hk h2 h3 h h4 hr =>
      obtain ⟨ts, ms', a1, a2, a3⟩ := ih _ _ (by simpa using hl) hr
      refine ⟨(k ++ (w2 ++ 0x3A :: (w3 ++ t))) :: ts, (k, t) :: ms', ?_, .cons ⟨w2, w3, h2, h3, rfl⟩ a2, ?_⟩
      · have := Items.cons w1 (k ++ (w2 ++ 0x3A :: (w3 ++ t))) w4 r ts h1 h4 a1
        simpa using this
      · intro m hm
        rcases List.mem_cons.mp hm with rfl | hm
        · exact ⟨⟨key, hk⟩, v, h⟩
        · exact a3 m hm

/-- The objects of the grammar are the objects whose keys are strings and whose values are values. -/
theorem objectOf_value {t : List Byte} :
    (∃ ms, ObjectOf t ms ∧ ∀ m ∈ ms, (∃ key, Str m.1 key) ∧ IsValue m.2) ↔ IsValue t ∧ ∃ u, t = 0x7B :: u := by
  constructor
  · rintro ⟨ms, ⟨ts, h1, h2⟩, h3⟩
    refine ⟨?_, enclosed_head h1⟩
    cases h1 with
    | empty w hw => exact ⟨_, .objEmpty w hw⟩
    | items b ts h =>
      obtain ⟨vs, hvs⟩ := items_members h h2 h3
      exact ⟨_, .obj b vs hvs⟩
  · rintro ⟨⟨v, h⟩, u, rfl⟩
    generalize ht : 0x7B :: u = t at h
    cases h with
    | objEmpty w hw => exact ⟨[], ⟨[], .empty w hw, .nil⟩, by simp⟩
    | obj b ms hm =>
      obtain ⟨ts, ms', h1, h2, h3⟩ := members_items hm
      exact ⟨ms', ⟨ts, .items b ts h1, h2⟩, h3⟩
    | num _ h => exact absurd (ht ▸ h) (not_number_open (.inr rfl))
    | str _ _ h => obtain ⟨b, _, h⟩ := h; rw [h] at ht; cases ht
    | _ => cases ht

theorem visits_const {S X : Type} {P : X → Prop} {s s' : S} {xs : List X} :
    Visits (fun (s : S) x s' => P x ∧ s' = s) s xs s' ↔ s' = s ∧ ∀ x ∈ xs, P x := by
  constructor
  · intro h
    induction h with
    | nil => simp
    | cons h _ ih =>
      obtain ⟨h, rfl⟩ := h
      simp [h, ih.1]
      exact ih.2
  · rintro ⟨rfl, h⟩
    induction xs with
    | nil => exact .nil _
    | cons x xs ih => exact .cons ⟨h x (by simp), rfl⟩ (ih fun y hy => h y (by simp [hy]))

theorem memberRel_nil {strict : Bool} {zero : Ty → Val F} {sel : List Byte → Nat → Prop} {R : Ty → Rel F}
    (hs : ∀ key i, ¬ sel key i) {s s' : Val F} {m : List Byte × List Byte} :
    MemberRel strict zero sel [] R s m s' ↔ (strict = false ∧ (∃ key, Str m.1 key) ∧ IsValue m.2) ∧ s' = s := by
  unfold MemberRel
  constructor
  · rintro ⟨key, h1, ⟨i, f, h2, h3, _⟩ | ⟨h2, h3, h4, rfl⟩⟩
    · exact absurd h2 (hs key i)
    · exact ⟨⟨h3, ⟨key, h1⟩, h4⟩, rfl⟩
  · rintro ⟨⟨h3, ⟨key, h1⟩, h4⟩, rfl⟩
    exact ⟨key, h1, .inr ⟨hs key, h3, h4, rfl⟩⟩

theorem emptyStructRel_iff {strict : Bool} {zero : Ty → Val F} {sel : List Byte → Nat → Prop} {R : Ty → Rel F}
    (hs : ∀ key i, ¬ sel key i) {o : DecOpts} {old v : Val F} {t : List Byte} :
    StructRel strict zero sel [] R o old t v ↔
      v = old ∧ (t = nullText ∨ if strict then ∃ w, Ws w ∧ t = 0x7B :: (w ++ [0x7D]) else IsValue t ∧ ∃ u, t = 0x7B :: u) := by
  have e : MemberRel strict zero sel [] R =
      fun s m s' => (strict = false ∧ (∃ key, Str m.1 key) ∧ IsValue m.2) ∧ s' = s := by
    funext s m s'
    exact propext (memberRel_nil hs)
  unfold StructRel
  rw [e]
  simp only [visits_const]
  cases strict with
  | true =>
    simp only [if_true, Bool.true_eq_false, false_and]
    constructor
    · rintro (⟨rfl, rfl⟩ | ⟨ms, ⟨ts, h1, h2⟩, rfl, h3⟩)
      · exact ⟨rfl, .inl rfl⟩
      · refine ⟨rfl, .inr ?_⟩
        cases ms with
        | cons m ms => exact absurd (h3 m (by simp)) id
        | nil =>
          cases h2
          cases h1 with
          | empty w hw => exact ⟨w, hw, rfl⟩
          | items b ts h => cases h
    · rintro ⟨rfl, rfl | ⟨w, hw, rfl⟩⟩
      · exact .inl ⟨rfl, rfl⟩
      · exact .inr ⟨[], ⟨[], .empty w hw, .nil⟩, rfl, by simp⟩
  | false =>
    simp only [Bool.false_eq_true, if_false, true_and]
    rw [← objectOf_value]
    constructor
    · rintro (⟨rfl, rfl⟩ | ⟨ms, h1, rfl, h3⟩)
      · exact ⟨rfl, .inl rfl⟩
      · exact ⟨rfl, .inr ⟨ms, h1, h3⟩⟩
    · rintro ⟨rfl, rfl | ⟨ms, h1, h3⟩⟩
      · exact .inl ⟨rfl, rfl⟩
      · exact .inr ⟨ms, h1, rfl, h3⟩

theorem emptyStruct_impl {cfg : DecCfg F} {pools : Pools} {zero : Ty → Val F} {sel : List Byte → Nat → Prop} {R : Ty → Rel F}
    (hs : ∀ key i, ¬ sel key i) (o : DecOpts) (old : Val F) :
    Impl env (emptyObjectDecoder cfg pools o old) (StructRel cfg.disallowUnknownFields zero sel [] R o old) where
  sound := by
    intro l v r hr
    simp only [emptyStructRel_iff hs]
    unfold emptyObjectDecoder at hr
    simp only [runs_bind, runs_nextToken] at hr
    obtain ⟨c, l1, h1, h2⟩ := hr
    obtain ⟨w, hw, _, rfl⟩ := dropWs_eq_cons.mp h1
    by_cases hn : c = 0x6E
    · subst hn
      rw [if_pos rfl, runs_nullThen] at h2
      obtain ⟨rfl, rfl⟩ := h2
      exact ⟨w, nullText, hw, rfl, rfl, .inl rfl⟩
    rw [if_neg hn] at h2
    by_cases hc : c = 0x7B
    · subst hc
      rw [if_pos rfl] at h2
      cases hd : cfg.disallowUnknownFields with
      | true =>
        rw [hd] at h2
        simp only [if_true, runs_bind, runs_nextToken] at h2
        obtain ⟨d, l2, h3, h4⟩ := h2
        by_cases hd' : d = 0x7D
        · subst hd'
          rw [if_neg (by simp), runs_pure] at h4
          obtain ⟨rfl, rfl⟩ := h4
          obtain ⟨w2, hw2, _, rfl⟩ := dropWs_eq_cons.mp h3
          exact ⟨w, 0x7B :: (w2 ++ [0x7D]), hw, by simp, rfl, .inr ⟨w2, hw2, rfl⟩⟩
        · rw [if_pos hd'] at h4
          simp at h4
      | false =>
        rw [hd] at h2
        simp only [Bool.false_eq_true, if_false, runs_bind, skipFunction_iff, runs_pure] at h2
        obtain ⟨_, _, h3, rfl, rfl⟩ := h2
        obtain ⟨t, v, h4, h5, _⟩ := sval_iff.mp h3
        obtain ⟨u, h6⟩ : ∃ u, t = 0x7B :: u := by
          obtain ⟨c', u, rfl, _⟩ := value_headed h5
          cases h4
          exact ⟨u, rfl⟩
        exact ⟨w, t, hw, by rw [h4], rfl, .inr ⟨⟨v, h5⟩, u, h6⟩⟩
    · rw [if_neg hc] at h2
      simp at h2
  complete := by
    rintro l t v r hp ⟨w, hw, rfl, he⟩
    rw [emptyStructRel_iff hs] at hp
    obtain ⟨rfl, hp⟩ := hp
    unfold emptyObjectDecoder
    simp only [runs_bind, runs_nextToken]
    rcases hp with rfl | hp
    · exact ⟨0x6E, ull ++ r, dropWs_ws hw (by decide) _, by rw [if_pos rfl, runs_nullThen]; exact ⟨rfl, rfl⟩⟩
    · cases hd : cfg.disallowUnknownFields with
      | true =>
        rw [hd, if_pos rfl] at hp
        obtain ⟨w2, hw2, rfl⟩ := hp
        refine ⟨0x7B, w2 ++ 0x7D :: r, by simpa using dropWs_ws (c := 0x7B) hw (by decide) (w2 ++ 0x7D :: r), ?_⟩
        rw [if_neg (by decide), if_pos rfl, if_pos rfl]
        simp only [runs_bind, runs_nextToken]
        exact ⟨0x7D, r, dropWs_ws hw2 (by decide) r, by rw [if_neg (by simp), runs_pure]; exact ⟨rfl, rfl⟩⟩
      | false =>
        rw [hd, if_neg (by simp)] at hp
        obtain ⟨⟨j, hj⟩, u, rfl⟩ := hp
        refine ⟨0x7B, u ++ r, by simpa using dropWs_ws (c := 0x7B) hw (by decide) (u ++ r), ?_⟩
        rw [if_neg (by decide), if_pos rfl, if_neg (by simp)]
        simp only [runs_bind, skipFunction_iff, runs_pure]
        exact ⟨(), r, sval_iff.mpr ⟨_, j, rfl, hj, (endsAt_iff hj).mpr he⟩, trivial, rfl⟩
  head := by
    intro t v hp
    rw [emptyStructRel_iff hs] at hp
    obtain ⟨rfl, rfl | hp⟩ := hp
    · exact null_headed
    · split at hp
      · obtain ⟨w, _, rfl⟩ := hp
        exact cons_headed (by decide)
      · obtain ⟨_, u, rfl⟩ := hp
        exact cons_headed (by decide)

/-! ## Every type -/

/-- What the proofs assume about the functions that are not modelled. -/
structure DecLaws (Γ : TyEnv F) (cfg : DecCfg F) (sel : List (List Byte) → List Byte → Nat → Prop) : Prop where
  law32 : Lawful cfg.ops32
  law64 : Lawful cfg.ops64
  finds : ∀ i fs, Γ.defn i = .struct fs → Finds cfg (fs.map Field.name) (sel (fs.map Field.name))

theorem decoderOf_impl {Γ : TyEnv F} {cfg : DecCfg F} {sel : List (List Byte) → List Byte → Nat → Prop} (hl : DecLaws Γ cfg sel)
    (pools : Pools) (n : Nat) (T : Ty) (o : DecOpts) (old : Val F) :
    Impl env (decoderOf Γ cfg pools n T o old) (DecodesN Γ cfg true sel n T o old) := by
  induction n generalizing T o old with
  | zero =>
    induction T generalizing o old with
    | bool => simp only [decoderOf, decoderStep, namedDecoder, DecodesN]; exact bool_impl o old
    | str => simp only [decoderOf, decoderStep, namedDecoder, DecodesN]; exact string_impl pools o old
    | int w => simp only [decoderOf, decoderStep, namedDecoder, DecodesN]; exact int_impl (readIntOf_lit w) o old
    | uint w => simp only [decoderOf, decoderStep, namedDecoder, DecodesN]; exact int_impl (readUintOf_lit w) o old
    | float32 => simp only [decoderOf, decoderStep, namedDecoder, DecodesN]; exact float_impl hl.law32 o old
    | float64 => simp only [decoderOf, decoderStep, namedDecoder, DecodesN]; exact float_impl hl.law64 o old
    | number => simp only [decoderOf, decoderStep, namedDecoder, DecodesN]; exact number_impl o old
    | raw => simp only [decoderOf, decoderStep, namedDecoder, DecodesN]; exact raw_impl pools o old
    | any => simp only [decoderOf, decoderStep, namedDecoder, DecodesN]; exact any_impl (fun _ => hl.law64) pools o old
    | ptr t ih => simp only [decoderOf, decoderStep, namedDecoder, DecodesN]; exact ptr_impl ih o old
    | slice t ih => simp only [decoderOf, decoderStep, namedDecoder, DecodesN]; exact slice_impl ih o old
    | array k t ih => simp only [decoderOf, decoderStep, namedDecoder, DecodesN]; exact array_impl ih o old
    | map k t ih =>
      simp only [decoderOf, decoderStep, namedDecoder, DecodesN]
      obtain ⟨K, h1, h2⟩ := key_impl (F := F) (env := env) Γ pools k
      exact map_impl h1 h2 ih o old
    | jsonUnmarshaler i => simp only [decoderOf, decoderStep, namedDecoder, DecodesN]; exact json_impl pools _ o old
    | textUnmarshaler i => simp only [decoderOf, decoderStep, namedDecoder, DecodesN]; exact text_impl _ o old
    | unsupported =>
      simp only [decoderOf, decoderStep, namedDecoder, DecodesN]
      exact ⟨fun h => by simp [notSupportedDecoder] at h, fun h => h.elim, fun h => h.elim⟩
    | named i =>
      simp only [decoderOf, decoderStep, namedDecoder, DecodesN]
      exact ⟨fun h => by simp at h, fun h => h.elim, fun h => h.elim⟩
  | succ n ihn =>
    induction T generalizing o old with
    | bool => simp only [decoderOf, decoderStep, namedDecoder, DecodesN]; exact bool_impl o old
    | str => simp only [decoderOf, decoderStep, namedDecoder, DecodesN]; exact string_impl pools o old
    | int w => simp only [decoderOf, decoderStep, namedDecoder, DecodesN]; exact int_impl (readIntOf_lit w) o old
    | uint w => simp only [decoderOf, decoderStep, namedDecoder, DecodesN]; exact int_impl (readUintOf_lit w) o old
    | float32 => simp only [decoderOf, decoderStep, namedDecoder, DecodesN]; exact float_impl hl.law32 o old
    | float64 => simp only [decoderOf, decoderStep, namedDecoder, DecodesN]; exact float_impl hl.law64 o old
    | number => simp only [decoderOf, decoderStep, namedDecoder, DecodesN]; exact number_impl o old
    | raw => simp only [decoderOf, decoderStep, namedDecoder, DecodesN]; exact raw_impl pools o old
    | any => simp only [decoderOf, decoderStep, namedDecoder, DecodesN]; exact any_impl (fun _ => hl.law64) pools o old
    | ptr t ih => simp only [decoderOf, decoderStep, namedDecoder, DecodesN]; exact ptr_impl ih o old
    | slice t ih => simp only [decoderOf, decoderStep, namedDecoder, DecodesN]; exact slice_impl ih o old
    | array k t ih => simp only [decoderOf, decoderStep, namedDecoder, DecodesN]; exact array_impl ih o old
    | map k t ih =>
      simp only [decoderOf, decoderStep, namedDecoder, DecodesN]
      obtain ⟨K, h1, h2⟩ := key_impl (F := F) (env := env) Γ pools k
      exact map_impl h1 h2 ih o old
    | jsonUnmarshaler i => simp only [decoderOf, decoderStep, namedDecoder, DecodesN]; exact json_impl pools _ o old
    | textUnmarshaler i => simp only [decoderOf, decoderStep, namedDecoder, DecodesN]; exact text_impl _ o old
    | unsupported =>
      simp only [decoderOf, decoderStep, namedDecoder, DecodesN]
      exact ⟨fun h => by simp [notSupportedDecoder] at h, fun h => h.elim, fun h => h.elim⟩
    | named i =>
      rw [decoderOf, decoderStep, namedDecoder, DecodesN]
      cases hd : Γ.defn i with
      | slice t => exact slice_impl (ihn t) o old
      | array k t => exact array_impl (ihn t) o old
      | map k t =>
        obtain ⟨K, h1, h2⟩ := key_impl (F := F) (env := env) Γ pools k
        exact map_impl h1 h2 (ihn t) o old
      | struct fs =>
        have hf := hl.finds i fs hd
        cases fs with
        | nil =>
          refine emptyStruct_impl (fun key i hi => ?_) o old
          obtain ⟨o', h1, h2⟩ := hf key
          cases h1
          have := (h2 i).mp hi
          cases this
        | cons f fs => exact struct_impl hf ihn o old

/-! ## The depth of names -/

theorem each_mono {A B : Type} {R R' : A → B → Prop} {as : List A} {bs : List B} (h : ∀ a ∈ as, ∀ b, R a b → R' a b)
    (he : Each R as bs) : Each R' as bs := by
  induction he with
  | nil => exact .nil
  | cons h1 _ ih => exact .cons (h _ (by simp) _ h1) (ih fun a ha => h a (by simp [ha]))

theorem visits_mono {S X : Type} {G G' : S → X → S → Prop} {s s' : S} {xs : List X} (h : ∀ x ∈ xs, ∀ a b, G a x b → G' a x b)
    (hv : Visits G s xs s') : Visits G' s xs s' := by
  induction hv with
  | nil => exact .nil _
  | cons h1 _ ih => exact .cons (h _ (by simp) _ _ h1) (ih fun x hx => h x (by simp [hx]))

theorem atPath_mono {zero : Ty → Val F} {G G' : Val F → Val F → Prop} {p : List PathStep} {v v' : Val F}
    (h : ∀ a b, G a b → G' a b) (hp : AtPath zero G p v v') : AtPath zero G' p v v' := by
  obtain ⟨a, b, h1, h2⟩ := atPath_leaf hp
  exact h2 _ (h _ _ h1)

theorem objectOf_length {t : List Byte} {ms : List (List Byte × List Byte)} (h : ObjectOf t ms) : ∀ m ∈ ms, m.2.length < t.length := by
  obtain ⟨ts, h1, h2⟩ := h
  have hl := enclosed_length h1
  clear h1
  induction h2 with
  | nil => simp
  | cons h _ ih =>
    intro m hm
    rcases List.mem_cons.mp hm with rfl | hm
    · obtain ⟨w1, w2, _, _, rfl⟩ := h
      have := hl _ (List.mem_cons_self ..)
      simp at this
      omega
    · exact ih (fun u hu => hl u (List.mem_cons_of_mem _ hu)) m hm

section
variable {R R' : Rel F} {k : Nat}

theorem ptrRel_mono (h : ∀ o old t v, t.length < k → R o old t v → R' o old t v) {zero : Val F} {o : DecOpts} {old v : Val F}
    {t : List Byte} (ht : t.length < k) (hr : PtrRel zero R o old t v) : PtrRel zero R' o old t v := by
  rcases hr with hr | ⟨h1, x, h2, h3⟩
  · exact .inl hr
  · exact .inr ⟨h1, x, h _ _ _ _ ht h2, h3⟩

theorem sliceRel_mono (h : ∀ o old t v, t.length < k → R o old t v → R' o old t v) {base64 : List Byte → Except Err (List Byte)}
    {isByte : Bool} {zero : Val F} {o : DecOpts} {old v : Val F} {t : List Byte} (ht : t.length ≤ k)
    (hr : SliceRel base64 isByte zero R o old t v) : SliceRel base64 isByte zero R' o old t v := by
  rcases hr with hr | hr | ⟨ts, vs, h1, h2, h3⟩
  · exact .inl hr
  · exact .inr (.inl hr)
  · refine .inr (.inr ⟨ts, vs, h1, each_mono (fun u hu b hb => h _ _ _ _ ?_ hb) h2, h3⟩)
    have := enclosed_length h1 u hu
    omega

theorem arrayRel_mono (h : ∀ o old t v, t.length < k → R o old t v → R' o old t v) {n : Nat} {zero : Val F} {o : DecOpts} {old v : Val F}
    {t : List Byte} (ht : t.length ≤ k) (hr : ArrayRel n zero R o old t v) : ArrayRel n zero R' o old t v := by
  rcases hr with hr | ⟨ts, vs, h1, h2, h3, h4, h5, h6⟩
  · exact .inl hr
  · refine .inr ⟨ts, vs, h1, h2, h3, h4, fun i u x hu hx => h _ _ _ _ ?_ (h5 i u x hu hx), h6⟩
    have := enclosed_length h1 u (List.mem_of_getElem? hu)
    omega

theorem mapRel_mono (h : ∀ o old t v, t.length < k → R o old t v → R' o old t v) {K : List Byte → Key → Prop} {zero : Val F} {o : DecOpts}
    {old v : Val F} {t : List Byte} (ht : t.length ≤ k) (hr : MapRel K zero R o old t v) : MapRel K zero R' o old t v := by
  rcases hr with hr | ⟨ms, xs, h1, h2, h3⟩
  · exact .inl hr
  · refine .inr ⟨ms, xs, h1, each_mono (fun m hm b hb => ⟨hb.1, h _ _ _ _ ?_ hb.2⟩) h2, h3⟩
    have := objectOf_length h1 m hm
    omega

end

theorem structRel_mono {R R' : Ty → Rel F} {k : Nat} (h : ∀ T o old t v, t.length < k → R T o old t v → R' T o old t v)
    {strict : Bool} {zero : Ty → Val F} {sel : List Byte → Nat → Prop} {fs : List Field} {o : DecOpts} {old v : Val F}
    {t : List Byte} (ht : t.length ≤ k) (hr : StructRel strict zero sel fs R o old t v) :
    StructRel strict zero sel fs R' o old t v := by
  rcases hr with hr | ⟨ms, h1, h2⟩
  · exact .inl hr
  · refine .inr ⟨ms, h1, visits_mono (fun m hm a b hb => ?_) h2⟩
    have hl := objectOf_length h1 m hm
    obtain ⟨key, h3, ⟨i, f, h4, h5, h6⟩ | h4⟩ := hb
    · exact ⟨key, h3, .inl ⟨i, f, h4, h5, atPath_mono (fun a b hab => h _ _ _ _ _ (by omega) hab) h6⟩⟩
    · exact ⟨key, h3, .inr h4⟩

/-- A depth above the length of the text is enough. -/
theorem decodesN_depth {Γ : TyEnv F} {cfg : DecCfg F} {lax : Bool} {sel : List (List Byte) → List Byte → Nat → Prop} {m k : Nat} {T : Ty}
    {o : DecOpts} {old v : Val F} {t : List Byte} (hk : t.length < k) (h : DecodesN Γ cfg lax sel m T o old t v) :
    DecodesN Γ cfg lax sel k T o old t v := by
  induction k generalizing m T o old v t with
  | zero => omega
  | succ k ihk =>
    induction T generalizing o old v t with
    | ptr T ih =>
      simp only [DecodesN] at h ⊢
      exact ptrRel_mono (k := k + 1) (fun o old t v ht h => ih ht h) hk h
    | slice T ih =>
      simp only [DecodesN] at h ⊢
      exact sliceRel_mono (k := k + 1) (fun o old t v ht h => ih ht h) (by omega) h
    | array n T ih =>
      simp only [DecodesN] at h ⊢
      exact arrayRel_mono (k := k + 1) (fun o old t v ht h => ih ht h) (by omega) h
    | map K T ih =>
      simp only [DecodesN] at h ⊢
      exact mapRel_mono (k := k + 1) (fun o old t v ht h => ih ht h) (by omega) h
    | named i =>
      cases m with
      | zero => simp only [DecodesN] at h
      | succ m =>
        rw [DecodesN] at h ⊢
        cases hd : Γ.defn i with
        | slice T =>
          rw [hd] at h
          exact sliceRel_mono (k := k) (fun o old t v ht h => ihk ht h) (by omega) h
        | array n T =>
          rw [hd] at h
          exact arrayRel_mono (k := k) (fun o old t v ht h => ihk ht h) (by omega) h
        | map K T =>
          rw [hd] at h
          exact mapRel_mono (k := k) (fun o old t v ht h => ihk ht h) (by omega) h
        | struct fs =>
          rw [hd] at h
          exact structRel_mono (k := k) (fun T o old t v ht h => ihk ht h) (by omega) h
    | _ => simp only [DecodesN] at h ⊢ <;> exact h

theorem readVal_impl {Γ : TyEnv F} {cfg : DecCfg F} {sel : List (List Byte) → List Byte → Nat → Prop} (hl : DecLaws Γ cfg sel)
    (pools : Pools) (T : Ty) (old : Val F) : Impl env (ReadVal Γ cfg pools T old) (Decodes Γ cfg true sel T old) where
  sound := by
    intro l v r h
    unfold ReadVal at h
    simp only [runs_bind, runs_remaining] at h
    obtain ⟨n, _, ⟨rfl, rfl⟩, h⟩ := h
    obtain ⟨w, t, hw, h1, h2⟩ := (decoderOf_impl hl pools _ T {} old).sound h
    exact ⟨w, t, hw, h1, _, h2⟩
  complete := by
    rintro l t v r ⟨n, h⟩ hs
    unfold ReadVal
    simp only [runs_bind, runs_remaining]
    refine ⟨_, _, ⟨rfl, rfl⟩, (decoderOf_impl hl pools _ T {} old).complete (decodesN_depth ?_ h) hs⟩
    obtain ⟨w, hw, rfl, _⟩ := hs
    simp
    omega
  head := by
    rintro t v ⟨n, h⟩
    exact (decoderOf_impl (env := env) hl pools n T {} old).head h

end

end Jzon
