import Verif.Spec.HasTy
import Verif.Proof.TypedTop

/-!
# Decoding gives values of the type
-/

set_option linter.unusedSimpArgs false

namespace Jzon

open Spec

section
variable {F : Type} {Γ : TyEnv F} {cfg : DecCfg F} {L : Nat → List Ty} {lax : Bool} {sel : List (List Byte) → List Byte → Nat → Prop}

theorem hasTy_zero (hd : Declared Γ L) (T : Ty) : HasTy Γ L T (Γ.zero cfg T) := by
  induction T with
  | bool => exact .bool _
  | str => exact .str _
  | int w => exact .int _ _ (by cases w <;> simp [Fits, Width.bits])
  | uint w => exact .uint _ _ (by simp) (by cases w <;> simp [Width.bits])
  | float32 => exact .float32 _
  | float64 => exact .float64 _
  | number => exact .number _
  | raw => exact .raw _
  | any => exact .any _
  | ptr t => exact .nilPtr _
  | slice t => exact .nilSlice _ _ (.slice _)
  | array n t ih =>
    refine .arr _ _ _ _ (.array _ _) (by simp) ?_
    intro v hv
    rw [List.eq_of_mem_replicate hv]
    exact ih
  | map k t => exact .nilMap _ _ _ (.map _ _)
  | named i => exact hd.zero i
  | jsonUnmarshaler i => exact .jsonUnmarshaler _ _
  | textUnmarshaler i => exact .textUnmarshaler _ _
  | unsupported => exact .unsupported _

theorem is_slice_inj {T E E' : Ty} (h : Is Γ T (.slice E)) (h' : Is Γ T (.slice E')) : E = E' := by
  cases h with
  | slice => cases h'; rfl
  | named i _ h => cases h' with
    | named _ _ h' => rw [h] at h'; cases h'; rfl

theorem is_array_inj {T E E' : Ty} {n n' : Nat} (h : Is Γ T (.array n E)) (h' : Is Γ T (.array n' E')) : n = n' ∧ E = E' := by
  cases h with
  | array => cases h'; exact ⟨rfl, rfl⟩
  | named i _ h => cases h' with
    | named _ _ h' => rw [h] at h'; cases h'; exact ⟨rfl, rfl⟩

theorem is_map_inj {T E E' : Ty} {n n' : KeyTy} (h : Is Γ T (.map n E)) (h' : Is Γ T (.map n' E')) : n = n' ∧ E = E' := by
  cases h with
  | map => cases h'; exact ⟨rfl, rfl⟩
  | named i _ h => cases h' with
    | named _ _ h' => rw [h] at h'; cases h'; exact ⟨rfl, rfl⟩

theorem pointee_hasTy (hd : Declared Γ L) {T : Ty} {old : Val F} (h : HasTy Γ L (.ptr T) old) :
    HasTy Γ L T (pointee (Γ.zero cfg T) old) := by
  cases h with
  | nilPtr => exact hasTy_zero hd T
  | ptr _ _ h => exact h
  | nilSlice _ _ h => cases h
  | slice _ _ _ h => cases h
  | arr _ _ _ _ h => cases h
  | nilMap _ _ _ h => cases h
  | map _ _ _ _ h => cases h

theorem element_hasTy (hd : Declared Γ L) {T E : Ty} {n : Nat} (hT : Is Γ T (.array n E)) {old : Val F} (h : HasTy Γ L T old) (i : Nat) :
    HasTy Γ L E (element (Γ.zero cfg E) old i) := by
  have hz := hasTy_zero (cfg := cfg) hd E
  cases h with
  | arr _ E' n' vs hT' hn h =>
    obtain ⟨rfl, rfl⟩ := is_array_inj hT hT'
    simp only [element]
    cases hv : vs[i]? with
    | none => exact hz
    | some v => exact h v (List.mem_of_getElem? hv)
  | jsonUnmarshaler => cases hT
  | textUnmarshaler => cases hT
  | unsupported => cases hT
  | _ => exact hz

theorem entries_hasTy {T E : Ty} {K : KeyTy} (hT : Is Γ T (.map K E)) {old : Val F} (h : HasTy Γ L T old) {k : Key} {v : Val F}
    (hv : entries old k = some v) : KeyOf Γ K k ∧ HasTy Γ L E v := by
  cases h with
  | map _ E' K' m hT' hk h =>
    obtain ⟨rfl, rfl⟩ := is_map_inj hT hT'
    exact ⟨hk k v hv, h k v hv⟩
  | jsonUnmarshaler => cases hT
  | textUnmarshaler => cases hT
  | unsupported => cases hT
  | _ => cases hv

/-- A change along a path keeps the type. -/
theorem atPath_hasTy (hd : Declared Γ L) {G : Val F → Val F → Prop} {p : List PathStep} {T T' : Ty} (hp : PathTy Γ L T p T')
    {s s' : Val F} (hs : HasTy Γ L T s) (hG : ∀ a b, HasTy Γ L T' a → G a b → HasTy Γ L T' b) (h : AtPath (Γ.zero cfg) G p s s') :
    HasTy Γ L T s' := by
  induction hp generalizing s s' with
  | here T => cases h with
    | here _ _ h => exact hG _ _ hs h
  | member i k fs T T' p hdef hk hp ih => cases h with
    | member _ _ vs a b hi h =>
      cases hs with
      | struct _ fs' _ hT hn hv =>
        refine .struct _ fs _ hdef (by simpa using hn) fun j v T1 h1 h2 => ?_
        by_cases hjk : k = j
        · subst hjk
          rw [hk] at h2
          cases h2
          have hlt : k < vs.length := (List.getElem?_eq_some_iff.mp hi).1
          rw [List.getElem?_set_self hlt] at h1
          cases h1
          exact ih (hv k a T hi hk) hG h
        · rw [List.getElem?_set_ne hjk] at h1
          exact hv j v T1 h1 h2
  | deref e T T' p hp ih => cases h with
    | deref _ _ _ a b h =>
      cases hs with
      | ptr _ _ hs => exact .ptr _ _ (ih hs hG h)
    | alloc _ _ b h => exact .ptr _ _ (ih (hasTy_zero hd T) hG h)

theorem visits_inv {S X : Type} {G : S → X → S → Prop} (I : S → Prop) (hG : ∀ s x s', I s → G s x s' → I s') {s s' : S} {xs : List X}
    (h : Visits G s xs s') (hs : I s) : I s' := by
  induction h with
  | nil => exact hs
  | cons h _ ih => exact ih (hG _ _ _ hs h)

theorem keyRel_ok (hd : Declared Γ L) {K : KeyTy} {t : List Byte} {k : Key} (h : KeyRel Γ lax K t k) : KeyOf Γ K k := by
  suffices KeyOk K k ∧ ∀ i, K = .text i → Γ.isKey i k from this
  refine ⟨?_, ?_⟩
  case refine_2 =>
    rintro i rfl
    rcases h with ⟨s, x, _, hx, rfl⟩ | ⟨_, _, rfl⟩
    · exact (hd.keys i).2 s x hx
    · exact (hd.keys i).1
  cases K with
  | str =>
    rcases h with ⟨s, _, rfl⟩ | ⟨_, _, rfl⟩
    · exact ⟨s, rfl⟩
    · exact ⟨_, rfl⟩
  | int w =>
    rcases h with ⟨u, z, ⟨_, _, _, h⟩, _, rfl⟩ | ⟨_, _, rfl⟩
    · exact ⟨z, rfl, h⟩
    · exact ⟨0, rfl, by cases w <;> simp [Fits, Width.bits]⟩
  | uint w =>
    rcases h with ⟨u, z, ⟨_, h, rfl⟩, _, rfl⟩ | ⟨_, _, rfl⟩
    · exact ⟨_, rfl, by omega, by exact_mod_cast h⟩
    · exact ⟨0, rfl, by simp, by cases w <;> simp [Width.bits]⟩
  | text i => trivial

theorem each_right {A B : Type} {R : A → B → Prop} {as : List A} {bs : List B} (h : Each R as bs) {b : B} (hb : b ∈ bs) : ∃ a ∈ as, R a b := by
  induction h with
  | nil => cases hb
  | cons h _ ih =>
    rcases List.mem_cons.mp hb with rfl | hb
    · exact ⟨_, by simp, h⟩
    · obtain ⟨a, h1, h2⟩ := ih hb
      exact ⟨a, by simp [h1], h2⟩

theorem sliceRel_hasTy (hd : Declared Γ L) {T E : Ty} (hT : Is Γ T (.slice E)) {R : Rel F}
    (hR : ∀ t v, R {} (Γ.zero cfg E) t v → HasTy Γ L E v) {o : DecOpts} {old v : Val F} {t : List Byte}
    (h : SliceRel cfg.base64 (E == .uint .w8) (Γ.zero cfg E) R o old t v) : HasTy Γ L T v := by
  rcases h with ⟨_, rfl⟩ | ⟨he, b, s, data, _, _, _, rfl⟩ | ⟨ts, vs, _, h, rfl⟩
  · exact .nilSlice _ _ hT
  · have := eq_of_beq he
    subst this
    refine .slice _ _ _ hT fun v hv => ?_
    obtain ⟨c, _, rfl⟩ := List.mem_map.mp hv
    exact .uint _ _ (by omega) (by have := c.toNat_lt; simp only [Width.bits]; omega)
  · refine .slice _ _ _ hT fun v hv => ?_
    obtain ⟨_, _, h⟩ := each_right h hv
    exact hR _ _ h

theorem arrayRel_hasTy (hd : Declared Γ L) {T E : Ty} {n : Nat} (hT : Is Γ T (.array n E)) {R : Rel F}
    (hR : ∀ old t v, HasTy Γ L E old → R {} old t v → HasTy Γ L E v) {o : DecOpts} {old v : Val F} {t : List Byte}
    (hold : HasTy Γ L T old) (h : ArrayRel n (Γ.zero cfg E) R o old t v) : HasTy Γ L T v := by
  rcases h with ⟨_, rfl⟩ | ⟨ts, vs, _, rfl, hn, _, h1, h2⟩
  · exact hold
  · refine .arr _ _ _ _ hT hn fun v hv => ?_
    obtain ⟨i, hi⟩ := List.getElem?_of_mem hv
    cases hu : ts[i]? with
    | some u => exact hR _ _ _ (element_hasTy hd hT hold i) (h1 i u v hu hi)
    | none =>
      rw [h2 i v (List.getElem?_eq_none_iff.mp hu) hi]
      exact hasTy_zero hd E

theorem putAll_cases {m : Key → Option (Val F)} {xs : List (Key × Val F)} {k : Key} {v : Val F} (h : putAll m xs k = some v) :
    (k, v) ∈ xs ∨ m k = some v := by
  unfold putAll at h
  cases hf : xs.reverse.find? (fun x => x.1 == k) with
  | some x =>
    rw [hf] at h
    cases h
    have h1 := List.mem_of_find?_eq_some hf
    have h2 := List.find?_some hf
    have : x.1 = k := eq_of_beq h2
    subst this
    exact .inl (by simpa using h1)
  | none =>
    rw [hf] at h
    exact .inr h

theorem each_left {A B : Type} {R : A → B → Prop} {as : List A} {bs : List B} (h : Each R as bs) {a : A} (ha : a ∈ as) : ∃ b ∈ bs, R a b := by
  induction h with
  | nil => cases ha
  | cons h _ ih =>
    rcases List.mem_cons.mp ha with rfl | ha
    · exact ⟨_, by simp, h⟩
    · obtain ⟨a, h1, h2⟩ := ih ha
      exact ⟨a, by simp [h1], h2⟩

theorem mapRel_hasTy (hd : Declared Γ L) {T E : Ty} {K : KeyTy} (hT : Is Γ T (.map K E)) {R : Rel F}
    (hR : ∀ t v, R {} (Γ.zero cfg E) t v → HasTy Γ L E v) {o : DecOpts} {old v : Val F} {t : List Byte} (hold : HasTy Γ L T old)
    (h : MapRel (KeyRel Γ lax K) (Γ.zero cfg E) R o old t v) : HasTy Γ L T v := by
  rcases h with ⟨_, rfl⟩ | ⟨ms, xs, _, h, rfl⟩
  · exact .nilMap _ _ _ hT
  · have key : ∀ k v, putAll (entries old) xs k = some v → KeyOf Γ K k ∧ HasTy Γ L E v := by
      intro k v hv
      rcases putAll_cases hv with hx | hx
      · obtain ⟨m, _, h1, h2⟩ := each_right h hx
        exact ⟨keyRel_ok hd h1, hR _ _ h2⟩
      · exact entries_hasTy hT hold hx
    exact .map _ _ _ _ hT (fun k v h => (key k v h).1) (fun k v h => (key k v h).2)

theorem structRel_hasTy (hd : Declared Γ L) {i : Nat} {fs : List Field} (hdef : Γ.defn i = .struct fs) {strict : Bool}
    {sel : List Byte → Nat → Prop} {R : Ty → Rel F} (hR : ∀ T o old t v, HasTy Γ L T old → R T o old t v → HasTy Γ L T v)
    {o : DecOpts} {old v : Val F} {t : List Byte} (hold : HasTy Γ L (.named i) old)
    (h : StructRel strict (Γ.zero cfg) sel fs R o old t v) : HasTy Γ L (.named i) v := by
  rcases h with ⟨_, rfl⟩ | ⟨ms, _, h⟩
  · exact hold
  · refine visits_inv (HasTy Γ L (.named i)) ?_ h hold
    rintro s m s' hs ⟨key, _, ⟨k, f, _, hf, h⟩ | ⟨_, _, _, rfl⟩⟩
    · exact atPath_hasTy hd (hd.fields i fs f hdef (List.mem_of_getElem? hf)) hs (fun a b ha h => hR _ _ _ _ _ ha h) h
    · exact hs

theorem decodesN_hasTy (hd : Declared Γ L) {n : Nat} {T : Ty} {o : DecOpts} {old v : Val F} {t : List Byte} (hold : HasTy Γ L T old)
    (h : DecodesN Γ cfg lax sel n T o old t v) : HasTy Γ L T v := by
  have base : ∀ n, (∀ i o old t v, HasTy Γ L (.named i) old → DecodesN Γ cfg lax sel n (.named i) o old t v → HasTy Γ L (.named i) v) →
      ∀ T o old t v, HasTy Γ L T old → DecodesN Γ cfg lax sel n T o old t v → HasTy Γ L T v := by
    intro n hn T
    induction T with
    | named i => exact hn i
    | bool =>
      intro o old t v hold h
      simp only [DecodesN] at h
      have lit : ∀ u, BoolLit old u v → HasTy Γ L .bool v := by
        rintro u (⟨_, rfl⟩ | ⟨_, rfl⟩ | ⟨_, rfl⟩)
        · exact hold
        · exact .bool _
        · exact .bool _
      rcases h with h | ⟨_, w, u, _, _, h⟩
      · exact lit _ h
      · exact lit _ h
    | str =>
      intro o old t v hold h
      simp only [DecodesN] at h
      rcases h with ⟨_, rfl⟩ | ⟨s, _, h⟩
      · exact hold
      · split at h
        · rcases h with ⟨_, rfl⟩ | ⟨s', _, rfl⟩
          · exact hold
          · exact .str _
        · subst h; exact .str _
    | int w =>
      intro o old t v hold h
      simp only [DecodesN] at h
      rcases h with ⟨_, rfl⟩ | ⟨u, z, ⟨_, _, _, h⟩, rfl, _⟩
      · exact hold
      · exact .int _ _ h
    | uint w =>
      intro o old t v hold h
      simp only [DecodesN] at h
      rcases h with ⟨_, rfl⟩ | ⟨u, z, ⟨_, h, rfl⟩, rfl, _⟩
      · exact hold
      · exact .uint _ _ (by omega) (by exact_mod_cast h)
    | float32 =>
      intro o old t v hold h
      simp only [DecodesN] at h
      rcases h with ⟨_, rfl⟩ | ⟨f, _, _, rfl⟩
      · exact hold
      · exact .float32 _
    | float64 =>
      intro o old t v hold h
      simp only [DecodesN] at h
      rcases h with ⟨_, rfl⟩ | ⟨f, _, _, rfl⟩
      · exact hold
      · exact .float64 _
    | number =>
      intro o old t v hold h
      simp only [DecodesN] at h
      rcases h with ⟨_, rfl⟩ | ⟨f, _, _, rfl⟩
      · exact hold
      · exact .number _
    | raw =>
      intro o old t v hold h
      simp only [DecodesN] at h
      obtain ⟨_, rfl⟩ := h
      exact .raw _
    | any =>
      intro o old t v hold h
      simp only [DecodesN] at h
      obtain ⟨_, _, _, _, rfl⟩ := h
      exact .any _
    | ptr T ih =>
      intro o old t v hold h
      simp only [DecodesN] at h
      rcases h with ⟨_, rfl⟩ | ⟨_, x, h, rfl⟩
      · exact .nilPtr _
      · exact .ptr _ _ (ih _ _ _ _ (pointee_hasTy hd hold) h)
    | slice T ih =>
      intro o old t v hold h
      simp only [DecodesN] at h
      exact sliceRel_hasTy hd (.slice T) (fun t v h => ih _ _ _ _ (hasTy_zero hd T) h) h
    | array k T ih =>
      intro o old t v hold h
      simp only [DecodesN] at h
      exact arrayRel_hasTy hd (.array k T) (fun _ t v ho h => ih _ _ _ _ ho h) hold h
    | map k T ih =>
      intro o old t v hold h
      simp only [DecodesN] at h
      exact mapRel_hasTy hd (.map k T) (fun t v h => ih _ _ _ _ (hasTy_zero hd T) h) hold h
    | jsonUnmarshaler i => intro o old t v _ _; exact .jsonUnmarshaler _ _
    | textUnmarshaler i => intro o old t v _ _; exact .textUnmarshaler _ _
    | unsupported => intro o old t v _ _; exact .unsupported _
  suffices hx : ∀ n T o old t v, HasTy Γ L T old → DecodesN Γ cfg lax sel n T o old t v → HasTy Γ L T v from hx _ _ _ _ _ _ hold h
  intro n
  induction n with
  | zero =>
    refine base 0 ?_
    intro i o old t v _ h
    simp only [DecodesN] at h
  | succ n ih =>
    refine base (n + 1) ?_
    intro i o old t v hold h
    simp only [DecodesN] at h
    cases hdef : Γ.defn i with
    | slice T =>
      rw [hdef] at h
      exact sliceRel_hasTy hd (.named i _ hdef) (fun t v h => ih _ _ _ _ _ (hasTy_zero hd T) h) h
    | array k T =>
      rw [hdef] at h
      exact arrayRel_hasTy hd (.named i _ hdef) (fun _ t v ho h => ih _ _ _ _ _ ho h) hold h
    | map k T =>
      rw [hdef] at h
      exact mapRel_hasTy hd (.named i _ hdef) (fun t v h => ih _ _ _ _ _ (hasTy_zero hd T) h) hold h
    | struct fs =>
      rw [hdef] at h
      exact structRel_hasTy hd hdef (fun T o old t v ho h => ih _ _ _ _ _ ho h) hold h

end

end Jzon
