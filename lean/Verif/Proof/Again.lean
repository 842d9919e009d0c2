import Verif.Proof.HasTy
import Verif.Proof.Patch

/-!
# Whether a text is accepted does not depend on the variable
-/

set_option linter.unusedSimpArgs false

namespace Jzon

open Spec

section
variable {F : Type} {Γ : TyEnv F} {cfg : DecCfg F} {L : Nat → List Ty} {sel : List (List Byte) → List Byte → Nat → Prop}

theorem atPath_total (hd : Declared Γ L) {G : Val F → Val F → Prop} {p : List PathStep} {T T' : Ty} (hp : PathTy Γ L T p T')
    (he : ∀ U, .deref false U ∉ p) (hG : ∀ a a' b, HasTy Γ L T' a → HasTy Γ L T' a' → G a b → ∃ b', G a' b')
    {s s' b : Val F} (hs : HasTy Γ L T s) (hs' : HasTy Γ L T s') (h : AtPath (Γ.zero cfg) G p s b) :
    ∃ b', AtPath (Γ.zero cfg) G p s' b' := by
  induction hp generalizing s s' b with
  | here T =>
    cases h with
    | here _ _ h =>
      obtain ⟨b', h⟩ := hG _ _ _ hs hs' h
      exact ⟨b', .here _ _ h⟩
  | member i k fs T T' p hdef hk hp ih =>
    cases h with
    | member _ _ vs a b hi h =>
      cases hs with
      | struct _ fs1 _ hT hn hv =>
        cases hs' with
        | struct _ fs2 vs' hT' hn' hv' =>
          have hlt : k < vs'.length := by
            rw [hn', ← hn]
            exact (List.getElem?_eq_some_iff.mp hi).1
          have hi' : vs'[k]? = some vs'[k] := List.getElem?_eq_getElem hlt
          obtain ⟨b', h⟩ := ih (fun U hU => he U (List.mem_cons_of_mem _ hU)) hG (hv k a T hi hk) (hv' k _ T hi' hk) h
          exact ⟨_, .member _ _ _ _ _ hi' h⟩
        | nilSlice _ _ h => cases h with | named _ _ h => rw [hT] at h; cases h
        | slice _ _ _ h => cases h with | named _ _ h => rw [hT] at h; cases h
        | arr _ _ _ _ h => cases h with | named _ _ h => rw [hT] at h; cases h
        | nilMap _ _ _ h => cases h with | named _ _ h => rw [hT] at h; cases h
        | map _ _ _ _ h => cases h with | named _ _ h => rw [hT] at h; cases h
  | deref e T T' p hp ih =>
    obtain rfl : e = true := by
      cases e with
      | true => rfl
      | false => exact absurd (List.mem_cons_self ..) (he T)
    have hsub : ∀ U, .deref false U ∉ p := fun U hU => he U (List.mem_cons_of_mem _ hU)
    have hin : ∃ a b, HasTy Γ L T a ∧ AtPath (Γ.zero cfg) G p a b := by
      cases h with
      | deref _ _ _ a b h =>
        cases hs with
        | ptr _ _ hs => exact ⟨a, b, hs, h⟩
      | alloc _ _ b h => exact ⟨_, b, hasTy_zero hd T, h⟩
    obtain ⟨a, b, ha, h⟩ := hin
    cases hs' with
    | nilPtr =>
      obtain ⟨b', h⟩ := ih hsub hG ha (hasTy_zero hd T) h
      exact ⟨_, .alloc _ _ _ h⟩
    | ptr _ _ hs' =>
      obtain ⟨b', h⟩ := ih hsub hG ha hs' h
      exact ⟨_, .deref _ _ _ _ _ h⟩
    | nilSlice _ _ h => cases h
    | slice _ _ _ h => cases h
    | arr _ _ _ _ h => cases h
    | nilMap _ _ _ h => cases h
    | map _ _ _ _ h => cases h

theorem visits_total {X : Type} {G : Val F → X → Val F → Prop} {P : Val F → Prop} {xs : List X} (hP : ∀ s x s', P s → G s x s' → P s')
    (hG : ∀ x ∈ xs, ∀ s s' b, P s → P s' → G s x b → ∃ b', G s' x b') {s s' b : Val F} (hs : P s) (hs' : P s') (h : Visits G s xs b) :
    ∃ b', Visits G s' xs b' := by
  induction xs generalizing s s' with
  | nil => exact ⟨_, .nil _⟩
  | cons x xs ih =>
    cases h with
    | cons ha hb =>
      obtain ⟨c, hc⟩ := hG x (by simp) _ _ _ hs hs' ha
      obtain ⟨d, hd⟩ := ih (fun x hx => hG x (by simp [hx])) (hP _ _ _ hs ha) (hP _ _ _ hs' hc) hb
      exact ⟨d, .cons hc hd⟩

/-- If a text is accepted for one value of the variable, it is for all others. -/
theorem decodesO_total (hD : Declared Γ L) (hM : MethodsOverwrite Γ) (hE : AllExported Γ) (n : Nat) (T : Ty) (o : DecOpts) (t : List Byte)
    (hn : t.length < n) (a a' v : Val F) (ha : HasTy Γ L T a) (ha' : HasTy Γ L T a') (h : DecodesO Γ cfg true sel T o a t v) :
    ∃ v', DecodesO Γ cfg true sel T o a' t v' := by
  induction n generalizing T o t a a' v with
  | zero => omega
  | succ n ihn =>
    have blunt : ∀ {T : Ty} {R : Rel F}, Blunt R → (∀ o a t v, DecodesO Γ cfg true sel T o a t v ↔ R o a t v) → ∀ o t a a' v,
        DecodesO Γ cfg true sel T o a t v → ∃ v', DecodesO Γ cfg true sel T o a' t v' := by
      intro T R hb hR o t a a' v h
      rcases hb o a t v ((hR _ _ _ _).mp h) with ⟨_, h⟩ | h
      · exact ⟨_, (hR _ _ _ _).mpr (h a')⟩
      · exact ⟨_, (hR _ _ _ _).mpr (h a')⟩
    have slice : ∀ {T E : Ty}, Is Γ T (.slice E) → ∀ o t a a' v,
        DecodesO Γ cfg true sel T o a t v → ∃ v', DecodesO Γ cfg true sel T o a' t v' := by
      intro T E hT o t a a' v h
      refine blunt (R := SliceRel cfg.base64 (E == .uint .w8) (Γ.zero cfg E) (DecodesO Γ cfg true sel E)) ?_
        (fun o a t v => decodesO_slice hT) o t a a' v h
      exact fun o a t v h => .inr fun _ => h
    have array : ∀ {T E : Ty} {k : Nat}, Is Γ T (.array k E) → ∀ o t, t.length < n + 1 → ∀ a a' v, HasTy Γ L T a → HasTy Γ L T a' →
        DecodesO Γ cfg true sel T o a t v → ∃ v', DecodesO Γ cfg true sel T o a' t v' := by
      intro T E k hT o t hn a a' v ha ha' h
      rcases (decodesO_array hT).mp h with ⟨h, _⟩ | ⟨ts, vs, ht, rfl, hvs, h1, h2, h3⟩
      · exact ⟨a', (decodesO_array hT).mpr (.inl ⟨h, rfl⟩)⟩
      · have hlen := enclosed_length ht
        have hq : ∀ i, ∃ x, (∀ u, i < k → ts[i]? = some u → DecodesO Γ cfg true sel E {} (element (Γ.zero cfg E) a' i) u x) ∧
            (ts.length ≤ i → x = Γ.zero cfg E) := by
          intro i
          cases hi : ts[i]? with
          | none => exact ⟨Γ.zero cfg E, by simp, fun _ => rfl⟩
          | some u =>
            have hlt := (List.getElem?_eq_some_iff.mp hi).1
            by_cases hik : i < k
            · obtain ⟨x, hx⟩ := ihn E {} u (by have := hlen u (List.mem_of_getElem? hi); omega) _ _ _
                (element_hasTy hD hT ha i) (element_hasTy hD hT ha' i) (h2 i u _ hi (List.getElem?_eq_getElem (by omega)))
              exact ⟨x, fun u' _ hu => by cases hu; exact hx, by omega⟩
            · exact ⟨Γ.zero cfg E, fun _ h => absurd h hik, by omega⟩
        refine ⟨.arr ((List.range k).map fun i => (hq i).choose), (decodesO_array hT).mpr (.inr ⟨ts, _, ht, rfl, by simp, h1, ?_, ?_⟩)⟩
        · intro i u x hu hx
          simp only [List.getElem?_map, Option.map_eq_some_iff] at hx
          obtain ⟨j, hj, rfl⟩ := hx
          obtain ⟨hlt, hj⟩ := List.getElem?_eq_some_iff.mp hj
          simp at hj hlt
          subst hj
          exact (hq i).choose_spec.1 u hlt hu
        · intro i x hle hx
          simp only [List.getElem?_map, Option.map_eq_some_iff] at hx
          obtain ⟨j, hj, rfl⟩ := hx
          obtain ⟨hlt, hj⟩ := List.getElem?_eq_some_iff.mp hj
          simp at hj hlt
          subst hj
          exact (hq i).choose_spec.2 hle
    have map : ∀ {T E : Ty} {K : KeyTy}, Is Γ T (.map K E) → ∀ o t a a' v,
        DecodesO Γ cfg true sel T o a t v → ∃ v', DecodesO Γ cfg true sel T o a' t v' := by
      intro T E K hT o t a a' v h
      rcases (decodesO_map hT).mp h with ⟨h1, h2⟩ | ⟨ms, xs, h1, h2, h3⟩
      · exact ⟨_, (decodesO_map hT).mpr (.inl ⟨h1, rfl⟩)⟩
      · exact ⟨_, (decodesO_map hT).mpr (.inr ⟨ms, xs, h1, h2, rfl⟩)⟩
    have struct : ∀ {i : Nat} {fs : List Field}, Γ.defn i = .struct fs → ∀ o t, t.length < n + 1 → ∀ a a' v, HasTy Γ L (.named i) a →
        HasTy Γ L (.named i) a' → DecodesO Γ cfg true sel (.named i) o a t v → ∃ v', DecodesO Γ cfg true sel (.named i) o a' t v' := by
      intro i fs hd o t hn a a' v ha ha' h
      rcases (decodesO_struct hd).mp h with ⟨h, _⟩ | ⟨ms, ht, h⟩
      · exact ⟨a', (decodesO_struct hd).mpr (.inl ⟨h, rfl⟩)⟩
      · have hlen := objectOf_length ht
        obtain ⟨v', h⟩ := visits_total (P := HasTy Γ L (.named i)) (by
            rintro s m s' hs ⟨key, _, ⟨j, f, _, hf, h⟩ | ⟨_, _, _, rfl⟩⟩
            · refine atPath_hasTy hD (hD.fields i fs f hd (List.mem_of_getElem? hf)) hs ?_ h
              rintro a b ha ⟨k, h⟩
              exact decodesN_hasTy hD ha h
            · exact hs) (by
            rintro m hm s s' b hs hs' ⟨key, hk, ⟨j, f, hj, hf, h⟩ | ⟨h1, h2, h3, _⟩⟩
            · obtain ⟨b', h⟩ := atPath_total hD (hD.fields i fs f hd (List.mem_of_getElem? hf)) (hE i fs f hd (List.mem_of_getElem? hf))
                (fun a a' b ha ha' h => ihn f.ty _ m.2 (by have := hlen m hm; omega) a a' b ha ha' h) hs hs' h
              exact ⟨b', key, hk, .inl ⟨j, f, hj, hf, h⟩⟩
            · exact ⟨s', key, hk, .inr ⟨h1, h2, h3, rfl⟩⟩) ha ha' h
        exact ⟨v', (decodesO_struct hd).mpr (.inr ⟨ms, ht, h⟩)⟩
    have simple : ∀ {T : Ty} {R : Rel F}, (∀ k, DecodesN Γ cfg true sel k T = R) → ∀ o a t v, DecodesO Γ cfg true sel T o a t v ↔ R o a t v := by
      intro T R h o a t v
      exact ⟨fun ⟨k, hk⟩ => h k ▸ hk, fun h' => ⟨0, by rw [h]; exact h'⟩⟩
    induction T generalizing o t a a' v with
    | bool => exact blunt (boolRel_blunt (lax := true)) (simple fun k => by cases k <;> simp only [DecodesN]) o t a a' v h
    | str => exact blunt strRel_blunt (simple fun k => by cases k <;> simp only [DecodesN]) o t a a' v h
    | int w => exact blunt (intRel_blunt (lit := IntLit w.bits)) (simple fun k => by cases k <;> simp only [DecodesN]) o t a a' v h
    | uint w => exact blunt (intRel_blunt (lit := UintLit w.bits)) (simple fun k => by cases k <;> simp only [DecodesN]) o t a a' v h
    | float32 => exact blunt (floatRel_blunt (ops := cfg.ops32)) (simple fun k => by cases k <;> simp only [DecodesN]) o t a a' v h
    | float64 => exact blunt (floatRel_blunt (ops := cfg.ops64)) (simple fun k => by cases k <;> simp only [DecodesN]) o t a a' v h
    | number => exact blunt numberRel_blunt (simple fun k => by cases k <;> simp only [DecodesN]) o t a a' v h
    | raw => exact blunt (R := RawRel) (fun _ _ _ _ h => .inr fun _ => h) (simple fun k => by cases k <;> simp only [DecodesN]) o t a a' v h
    | any => exact blunt (R := AnyRel cfg) (fun _ _ _ _ h => .inr fun _ => h) (simple fun k => by cases k <;> simp only [DecodesN]) o t a a' v h
    | ptr T ih =>
      rcases decodesO_ptr.mp h with ⟨h, _⟩ | ⟨hnn, x, hx, rfl⟩
      · exact ⟨_, decodesO_ptr.mpr (.inl ⟨h, rfl⟩)⟩
      · obtain ⟨x', hx'⟩ := ih o t hn _ _ _ (pointee_hasTy hD ha) (pointee_hasTy hD ha') hx
        exact ⟨_, decodesO_ptr.mpr (.inr ⟨hnn, x', hx', rfl⟩)⟩
    | slice T ih => exact slice (.slice T) o t a a' v h
    | array k T ih => exact array (.array k T) o t hn a a' v ha ha' h
    | map K T ih => exact map (.map K T) o t a a' v h
    | named i =>
      cases hd : Γ.defn i with
      | slice T => exact slice (.named i _ hd) o t a a' v h
      | array k T => exact array (.named i _ hd) o t hn a a' v ha ha' h
      | map K T => exact map (.named i _ hd) o t a a' v h
      | struct fs => exact struct hd o t hn a a' v ha ha' h
    | jsonUnmarshaler i => exact blunt (jsonRel_blunt (hM.json i)) (simple fun k => by cases k <;> simp only [DecodesN]) o t a a' v h
    | textUnmarshaler i => exact blunt (textRel_blunt (hM.text i)) (simple fun k => by cases k <;> simp only [DecodesN]) o t a a' v h
    | unsupported =>
      obtain ⟨k, h⟩ := h
      cases k <;> simp only [DecodesN] at h

end

end Jzon
