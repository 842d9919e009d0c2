import Verif.Proof.Reformat
import Verif.Proof.Plain
import Verif.Proof.HasTy

/-!
# Decoding texts in UTF-8 gives values with strings in UTF-8
-/

set_option linter.unusedSimpArgs false

namespace Jzon

open Spec

section
variable {F : Type} {Γ : TyEnv F} {E : EncEnv F} {cfg : DecCfg F} {L : Nat → List Ty} {P : Ty → Prop} {lax : Bool}
  {sel : List (List Byte) → List Byte → Nat → Prop}

theorem items_utf8 {b : List Byte} {ts : List (List Byte)} (h : Items b ts) (hv : ValidUtf8 b) : ∀ t ∈ ts, ValidUtf8 t := by
  induction h with
  | one w t w2 hw hw2 =>
    intro x hx
    simp at hx
    subst hx
    exact validUtf8_between hw hw2 hv
  | cons w t w2 b ts hw hw2 hb ih =>
    obtain ⟨h1, h2⟩ := validUtf8_split (a := w ++ (t ++ w2)) (b := b) (c := 0x2C) (by decide) (by simpa using hv)
    intro x hx
    rcases List.mem_cons.mp hx with rfl | hx
    · exact validUtf8_between hw hw2 h1
    · exact ih h2 x hx

theorem enclosed_utf8 {o c : Byte} (ho : o < 0x80) (hc : c < 0x80) {t : List Byte} {ts : List (List Byte)} (h : Enclosed o c t ts) (hv : ValidUtf8 t) :
    ∀ u ∈ ts, ValidUtf8 u := by
  cases h with
  | empty w hw => simp
  | items b ts h => exact items_utf8 h (validUtf8_init hc (validUtf8_tail ho hv))

theorem arrayOf_utf8 {t : List Byte} {ts : List (List Byte)} (h : ArrayOf t ts) (hv : ValidUtf8 t) : ∀ u ∈ ts, ValidUtf8 u :=
  enclosed_utf8 (by decide) (by decide) h hv

theorem objectOf_utf8 {t : List Byte} {ms : List (List Byte × List Byte)} (h : ObjectOf t ms) (hv : ValidUtf8 t) :
    ∀ m ∈ ms, ValidUtf8 m.1 ∧ ValidUtf8 m.2 := by
  obtain ⟨ts, h1, h2⟩ := h
  have h3 := enclosed_utf8 (by decide) (by decide) h1 hv
  intro m hm
  obtain ⟨u, hu, w, w2, hw, hw2, rfl⟩ := each_mem_right h2 hm
  obtain ⟨h4, h5⟩ := validUtf8_split (a := m.1 ++ w) (b := w2 ++ m.2) (c := 0x3A) (by decide) (by simpa using h3 _ hu)
  exact ⟨validUtf8_take (ws_ascii hw) h4, validUtf8_drop (ws_ascii hw2) h5⟩

theorem tidy_int (z : Int) : Tidy (Val.int z : Val F) := ⟨.int _, .int _⟩
theorem tidy_bool (b : Bool) : Tidy (Val.bool b : Val F) := ⟨.bool _, .bool _⟩
theorem tidy_str {s : List Byte} (h : ValidUtf8 s) : Tidy (Val.str s : Val F) := ⟨.str _ h, .str _⟩
theorem tidy_slice {vs : List (Val F)} (h : ∀ v ∈ vs, Tidy v) : Tidy (Val.slice vs) := ⟨.slice _ fun v hv => (h v hv).1, .slice _ fun v hv => (h v hv).2⟩
theorem tidy_arr {vs : List (Val F)} (h : ∀ v ∈ vs, Tidy v) : Tidy (Val.arr vs) := ⟨.arr _ fun v hv => (h v hv).1, .arr _ fun v hv => (h v hv).2⟩
theorem tidy_struct {vs : List (Val F)} : Tidy (Val.struct vs) ↔ ∀ v ∈ vs, Tidy v := by
  constructor
  · rintro ⟨h1, h2⟩ v hv
    cases h1 with
    | struct _ h1 => cases h2 with
      | struct _ h2 => exact ⟨h1 v hv, h2 v hv⟩
  · intro h
    exact ⟨.struct _ fun v hv => (h v hv).1, .struct _ fun v hv => (h v hv).2⟩
theorem tidy_ptr {v : Val F} : Tidy (Val.ptr v) ↔ Tidy v := by
  constructor
  · rintro ⟨h1, h2⟩
    cases h1 with
    | ptr _ h1 => cases h2 with
      | ptr _ h2 => exact ⟨h1, h2⟩
  · intro h
    exact ⟨.ptr _ h.1, .ptr _ h.2⟩
theorem tidy_nilPtr : Tidy (Val.nilPtr : Val F) := ⟨.nilPtr, .nilPtr⟩

theorem tidy_pointee {zero old : Val F} (hz : Tidy zero) (h : Tidy old) : Tidy (pointee zero old) := by
  unfold pointee
  split
  · exact tidy_ptr.mp h
  · exact hz

theorem tidy_element {zero old : Val F} (hz : Tidy zero) (h : Tidy old) (i : Nat) : Tidy (element zero old i) := by
  unfold element
  split
  · rename_i vs
    cases hv : vs[i]? with
    | none => exact hz
    | some v =>
      obtain ⟨h1, h2⟩ := h
      cases h1 with
      | arr _ h1 => cases h2 with
        | arr _ h2 => exact ⟨h1 v (List.mem_of_getElem? hv), h2 v (List.mem_of_getElem? hv)⟩
  · exact hz

theorem tidy_entries {old : Val F} (h : Tidy old) : FiniteMap (entries old) ∧ ∀ k v, entries old k = some v → TidyKey k ∧ Tidy v := by
  unfold entries
  split
  · obtain ⟨h1, h2⟩ := h
    cases h1 with
    | map _ hk h1 => cases h2 with
      | map _ hm h2 =>
        refine ⟨hm, fun k v hv => ⟨?_, h1 k v hv, h2 k v hv⟩⟩
        rintro s rfl
        exact hk s v hv
  · exact ⟨⟨[], by simp⟩, by simp⟩

theorem tidy_key (hp : TidyProgram Γ cfg P) {K : KeyTy} {t : List Byte} {k : Key} (hv : ValidUtf8 t) (h : KeyRel Γ lax K t k) : TidyKey k := by
  cases K with
  | str =>
    rcases h with ⟨s, hs, rfl⟩ | ⟨_, _, rfl⟩
    · rintro s' ⟨⟩
      exact str_valid hs hv
    · rintro s' ⟨⟩
      exact validUtf8_nil
  | int w =>
    rcases h with ⟨u, z, _, _, rfl⟩ | ⟨_, _, rfl⟩ <;> (rintro s' ⟨⟩)
  | uint w =>
    rcases h with ⟨u, z, _, _, rfl⟩ | ⟨_, _, rfl⟩ <;> (rintro s' ⟨⟩)
  | text i =>
    rcases h with ⟨s, x, hs, hx, rfl⟩ | ⟨_, _, rfl⟩
    · exact hp.keys i s x (str_valid hs hv) hx
    · exact hp.zeroKeys i

theorem tidy_sliceRel {b : Bool} {zero : Val F} {R : Rel F} {o : DecOpts} {old v : Val F} {t : List Byte} (ht : ValidUtf8 t)
    (hR : ∀ t v, ValidUtf8 t → R {} zero t v → Tidy v) (h : SliceRel cfg.base64 b zero R o old t v) : Tidy v := by
  rcases h with ⟨_, rfl⟩ | ⟨_, b, s, data, _, _, _, rfl⟩ | ⟨ts, vs, ha, h, rfl⟩
  · exact ⟨.nilSlice, .nilSlice⟩
  · refine tidy_slice fun v hv => ?_
    obtain ⟨c, _, rfl⟩ := List.mem_map.mp hv
    exact tidy_int _
  · refine tidy_slice fun v hv => ?_
    obtain ⟨u, hu, h⟩ := each_mem_right h hv
    exact hR u v (arrayOf_utf8 ha ht u hu) h

theorem tidy_arrayRel {n : Nat} {zero : Val F} {R : Rel F} {o : DecOpts} {old v : Val F} {t : List Byte} (ht : ValidUtf8 t) (hz : Tidy zero) (hold : Tidy old)
    (hR : ∀ old t v, Tidy old → ValidUtf8 t → R {} old t v → Tidy v) (h : ArrayRel n zero R o old t v) : Tidy v := by
  rcases h with ⟨_, rfl⟩ | ⟨ts, vs, ha, rfl, hn, _, h1, h2⟩
  · exact hold
  · refine tidy_arr fun v hv => ?_
    obtain ⟨i, hi⟩ := List.getElem?_of_mem hv
    cases hu : ts[i]? with
    | some u => exact hR _ u v (tidy_element hz hold i) (arrayOf_utf8 ha ht u (List.mem_of_getElem? hu)) (h1 i u v hu hi)
    | none =>
      rw [h2 i v (List.getElem?_eq_none_iff.mp hu) hi]
      exact hz

theorem tidy_mapRel (hp : TidyProgram Γ cfg P) {K : KeyTy} {zero : Val F} {R : Rel F} {o : DecOpts} {old v : Val F} {t : List Byte} (ht : ValidUtf8 t)
    (hold : Tidy old) (hR : ∀ t v, ValidUtf8 t → R {} zero t v → Tidy v) (h : MapRel (KeyRel Γ lax K) zero R o old t v) : Tidy v := by
  rcases h with ⟨_, rfl⟩ | ⟨ms, xs, ho, h, rfl⟩
  · exact ⟨.nilMap, .nilMap⟩
  · obtain ⟨hm, he⟩ := tidy_entries hold
    have key : ∀ k v, putAll (entries old) xs k = some v → TidyKey k ∧ Tidy v := by
      intro k v hv
      rcases putAll_cases hv with hx | hx
      · obtain ⟨m, hm', h1, h2⟩ := each_mem_right h hx
        have hu := objectOf_utf8 ho ht m hm'
        exact ⟨tidy_key hp hu.1 h1, hR _ _ hu.2 h2⟩
      · exact he k v hx
    refine ⟨.map _ (fun s v hv => (key _ v hv).1 s rfl) fun k v hv => (key k v hv).2.1, .map _ ?_ fun k v hv => (key k v hv).2.2⟩
    obtain ⟨ks, hks⟩ := hm
    refine ⟨ks ++ xs.map (·.1), fun k hk => ?_⟩
    obtain ⟨v, hv⟩ := Option.isSome_iff_exists.mp hk
    rcases putAll_cases hv with hx | hx
    · exact List.mem_append_right _ (List.mem_map_of_mem (f := (·.1)) hx)
    · exact List.mem_append_left _ (hks k (by simp [hx]))

theorem tidy_atPath {zero : Ty → Val F} {G : Val F → Val F → Prop} {p : List PathStep} {s s' : Val F} (hz : ∀ T, PathStep.deref true T ∈ p → Tidy (zero T))
    (hs : Tidy s) (hG : ∀ a b, Tidy a → G a b → Tidy b) (h : AtPath zero G p s s') : Tidy s' := by
  induction h with
  | here a b h => exact hG a b hs h
  | member i p vs a b hi h ih =>
    have hm := tidy_struct.mp hs
    refine tidy_struct.mpr fun v hv => ?_
    rcases List.mem_or_eq_of_mem_set hv with hv | rfl
    · exact hm v hv
    · exact ih (fun T hT => hz T (by simp [hT])) (hm a (List.mem_of_getElem? hi))
  | deref e t p a b h ih => exact tidy_ptr.mpr (ih (fun T hT => hz T (by simp [hT])) (tidy_ptr.mp hs))
  | alloc t p b h ih => exact tidy_ptr.mpr (ih (fun T hT => hz T (by simp [hT])) (hz t (by simp)))

theorem tidy_structRel {strict : Bool} {zero : Ty → Val F} {sl : List Byte → Nat → Prop} {fs : List Field} {R : Ty → Rel F} {o : DecOpts} {old v : Val F}
    {t : List Byte} (ht : ValidUtf8 t) (hold : Tidy old) (hz : ∀ f ∈ fs, ∀ T, PathStep.deref true T ∈ f.path → Tidy (zero T))
    (hR : ∀ f ∈ fs, ∀ o old t v, Tidy old → ValidUtf8 t → R f.ty o old t v → Tidy v) (h : StructRel strict zero sl fs R o old t v) : Tidy v := by
  rcases h with ⟨_, rfl⟩ | ⟨ms, ho, h⟩
  · exact hold
  · have hu := objectOf_utf8 ho ht
    clear ho ht
    induction h with
    | nil => exact hold
    | cons h _ ih =>
      refine ih ?_ fun m hm => hu m (by simp [hm])
      obtain ⟨key, _, ⟨k, f, _, hf, h⟩ | ⟨_, _, _, rfl⟩⟩ := h
      · have hf := List.mem_of_getElem? hf
        exact tidy_atPath (hz f hf) hold (fun a b ha hr => hR f hf _ _ _ _ ha (hu _ (by simp)).2 hr) h
      · exact hold

theorem decodesN_tidy (hS : SameTypes Γ E cfg) (hp : TidyProgram Γ cfg P) (hP : ∀ T, P T → Plain Γ E cfg L P T) (n : Nat) :
    ∀ T o old t v, P T → Tidy old → ValidUtf8 t → DecodesN Γ cfg lax sel n T o old t v → Tidy v := by
  have base : ∀ n, (∀ i o old t v, P (.named i) → Tidy old → ValidUtf8 t → DecodesN Γ cfg lax sel n (.named i) o old t v → Tidy v) →
      ∀ T o old t v, P T → Tidy old → ValidUtf8 t → DecodesN Γ cfg lax sel n T o old t v → Tidy v := by
    intro n hn T
    induction T with
    | named i => exact hn i
    | bool =>
      intro o old t v _ hold _ h
      simp only [DecodesN] at h
      have lit : ∀ u, BoolLit old u v → Tidy v := by
        rintro u (⟨_, rfl⟩ | ⟨_, rfl⟩ | ⟨_, rfl⟩)
        · exact hold
        · exact tidy_bool _
        · exact tidy_bool _
      rcases h with h | ⟨_, w, u, _, _, h⟩
      · exact lit _ h
      · exact lit _ h
    | str =>
      intro o old t v _ hold ht h
      simp only [DecodesN] at h
      rcases h with ⟨_, rfl⟩ | ⟨s, hs, h⟩
      · exact hold
      · have hs := str_valid hs ht
        split at h
        · rcases h with ⟨_, rfl⟩ | ⟨s', hs', rfl⟩
          · exact hold
          · exact tidy_str (str_valid hs' hs)
        · subst h
          exact tidy_str hs
    | int w =>
      intro o old t v _ hold _ h
      simp only [DecodesN] at h
      rcases h with ⟨_, rfl⟩ | ⟨u, z, _, rfl, _⟩
      · exact hold
      · exact tidy_int _
    | uint w =>
      intro o old t v _ hold _ h
      simp only [DecodesN] at h
      rcases h with ⟨_, rfl⟩ | ⟨u, z, _, rfl, _⟩
      · exact hold
      · exact tidy_int _
    | ptr T ih =>
      intro o old t v hT hold ht h
      simp only [DecodesN] at h
      have hT' : P T := by cases hP _ hT with
        | ptr _ h => exact h
        | slice _ _ h => cases h
        | bytes _ h => cases h
        | array _ _ _ h => cases h
        | map _ _ _ h => cases h
      rcases h with ⟨_, rfl⟩ | ⟨_, x, h, rfl⟩
      · exact tidy_nilPtr
      · exact tidy_ptr.mpr (ih _ _ _ _ hT' (tidy_pointee (hp.zero T hT') hold) ht h)
    | slice T ih =>
      intro o old t v hT hold ht h
      simp only [DecodesN] at h
      refine tidy_sliceRel ht (fun t v ht h => ?_) h
      cases hP _ hT with
      | slice _ _ hs _ hU =>
        cases hs
        exact ih _ _ _ _ hU (hp.zero T hU) ht h
      | bytes _ hs =>
        cases hs
        simp only [DecodesN] at h
        rcases h with ⟨_, rfl⟩ | ⟨u, z, _, rfl, _⟩
        · exact tidy_int _
        · exact tidy_int _
      | array _ _ _ h => cases h
      | map _ _ _ h => cases h
    | array k T ih =>
      intro o old t v hT hold ht h
      simp only [DecodesN] at h
      have hT' : P T := by cases hP _ hT with
        | slice _ _ h => cases h
        | bytes _ h => cases h
        | array _ _ _ h hU => cases h; exact hU
        | map _ _ _ h => cases h
      exact tidy_arrayRel ht (hp.zero T hT') hold (fun old t v ho ht h => ih _ _ _ _ hT' ho ht h) h
    | map k T ih =>
      intro o old t v hT hold ht h
      simp only [DecodesN] at h
      have hT' : P T := by cases hP _ hT with
        | slice _ _ h => cases h
        | bytes _ h => cases h
        | array _ _ _ h => cases h
        | map _ _ _ h _ hU => cases h; exact hU
      exact tidy_mapRel hp ht hold (fun t v ht h => ih _ _ _ _ hT' (hp.zero T hT') ht h) h
    | _ =>
      intro o old t v hT
      cases hP _ hT with
      | slice _ _ h => cases h
      | bytes _ h => cases h
      | array _ _ _ h => cases h
      | map _ _ _ h => cases h
  induction n with
  | zero =>
    refine base 0 ?_
    intro i o old t v _ _ _ h
    simp only [DecodesN] at h
  | succ n ih =>
    refine base (n + 1) ?_
    intro i o old t v hT hold ht h
    simp only [DecodesN] at h
    cases hdef : Γ.defn i with
    | slice T =>
      rw [hdef] at h
      refine tidy_sliceRel ht (fun t v ht h => ?_) h
      cases hP _ hT with
      | slice _ _ hs _ hU =>
        cases hs with | named _ _ hs =>
        rw [hdef] at hs
        cases hs
        exact ih _ _ _ _ _ hU (hp.zero T hU) ht h
      | bytes _ hs =>
        cases hs with | named _ _ hs =>
        rw [hdef] at hs
        cases hs
        cases n <;> (simp only [DecodesN] at h; rcases h with ⟨_, rfl⟩ | ⟨u, z, _, rfl, _⟩ <;> exact tidy_int _)
      | array _ _ _ hs => cases hs with | named _ _ hs => rw [hdef] at hs; cases hs
      | map _ _ _ hs => cases hs with | named _ _ hs => rw [hdef] at hs; cases hs
      | struct _ fs hs => rw [hdef] at hs; cases hs
    | array k T =>
      rw [hdef] at h
      have hT' : P T := by cases hP _ hT with
        | slice _ _ hs => cases hs with | named _ _ hs => rw [hdef] at hs; cases hs
        | bytes _ hs => cases hs with | named _ _ hs => rw [hdef] at hs; cases hs
        | array _ _ _ hs hU => cases hs with | named _ _ hs => rw [hdef] at hs; cases hs; exact hU
        | map _ _ _ hs => cases hs with | named _ _ hs => rw [hdef] at hs; cases hs
        | struct _ fs hs => rw [hdef] at hs; cases hs
      exact tidy_arrayRel ht (hp.zero T hT') hold (fun old t v ho ht h => ih _ _ _ _ _ hT' ho ht h) h
    | map k T =>
      rw [hdef] at h
      have hT' : P T := by cases hP _ hT with
        | slice _ _ hs => cases hs with | named _ _ hs => rw [hdef] at hs; cases hs
        | bytes _ hs => cases hs with | named _ _ hs => rw [hdef] at hs; cases hs
        | array _ _ _ hs => cases hs with | named _ _ hs => rw [hdef] at hs; cases hs
        | map _ _ _ hs _ hU => cases hs with | named _ _ hs => rw [hdef] at hs; cases hs; exact hU
        | struct _ fs hs => rw [hdef] at hs; cases hs
      exact tidy_mapRel hp ht hold (fun t v ht h => ih _ _ _ _ _ hT' (hp.zero T hT') ht h) h
    | struct fs =>
      rw [hdef] at h
      have hf : ∀ f ∈ fs, P f.ty := by
        intro f hf
        rw [hS.fields i fs hdef] at hf
        obtain ⟨g, hg, rfl⟩ := List.mem_map.mp hf
        cases hP _ hT with
        | slice _ _ hs => cases hs with | named _ _ hs => rw [hdef] at hs; cases hs
        | bytes _ hs => cases hs with | named _ _ hs => rw [hdef] at hs; cases hs
        | array _ _ _ hs => cases hs with | named _ _ hs => rw [hdef] at hs; cases hs
        | map _ _ _ hs => cases hs with | named _ _ hs => rw [hdef] at hs; cases hs
        | struct _ fs' hs hh => exact (hh g hg).2
      exact tidy_structRel ht hold (fun f hf' T hm => hp.embedded i fs f T hT hdef hf' hm)
        (fun f hf' o old t v ho ht h => ih _ _ _ _ _ (hf f hf') ho ht h) h

end

end Jzon
