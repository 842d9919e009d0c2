import Verif.Proof.Reorder
import Verif.Proof.Sample

/-!
# C63: the order of the members of an object makes no difference

Members with names that do not belong together may change places, in all objects of a text.
-/

namespace Jzon.Props

open Spec Jzon

section
variable {F : Type} {Γ : TyEnv F} {cfg : DecCfg F} {same : Nat → Nat → Prop}

theorem unmarshal_reordered (hl : TypeLaws Γ cfg same) (hlay : Layout Γ) {apart : List Byte → List Byte → Prop}
    (ha : ∀ s s', apart s s' → Apart same cfg.caseSensitive s s') (pools : Pools) (it : It) {T : Ty} (hT : OrderFree Γ apart T) {old v : Val F}
    {w t w2 u t' u2 : List Byte} (hw : Ws w) (hw2 : Ws w2) (hu : Ws u) (hu2 : Ws u2) (h : Reordered apart t t')
    (hr : Unmarshal Γ cfg pools it (w ++ (t ++ w2)) T old = .ok v) : Unmarshal Γ cfg pools it (u ++ (t' ++ u2)) T old = .ok v := by
  obtain ⟨P, hP, hPT, hv⟩ := hT
  obtain ⟨x, s, x2, hx, hx2, he, hs⟩ := (unmarshal_iff hl pools it).mp hr
  have hsol := decodesO_solid hs
  obtain rfl : t = s := by
    refine (padded_same (r := []) (r' := []) (c := 0x2C) (c' := 0x2C) hw hw2 hx hx2 (reordered_solid h) hsol (by simp [Separates]) (by simp [Separates]) ?_).1
    have := congrArg (fun l => l ++ [(0x2C : Byte)]) he
    simpa using this
  exact (unmarshal_iff hl pools it).mpr ⟨u, t', u2, hu, hu2, rfl, decodesO_reordered (fun s s' h => (ha s s' h).1)
    (fun s s' h => apart_selects hl.fold (ha s s' h)) hlay hP hv h hPT hs⟩

/-- Members whose names are apart may change places in all objects of a text: both texts are accepted with the same result, or both
are refused. -/
theorem C63_reordered (hl : TypeLaws Γ cfg same) (hlay : Layout Γ) {apart : List Byte → List Byte → Prop}
    (ha : ∀ s s', apart s s' → Apart same cfg.caseSensitive s s') (hsym : ∀ s s', apart s s' → apart s' s) (pools : Pools) (it : It) {T : Ty}
    (hT : OrderFree Γ apart T) {old v : Val F} {w t w2 u t' u2 : List Byte} (hw : Ws w) (hw2 : Ws w2) (hu : Ws u) (hu2 : Ws u2)
    (h : Reordered apart t t') :
    Unmarshal Γ cfg pools it (w ++ (t ++ w2)) T old = .ok v ↔ Unmarshal Γ cfg pools it (u ++ (t' ++ u2)) T old = .ok v :=
  ⟨unmarshal_reordered hl hlay ha pools it hT hw hw2 hu hu2 h,
    unmarshal_reordered hl hlay ha pools it hT hu hu2 hw hw2 (reordered_symm hsym h)⟩

/-- An object without two members that belong together may be written in any order. -/
theorem C63_any_order (hl : TypeLaws Γ cfg same) (hlay : Layout Γ) (pools : Pools) (it : It) {T : Ty}
    (hT : OrderFree Γ (Apart same cfg.caseSensitive) T) {old v : Val F} {t t' : List Byte} {ms ms' : List (List Byte × List Byte)}
    (h : ObjectOf t ms) (h' : ObjectOf t' ms') (hp : ms.Perm ms') (hv : ∀ m ∈ ms, (∃ s, Str m.1 s) ∧ IsValue m.2)
    (ha : ms.Pairwise fun m n => ∀ s s', Str m.1 s → Str n.1 s' → Apart same cfg.caseSensitive s s') :
    Unmarshal Γ cfg pools it t T old = .ok v ↔ Unmarshal Γ cfg pools it t' T old = .ok v := by
  have hsym : ∀ s s', Apart same cfg.caseSensitive s s' → Apart same cfg.caseSensitive s' s := fun s s' => apart_symm hl.fold
  have := C63_reordered hl hlay (fun _ _ h => h) hsym pools it hT (old := old) (v := v) (w := []) (w2 := []) (u := []) (u2 := [])
    (by simp [Ws]) (by simp [Ws]) (by simp [Ws]) (by simp [Ws]) (reordered_perm hsym hp [] h h' hv ha)
  simpa using this

/-- Keys of maps: for strings and unsigned integers nothing else is needed, for integers that 0 and -0 keep their order. -/
theorem C63_keys {apart : List Byte → List Byte → Prop} (ha : ∀ s s', apart s s' → s ≠ s') :
    DistinctKeys Γ apart .str ∧ (∀ w, DistinctKeys Γ apart (.uint w)) ∧
    (¬ apart [0x30] [0x2D, 0x30] → ¬ apart [0x2D, 0x30] [0x30] → ∀ w, DistinctKeys Γ apart (.int w)) :=
  ⟨distinct_str ha, distinct_uint ha, fun h h' => distinct_int ha ⟨h, h'⟩⟩

end

/-! ## Cases -/

theorem sample_layout : Layout sampleEnv := by
  intro i fs h
  have one : ∀ a b : Nat, a ≠ b → ¬ [PathStep.member a] <+: [PathStep.member b] ∧ ¬ [PathStep.member b] <+: [PathStep.member a] ∧
      Consistent [PathStep.member a] [PathStep.member b] ∧ Consistent [PathStep.member b] [PathStep.member a] := by
    intro a b hab
    have con : ∀ a b : Nat, Consistent [PathStep.member a] [PathStep.member b] := by
      intro a b r e t p' e' t' q' h
      cases r with
      | nil => cases h
      | cons x r =>
        simp at h
    refine ⟨fun h => ?_, fun h => ?_, con a b, con b a⟩
    · simp at h
      exact hab h
    · simp at h
      exact hab h.symm
  match i with
  | 0 =>
    cases h
    simp only [List.pairwise_cons, List.mem_cons, List.not_mem_nil, or_false]
    refine ⟨?_, ?_, ?_, .nil⟩
    · rintro g (rfl | rfl) <;> exact one _ _ (by decide)
    · rintro g rfl
      exact one _ _ (by decide)
    · rintro g ⟨⟩
  | 1 => cases h
  | 2 =>
    cases h
    exact .nil
  | n + 3 =>
    cases h
    simp

theorem sample_orderFree (apart : List Byte → List Byte → Prop) : OrderFree sampleEnv apart (.named 0) := by
  refine ⟨fun T => T = .named 0 ∨ T = .int .w8 ∨ T = .slice (.uint .w8) ∨ T = .uint .w8 ∨ T = .ptr (.named 0), ⟨?_, ?_, ?_, ?_, ?_⟩, .inl rfl, ?_⟩
  · intro T h
    simp at h
    exact .inl h
  · rintro T E (rfl | rfl | rfl | rfl | rfl) h
    · cases h with | named _ _ h => cases h
    · cases h
    · cases h
      simp
    · cases h
    · cases h
  · rintro T n E (rfl | rfl | rfl | rfl | rfl) h
    · cases h with | named _ _ h => cases h
    all_goals cases h
  · rintro T n E (rfl | rfl | rfl | rfl | rfl) h
    · cases h with | named _ _ h => cases h
    all_goals cases h
  · intro i fs f h hd hf
    simp at h
    subst h
    cases hd
    simp at hf
    rcases hf with rfl | rfl | rfl <;> simp
  · rintro U (rfl | rfl | rfl | rfl | rfl)
    · exact ⟨by simp, by simp, fun K E h => by cases h with | named _ _ h => cases h⟩
    all_goals exact ⟨by simp, by simp, fun K E h => by cases h⟩

theorem map_orderFree (apart : List Byte → List Byte → Prop) (ha : ∀ s s', apart s s' → s ≠ s') : OrderFree sampleEnv apart (.map .str .any) := by
  refine ⟨fun T => T = .map .str .any ∨ T = .any, ⟨?_, ?_, ?_, ?_, ?_⟩, .inl rfl, ?_⟩
  · intro T h
    simp at h
  · rintro T E (rfl | rfl) h <;> cases h
  · rintro T n E (rfl | rfl) h <;> cases h
  · rintro T n E (rfl | rfl) h
    · cases h
      simp
    · cases h
  · intro i fs f h
    simp at h
  · rintro U (rfl | rfl)
    · exact ⟨by simp, by simp, fun K E h => by cases h; exact distinct_str ha⟩
    · exact ⟨by simp, by simp, fun K E h => by cases h⟩

theorem a_bs_apart : Apart sampleSame false (bs! "A") (bs! "bs") := by
  refine ⟨by decide, fun _ h => ?_⟩
  have := (asciiLib_lawful.equalFold _ _).mpr h
  revert this
  decide +kernel

/-- Two members of a struct in both orders. -/
example (it : It) {v : Val (List Byte)} : Unmarshal sampleEnv sampleCfg samplePools it (bs! "{\"A\":1,\"bs\":null}") (.named 0) (.struct [.int 0, .nilSlice, .nilPtr]) = .ok v ↔
    Unmarshal sampleEnv sampleCfg samplePools it (bs! "{\"bs\":null ,\"A\":1}") (.named 0) (.struct [.int 0, .nilSlice, .nilPtr]) = .ok v := by
  have ha : Str (bs! "\"A\"") (bs! "A") := str_plain (b := bs! "A") (by decide)
  have hb : Str (bs! "\"bs\"") (bs! "bs") := str_plain (b := bs! "bs") (by decide)
  have h1 : IsValue (bs! "1") := ⟨_, .num _ (.inl ⟨bs! "1", [], [], by simp, .pos _ _ (by decide) (by simp), .none, .none⟩)⟩
  have hn : IsValue (bs! "null") := ⟨_, .null⟩
  refine C63_any_order (sampleLaws _ rfl rfl rfl) sample_layout samplePools it (sample_orderFree _)
    (ms := [(bs! "\"A\"", bs! "1"), (bs! "\"bs\"", bs! "null")]) (ms' := [(bs! "\"bs\"", bs! "null"), (bs! "\"A\"", bs! "1")]) ?_ ?_ (.swap _ _ _) ?_ ?_
  · exact ⟨[bs! "\"A\":1", bs! "\"bs\":null"], .items (bs! "\"A\":1,\"bs\":null") _ (.cons [] (bs! "\"A\":1") [] (bs! "\"bs\":null") _ (by simp [Ws]) (by simp [Ws])
      (.one [] (bs! "\"bs\":null") [] (by simp [Ws]) (by simp [Ws]))), .cons ⟨[], [], by simp [Ws], by simp [Ws], rfl⟩ (.cons ⟨[], [], by simp [Ws], by simp [Ws], rfl⟩ .nil)⟩
  · exact ⟨[bs! "\"bs\":null", bs! "\"A\":1"], .items (bs! "\"bs\":null ,\"A\":1") _ (.cons [] (bs! "\"bs\":null") (bs! " ") (bs! "\"A\":1") _ (by simp [Ws]) (by simp [Ws])
      (.one [] (bs! "\"A\":1") [] (by simp [Ws]) (by simp [Ws]))), .cons ⟨[], [], by simp [Ws], by simp [Ws], rfl⟩ (.cons ⟨[], [], by simp [Ws], by simp [Ws], rfl⟩ .nil)⟩
  · intro m hm
    simp only [List.mem_cons, List.not_mem_nil, or_false] at hm
    rcases hm with rfl | rfl
    · exact ⟨⟨_, ha⟩, h1⟩
    · exact ⟨⟨_, hb⟩, hn⟩
  · simp only [List.pairwise_cons, List.mem_cons, List.not_mem_nil, or_false]
    refine ⟨?_, by simp, .nil⟩
    rintro n rfl s s' hs hs'
    rw [C13_denotation_unique hs ha, C13_denotation_unique hs' hb]
    exact a_bs_apart

example (it : It) : Unmarshal sampleEnv sampleCfg samplePools it (bs! "{\"A\":1,\"bs\":null}") (.named 0) (.struct [.int 0, .nilSlice, .nilPtr]) =
    .ok (.struct [.int 1, .nilSlice, .nilPtr]) := rfl

/-- The order counts for names that are equal under case folding and for the keys 0 and -0 of a map with integer keys. -/
example (it : It) : Unmarshal sampleEnv sampleCfg samplePools it (bs! "{\"a\":1,\"A\":2}") (.named 0) (.struct [.int 0, .nilSlice, .nilPtr]) =
      .ok (.struct [.int 2, .nilSlice, .nilPtr]) ∧
    Unmarshal sampleEnv sampleCfg samplePools it (bs! "{\"A\":2,\"a\":1}") (.named 0) (.struct [.int 0, .nilSlice, .nilPtr]) =
      .ok (.struct [.int 1, .nilSlice, .nilPtr]) := ⟨rfl, rfl⟩
example (it : It) : (∃ m, Unmarshal sampleEnv sampleCfg samplePools it (bs! "{\"0\":1,\"-0\":2}") (.map (.int .w8) (.int .w8)) .nilMap = .ok (.map m) ∧
      m (.int 0) = some (.int 2)) ∧
    ∃ m, Unmarshal sampleEnv sampleCfg samplePools it (bs! "{\"-0\":2,\"0\":1}") (.map (.int .w8) (.int .w8)) .nilMap = .ok (.map m) ∧
      m (.int 0) = some (.int 1) := ⟨⟨_, rfl, rfl⟩, _, rfl, rfl⟩
example (it : It) {v : Val (List Byte)} {t t' : List Byte} (h : Reordered (Apart sampleSame false) t t') :
    Unmarshal sampleEnv sampleCfg samplePools it t (.map .str .any) .nilMap = .ok v ↔ Unmarshal sampleEnv sampleCfg samplePools it t' (.map .str .any) .nilMap = .ok v := by
  simpa using C63_reordered (sampleLaws sampleCfg rfl rfl rfl) sample_layout (fun _ _ h => h) (fun _ _ => apart_symm asciiLib_lawful) samplePools it
    (map_orderFree _ fun _ _ h => h.1) (old := .nilMap) (v := v) (w := []) (w2 := []) (u := []) (u2 := [])
    (by simp [Ws]) (by simp [Ws]) (by simp [Ws]) (by simp [Ws]) h

end Jzon.Props
