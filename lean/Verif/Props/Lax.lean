import Verif.Proof.Lax
import Verif.Props.Grammar
import Verif.Props.TypedSafe

/-!
# C26: typed decoding and JSON

The full statement, that `Unmarshal` succeeds on JSON texts only, is false (`C26_null_key_violated`,
`C26_space_violated`).  `C26_lax_partial` says exactly how far the accepted texts can differ from JSON,
`C26_json_partial` that without maps and without `bool` fields with the option `string` they do not differ.
-/

set_option linter.unusedSimpArgs false

namespace Jzon.Props

open Spec Jzon

variable {F : Type} {Γ : TyEnv F} {cfg : DecCfg F} {same : Nat → Nat → Prop}

/-- C26, as far as it goes for all types: an accepted text is JSON but for `null` keys and white space in quoted
literals. -/
theorem C26_lax_partial (hl : TypeLaws Γ cfg same) (pools : Pools) (it : It) {data : List Byte} {T : Ty} {old v : Val F}
    (h : Unmarshal Γ cfg pools it data T old = .ok v) : Around (Lax true true) data := by
  obtain ⟨w, t, w2, hw, hw2, rfl, n, h⟩ := (unmarshal_iff hl pools it).mp h
  exact ⟨w, t, w2, hw, hw2, rfl, decodesN_lax (P := fun _ => True) closed_all (by simp) (by simp) trivial (by simp) h⟩

/-- C26, types without maps: every key is a string. -/
theorem C26_noMap_partial (hl : TypeLaws Γ cfg same) (pools : Pools) (it : It) {data : List Byte} {T : Ty} {old v : Val F}
    (hT : NoMap Γ T) (h : Unmarshal Γ cfg pools it data T old = .ok v) : Around (Lax false true) data := by
  obtain ⟨w, t, w2, hw, hw2, rfl, n, h⟩ := (unmarshal_iff hl pools it).mp h
  obtain ⟨P, hP, hPT, hm⟩ := hT
  exact ⟨w, t, w2, hw, hw2, rfl, decodesN_lax hP (fun _ _ => hm) (by simp) hPT (by simp) h⟩

/-- C26, types without `bool` fields with the option `string`: `null` keys are the only deviation. -/
theorem C26_noQuotedBool_partial (hl : TypeLaws Γ cfg same) (pools : Pools) (it : It) {data : List Byte} {T : Ty} {old v : Val F}
    (hT : NoQuotedBool Γ T) (h : Unmarshal Γ cfg pools it data T old = .ok v) : Around (Lax true false) data := by
  obtain ⟨w, t, w2, hw, hw2, rfl, n, h⟩ := (unmarshal_iff hl pools it).mp h
  obtain ⟨P, hP, hPT, hm⟩ := hT
  exact ⟨w, t, w2, hw, hw2, rfl, decodesN_lax hP (by simp) (fun _ _ => hm) hPT (by simp) h⟩

/-- C26 for types without maps and without `bool` fields with the option `string`: an accepted text is JSON. -/
theorem C26_json_partial (hl : TypeLaws Γ cfg same) (pools : Pools) (it : It) {data : List Byte} {T : Ty} {old v : Val F}
    (hm : NoMap Γ T) (hb : NoQuotedBool Γ T) (h : Unmarshal Γ cfg pools it data T old = .ok v) : IsJson data := by
  obtain ⟨w, t, w2, hw, hw2, rfl, n, h⟩ := (unmarshal_iff hl pools it).mp h
  obtain ⟨P, hP, hPT, hm⟩ := hm
  obtain ⟨Q, hQ, hQT, hb⟩ := hb
  have : Lax false false t := by
    refine decodesN_lax (P := fun T => P T ∧ Q T) ⟨?_, ?_, ?_, ?_, ?_⟩ (fun _ _ T K E hT => hm T K E hT.1)
      (fun _ _ i fs f hi => hb i fs f hi.2) ⟨hPT, hQT⟩ (by simp) h
    · exact fun T h => ⟨hP.ptr T h.1, hQ.ptr T h.2⟩
    · exact fun T E h h' => ⟨hP.slice T E h.1 h', hQ.slice T E h.2 h'⟩
    · exact fun T n E h h' => ⟨hP.array T n E h.1 h', hQ.array T n E h.2 h'⟩
    · exact fun T n E h h' => ⟨hP.map T n E h.1 h', hQ.map T n E h.2 h'⟩
    · exact fun i fs f h h1 h2 => ⟨hP.field i fs f h.1 h1 h2, hQ.field i fs f h.2 h1 h2⟩
  obtain ⟨j, hj⟩ := lax_value this
  exact ⟨j, w, t, w2, rfl, hw, hj, hw2⟩

/-- The same for readers. -/
theorem C26_json_reader_partial (hl : TypeLaws Γ cfg same) (pools : Pools) (it : It) {script : List RdRes} {data : List Byte} {T : Ty}
    {old v : Val F} (hs : Delivers script data .eof) (hm : NoMap Γ T) (hb : NoQuotedBool Γ T)
    (h : UnmarshalFromReader Γ cfg pools it script T old = .ok v) : IsJson data :=
  C26_json_partial hl pools it hm hb (by rw [← C03_unmarshal pools it it hs]; exact h)

/-- C26 does not hold: `{null:null}` decodes into a map. -/
theorem C26_null_key_violated :
    (∃ v, Unmarshal sampleEnv sampleCfg samplePools sampleIt (bs! "{null:null}") (.named 1) .nilMap = .ok v) ∧ ¬ IsJson (bs! "{null:null}") := by
  refine ⟨⟨_, rfl⟩, fun h => ?_⟩
  have := (C01_valid_iff_json sampleIt ⟨[], 0⟩ (bs! "{null:null}")).mpr h
  revert this
  decide +kernel

/-- C26 does not hold: a raw line feed in a string is accepted before a quoted literal. -/
theorem C26_space_violated :
    Unmarshal sampleEnv sampleCfg samplePools sampleIt (bs! "{\"on\":\"\ntrue\"}") (.named 3) (.struct [.bool false]) =
      .ok (.struct [.bool true]) ∧ ¬ IsJson (bs! "{\"on\":\"\ntrue\"}") := by
  refine ⟨rfl, fun h => ?_⟩
  have := (C01_valid_iff_json sampleIt ⟨[], 0⟩ (bs! "{\"on\":\"\ntrue\"}")).mpr h
  revert this
  decide +kernel

/-- C30 does not hold as far as it says that keys are strings. -/
theorem C30_null_key_violated :
    ∃ m, Unmarshal sampleEnv sampleCfg samplePools sampleIt (bs! "{null:null}") (.named 1) .nilMap = .ok (.map m) ∧ m (.str []) = some .nilMap :=
  ⟨_, rfl, rfl⟩

/-- The struct type of the sample with a list satisfies the assumptions of `C26_json_partial`. -/
example : NoMap sampleEnv (.named 0) ∧ NoQuotedBool sampleEnv (.named 0) := by
  let P : Ty → Prop := fun T => T = .named 0 ∨ T = .int .w8 ∨ T = .slice (.uint .w8) ∨ T = .uint .w8 ∨ T = .ptr (.named 0)
  have hP : Closed sampleEnv P := by
    refine ⟨?_, ?_, ?_, ?_, ?_⟩
    · rintro T (h | h | h | h | h) <;> cases h
      exact .inl rfl
    · rintro T E (rfl | rfl | rfl | rfl | rfl) h <;> cases h
      · rename_i h; cases h
      · exact .inr (.inr (.inr (.inl rfl)))
    · rintro T n E (rfl | rfl | rfl | rfl | rfl) h <;> cases h
      rename_i h; cases h
    · rintro T n E (rfl | rfl | rfl | rfl | rfl) h <;> cases h
      rename_i h; cases h
    · rintro i fs f (h | h | h | h | h) hd hf <;> cases h
      cases hd
      simp only [List.mem_cons, List.not_mem_nil, or_false] at hf
      rcases hf with rfl | rfl | rfl <;> simp [P]
  refine ⟨⟨P, hP, .inl rfl, ?_⟩, P, hP, .inl rfl, ?_⟩
  · rintro T n E (rfl | rfl | rfl | rfl | rfl) h <;> cases h
    rename_i h; cases h
  · rintro i fs f (h | h | h | h | h) hd hf <;> cases h
    cases hd
    simp only [List.mem_cons, List.not_mem_nil, or_false] at hf
    rcases hf with rfl | rfl | rfl <;> simp

end Jzon.Props
