import Verif.Proof.Alike
import Verif.Proof.Sample

/-!
# C61: only what a text denotes counts

White space between the tokens makes no difference to decoding.  Nor does the way strings are written, as far as the library looks
at what they denote; where it looks at the text between the quotation marks instead, the claim is false.
-/

namespace Jzon.Props

open Spec Jzon

section
variable {F : Type} {Γ : TyEnv F} {cfg : DecCfg F} {same : Nat → Nat → Prop}

theorem unmarshal_alike {esc : Bool} (hl : TypeLaws Γ cfg same) (pools : Pools) (it : It) {T : Ty} {old v : Val F} {w t w2 u t' u2 : List Byte}
    (hw : Ws w) (hw2 : Ws w2) (hu : Ws u) (hu2 : Ws u2) (h : SameText esc t t')
    (hd : ∀ a v, DecodesHere Γ cfg same T a t v → DecodesHere Γ cfg same T a t' v)
    (hr : Unmarshal Γ cfg pools it (w ++ (t ++ w2)) T old = .ok v) : Unmarshal Γ cfg pools it (u ++ (t' ++ u2)) T old = .ok v := by
  obtain ⟨x, s, x2, hx, hx2, he, hs⟩ := (unmarshal_iff hl pools it).mp hr
  have hsol := decodesO_solid hs
  obtain rfl : t = s := by
    refine (padded_same (r := []) (r' := []) (c := 0x2C) (c' := 0x2C) hw hw2 hx hx2 (alike_solid h) hsol (by simp [Separates]) (by simp [Separates]) ?_).1
    have := congrArg (fun l => l ++ [(0x2C : Byte)]) he
    simpa using this
  exact (unmarshal_iff hl pools it).mpr ⟨u, t', u2, hu, hu2, rfl, hd _ _ hs⟩

/-- White space between tokens makes no difference, for all types that involve nothing that gets the text as it is. -/
theorem C61_spacing (hl : TypeLaws Γ cfg same) (pools : Pools) (it : It) {T : Ty} (hT : NoVerbatim Γ T) {old v : Val F} {w t w2 u t' u2 : List Byte}
    (hw : Ws w) (hw2 : Ws w2) (hu : Ws u) (hu2 : Ws u2) (h : SameText false t t') :
    Unmarshal Γ cfg pools it (w ++ (t ++ w2)) T old = .ok v ↔ Unmarshal Γ cfg pools it (u ++ (t' ++ u2)) T old = .ok v := by
  obtain ⟨P, hP, hPT, hv⟩ := hT
  constructor
  · exact unmarshal_alike hl pools it hw hw2 hu hu2 h fun a v hd => decodesO_alike hP hv (by simp) (by simp) h hPT (by simp) hd
  · exact unmarshal_alike hl pools it hu hu2 hw hw2 (alike_symm h) fun a v hd =>
      decodesO_alike hP hv (by simp) (by simp) (alike_symm h) hPT (by simp) hd

/-- Texts that denote the same value are decoded alike, for types that involve nothing that looks inside strings.  The full claim
would be for all types without `json.RawMessage` and `UnmarshalJSON`. -/
theorem C61_denotation_partial (hl : TypeLaws Γ cfg same) (pools : Pools) (it : It) {T : Ty} (hT : NoInside Γ T) {old v : Val F} {data data' : List Byte}
    {j : JVal} (h : Text data j) (h' : Text data' j) :
    Unmarshal Γ cfg pools it data T old = .ok v ↔ Unmarshal Γ cfg pools it data' T old = .ok v := by
  obtain ⟨P, hP, hPT, hv, hq⟩ := hT
  obtain ⟨w, t, w2, rfl, hw, ht, hw2⟩ := h
  obtain ⟨u, t', u2, rfl, hu, ht', hu2⟩ := h'
  have al := alike_of_value ht ht'
  have dec : ∀ {t t'}, SameText true t t' → ∀ a v, DecodesHere Γ cfg same T a t v → DecodesHere Γ cfg same T a t' v := by
    intro t t' al a v hd
    exact decodesO_alike hP (fun T h => ⟨(hv T h).1, (hv T h).2.1⟩) (fun _ U h => (hv U h).2.2) (fun _ => hq) al hPT (fun _ => rfl) hd
  constructor
  · exact unmarshal_alike hl pools it hw hw2 hu hu2 al (dec al)
  · exact unmarshal_alike hl pools it hu hu2 hw hw2 (alike_symm al) (dec (alike_symm al))

end

/-! ## Cases -/

/-- The list type of the sample program. -/
theorem sample_noVerbatim : NoVerbatim sampleEnv (.named 0) := by
  refine ⟨fun T => T = .named 0 ∨ T = .int .w8 ∨ T = .slice (.uint .w8) ∨ T = .uint .w8 ∨ T = .ptr (.named 0), ⟨?_, ?_, ?_, ?_, ?_⟩, .inl rfl, ?_⟩
  · intro T h
    simp at h
    exact .inl h
  · rintro T E (rfl | rfl | rfl | rfl | rfl) h
    · cases h with | named _ _ h => cases h
    · cases h
    · cases h
      simp
    · cases h
    · cases h
  · rintro T n E (rfl | rfl | rfl | rfl | rfl) h
    · cases h with | named _ _ h => cases h
    all_goals cases h
  · rintro T n E (rfl | rfl | rfl | rfl | rfl) h
    · cases h with | named _ _ h => cases h
    all_goals cases h
  · intro i fs f h hd hf
    simp at h
    subst h
    cases hd
    simp at hf
    rcases hf with rfl | rfl | rfl <;> simp
  · rintro U (rfl | rfl | rfl | rfl | rfl) <;> simp

/-- Strings in lists. -/
theorem sample_noInside : NoInside sampleEnv (.slice .str) := by
  refine ⟨fun T => T = .slice .str ∨ T = .str, ⟨?_, ?_, ?_, ?_, ?_⟩, .inl rfl, ?_, ?_⟩
  · intro T h
    simp at h
  · rintro T E (rfl | rfl) h
    · cases h
      simp
    · cases h
  · rintro T n E (rfl | rfl) h <;> cases h
  · rintro T n E (rfl | rfl) h <;> cases h
  · intro i fs f h
    simp at h
  · rintro U (rfl | rfl)
    · exact ⟨by simp, by simp, by simp, fun h => (by cases h), fun K E h => (by cases h)⟩
    · exact ⟨by simp, by simp, by simp, fun h => (by cases h), fun K E h => (by cases h)⟩
  · intro i fs f h
    simp at h

/-- Spaces and line ends. -/
example : SameText false (bs! "[1,2]") (bs! "[ 1\n, 2 ]") := by
  refine .array _ _ [bs! "1", bs! "2"] [bs! "1", bs! "2"] ?_ ?_ rfl ?_
  · exact .items (bs! "1,2") _ (.cons [] (bs! "1") [] (bs! "2") _ (by simp [Ws]) (by simp [Ws]) (.one [] (bs! "2") [] (by simp [Ws]) (by simp [Ws])))
  · exact .items (bs! " 1\n, 2 ") _ (.cons (bs! " ") (bs! "1") (bs! "\n") (bs! " 2 ") _ (by simp [Ws]) (by simp [Ws])
      (.one (bs! " ") (bs! "2") (bs! " ") (by simp [Ws]) (by simp [Ws])))
  · intro i u u' hu hu'
    rw [hu] at hu'
    cases hu'
    refine .same u ⟨.num u, .num _ (.inl ⟨u, [], [], by simp, ?_, .none, .none⟩)⟩
    match i with
    | 0 =>
      cases hu
      exact .pos _ _ (by decide) (by simp)
    | 1 =>
      cases hu
      exact .pos _ _ (by decide) (by simp)
    | i + 2 => cases hu

theorem text_plain_a : Text (bs! "[\"a\"]") (.arr [.str (bs! "a")]) :=
  ⟨[], _, [], by simp, by simp [Ws], .arr (bs! "\"a\"") _ (.one [] (bs! "\"a\"") [] _ (by simp [Ws])
    (.str _ _ ⟨bs! "a", ⟨[.raw 0x61], by simp [Chr.Ok], rfl, rfl⟩, rfl⟩) (by simp [Ws])), by simp [Ws]⟩

theorem text_escaped_a : Text (bs! " [\"\\u0061\" ]") (.arr [.str (bs! "a")]) :=
  ⟨bs! " ", bs! "[\"\\u0061\" ]", [], rfl, by simp [Ws], .arr (bs! "\"\\u0061\" ") _ (.one [] (bs! "\"\\u0061\"") (bs! " ") _ (by simp [Ws])
    (.str _ _ ⟨bs! "\\u0061", ⟨[.uni 0x30 0x30 0x36 0x31], by simp [Chr.Ok, hexDigit], rfl, by decide +kernel⟩, rfl⟩) (by simp [Ws])), by simp [Ws]⟩

example (it : It) : Unmarshal sampleEnv sampleCfg samplePools it (bs! " [\"\\u0061\" ]") (.slice .str) .nilSlice = .ok (.slice [.str (bs! "a")]) :=
  (C61_denotation_partial (sampleLaws _ rfl rfl rfl) samplePools it sample_noInside text_plain_a text_escaped_a).mp rfl

/-- A base64 decoder refuses reverse solidi. -/
def aloofCfg : DecCfg (List Byte) :=
  { sampleCfg with base64 := fun b => if b.contains 0x5C then .error (.custom 0) else .ok b }

theorem strictLaws : TypeLaws sampleEnv aloofCfg sampleSame := sampleLaws _ rfl rfl rfl

theorem noVerbatim_bytes : NoVerbatim sampleEnv (.slice (.uint .w8)) := by
  refine ⟨fun T => T = .slice (.uint .w8) ∨ T = .uint .w8, ⟨?_, ?_, ?_, ?_, ?_⟩, .inl rfl, ?_⟩
  · intro T h
    simp at h
  · rintro T E (rfl | rfl) h
    · cases h
      simp
    · cases h
  · rintro T n E (rfl | rfl) h <;> cases h
  · rintro T n E (rfl | rfl) h <;> cases h
  · intro i fs f h
    simp at h
  · rintro U (rfl | rfl) <;> simp

theorem noVerbatim_number : NoVerbatim sampleEnv .number := by
  refine ⟨fun T => T = .number, ⟨?_, ?_, ?_, ?_, ?_⟩, rfl, ?_⟩
  · intro T h
    cases h
  · rintro T E rfl h
    cases h
  · rintro T n E rfl h
    cases h
  · rintro T n E rfl h
    cases h
  · intro i fs f h
    cases h
  · rintro U rfl
    simp

theorem noVerbatim_keys : NoVerbatim sampleEnv (.map (.int .w8) .bool) := by
  refine ⟨fun T => T = .map (.int .w8) .bool ∨ T = .bool, ⟨?_, ?_, ?_, ?_, ?_⟩, .inl rfl, ?_⟩
  · intro T h
    simp at h
  · rintro T E (rfl | rfl) h <;> cases h
  · rintro T n E (rfl | rfl) h <;> cases h
  · rintro T n E (rfl | rfl) h
    · cases h
      simp
    · cases h
  · intro i fs f h
    simp at h
  · rintro U (rfl | rfl) <;> simp

theorem str_one : Str (bs! "\"1\"") (bs! "1") := ⟨bs! "1", ⟨[.raw 0x31], by simp [Chr.Ok], rfl, rfl⟩, rfl⟩
theorem str_escaped_one : Str (bs! "\"\\u0031\"") (bs! "1") :=
  ⟨bs! "\\u0031", ⟨[.uni 0x30 0x30 0x33 0x31], by simp [Chr.Ok, hexDigit], rfl, by decide +kernel⟩, rfl⟩

theorem text_of_str {t s : List Byte} (h : Str t s) : Text t (.str s) := ⟨[], t, [], by simp, by simp [Ws], .str _ _ h, by simp [Ws]⟩

theorem text_key {k s : List Byte} (h : Str k s) : Text (0x7B :: (k ++ bs! ":true}")) (.obj [(s, .bool true)]) := by
  refine ⟨[], 0x7B :: (k ++ bs! ":true}"), [], by simp, by simp [Ws], ?_, by simp [Ws]⟩
  have := Value.obj (k ++ bs! ":true") _ (by
    have := Members.single [] k [] [] (bs! "true") [] s (.bool true) (by simp [Ws]) h (by simp [Ws]) (by simp [Ws]) .true (by simp [Ws])
    simpa using this)
  simpa using this

/-- Bytes in base64: texts that denote the same string, of which one is accepted and the other is not. -/
theorem C61_bytes_violated : NoVerbatim sampleEnv (.slice (.uint .w8)) ∧ TypeLaws sampleEnv aloofCfg sampleSame ∧ ∃ data data' j v,
    Text data j ∧ Text data' j ∧ Unmarshal sampleEnv aloofCfg samplePools sampleIt data (.slice (.uint .w8)) .nilSlice = .ok v ∧
    ∀ v', Unmarshal sampleEnv aloofCfg samplePools sampleIt data' (.slice (.uint .w8)) .nilSlice ≠ .ok v' :=
  ⟨noVerbatim_bytes, strictLaws, _, _, _, _, text_of_str str_one, text_of_str str_escaped_one, rfl, fun _ h => by cases h⟩

/-- `json.Number`. -/
theorem C61_number_violated : NoVerbatim sampleEnv .number ∧ TypeLaws sampleEnv aloofCfg sampleSame ∧ ∃ data data' j v,
    Text data j ∧ Text data' j ∧ Unmarshal sampleEnv aloofCfg samplePools sampleIt data .number (.str []) = .ok v ∧
    ∀ v', Unmarshal sampleEnv aloofCfg samplePools sampleIt data' .number (.str []) ≠ .ok v' :=
  ⟨noVerbatim_number, strictLaws, _, _, _, _, text_of_str str_one, text_of_str str_escaped_one, rfl, fun _ h => by cases h⟩

/-- Map keys that are integers. -/
theorem C61_keys_violated : NoVerbatim sampleEnv (.map (.int .w8) .bool) ∧ TypeLaws sampleEnv aloofCfg sampleSame ∧ ∃ data data' j v,
    Text data j ∧ Text data' j ∧ Unmarshal sampleEnv aloofCfg samplePools sampleIt data (.map (.int .w8) .bool) .nilMap = .ok v ∧
    ∀ v', Unmarshal sampleEnv aloofCfg samplePools sampleIt data' (.map (.int .w8) .bool) .nilMap ≠ .ok v' :=
  ⟨noVerbatim_keys, strictLaws, _, _, _, _, text_key str_one, text_key str_escaped_one, rfl, fun _ h => by cases h⟩

end Jzon.Props
