import Verif.Props.Words
import Verif.Props.Marshal
import Verif.Proof.WordsWrite

/-!
# C50: the bytes for values with dynamic types

`C49` says which tree is written for a value of any type in memory.  Here are the bytes and the errors: `Marshal` returns a text of
that tree, or the error of the first part of the tree that cannot be written.

`_partial`: the types in `Types.Clear`, as in `C49`.
-/

namespace Jzon.Props
open Jzon Jzon.Words Spec

variable {Γ : Types} {M : Meaning} {m : Memory}

/-- The tree to be written for an argument is determined. -/
theorem argumentShows_unique {q v o o'} (h : ArgumentShows Γ q v o) (h' : ArgumentShows Γ q v o') : o = o' := by
  cases h with
  | nil => cases h'; rfl
  | value h => cases h' with | value h' => exact h.unique h'

/-- `Streamer.Value` on a streamer without error: it has the effect of `Raw` with a text for the value, or sets the error of the
first part that cannot be written. -/
theorem C50_value_partial (L : Γ.Lawful) (C : Γ.Closed) (G : Γ.Clear) (hM : M.Lawful) {x v s s'} (hf : m.Finite)
    (h : Argument Γ m x v) (hs : s.error = none) (hw : ValueWrites Γ M m x s s') :
    ∃ o, ArgumentShows Γ false v o ∧
      ((∃ t, OutText M s.html o t ∧ s' = s.raw t) ∨ ∃ e, OutFails M s.html o e ∧ s'.error = some e) := by
  cases hw with
  | failed he => exact absurd hs he
  | @value o _ hv =>
    refine ⟨o, (C49_value_partial L C G hf h).mp hv, ?_⟩
    rcases good_out hM o s hs rfl with ⟨t, h1, h2⟩ | h1
    · exact .inl ⟨t, h1, by rw [h2, raw_put hs]⟩
    · exact .inr h1

/-- After an error `Streamer.Value` does nothing. -/
theorem C50_sticky {x s s'} (he : s.error ≠ none) (hw : ValueWrites Γ M m x s s') : s' = s := by
  cases hw with
  | failed => rfl
  | value hs => exact absurd hs he

/-- What `Marshal` returns: a text for the value, if there is no part that cannot be written. -/
theorem C50_text_partial (L : Γ.Lawful) (C : Γ.Closed) (G : Γ.Clear) (hM : M.Lawful) {old x v t} (hf : m.Finite)
    (h : Argument Γ m x v) (hr : Marshals Γ M m old x (.ok t)) :
    ∃ o, ArgumentShows Γ false v o ∧ OutText M M.escapeHTML o t := by
  cases hr with
  | ok hw he =>
    obtain ⟨o, ho, ⟨t, h1, h2⟩ | ⟨e, _, h2⟩⟩ := C50_value_partial L C G hM hf h rfl hw
    · refine ⟨o, ho, ?_⟩
      subst h2
      simpa [Streamer.raw, Streamer.writeVal, Streamer.onVal, Streamer.escapeHTML, Streamer.reset] using h1
    · rw [h2] at he; cases he

/-- The error it returns: that of the first part that cannot be written. -/
theorem C50_error_partial (L : Γ.Lawful) (C : Γ.Closed) (G : Γ.Clear) (hM : M.Lawful) {old x v e} (hf : m.Finite)
    (h : Argument Γ m x v) :
    Marshals Γ M m old x (.error e) ↔ ∃ o, ArgumentShows Γ false v o ∧ OutFails M M.escapeHTML o e := by
  have forth : ∀ {e}, Marshals Γ M m old x (.error e) → ∃ o, ArgumentShows Γ false v o ∧ OutFails M M.escapeHTML o e := by
    intro e hr
    cases hr with
    | error hw he =>
      obtain ⟨o, ho, ⟨t, h1, h2⟩ | ⟨e', h1, h2⟩⟩ := C50_value_partial L C G hM hf h rfl hw
      · rw [h2, raw_put rfl] at he; cases he
      · rw [h2] at he; cases he; exact ⟨o, ho, h1⟩
  refine ⟨forth, fun ⟨o, ho, hfail⟩ => ?_⟩
  have hv := (C49_value_partial L C G hf h).mpr ho
  rcases good_out hM o (old.reset.escapeHTML M.escapeHTML) rfl rfl with ⟨t, h1, _⟩ | ⟨e', h1, h2⟩
  · exact (out_exclusive hfail h1).elim
  · rw [hfail.unique h1]; exact .error (.value rfl hv) h2

/-- It returns. -/
theorem C50_ends_partial (L : Γ.Lawful) (C : Γ.Closed) (G : Γ.Clear) {old x v} (hf : m.Finite) (h : Argument Γ m x v) :
    ∃ r, Marshals Γ M m old x r := by
  obtain ⟨o, hv⟩ := C49_ends_partial L C G hf h
  have hw : ValueWrites Γ M m x (old.reset.escapeHTML M.escapeHTML) (o.write M _) := .value rfl hv
  cases he : (o.write M (old.reset.escapeHTML M.escapeHTML)).error with
  | none => exact ⟨_, .ok hw he⟩
  | some e => exact ⟨_, .error hw he⟩

/-- The result depends on the value only: not on where it is, not on how its parts are shared, and not on what the streamer was used
for before. -/
theorem C50_memory_partial (L : Γ.Lawful) (C : Γ.Closed) (G : Γ.Clear) {m' : Memory} {old old' x x' v r r'} (hf : m.Finite)
    (hf' : m'.Finite) (h : Argument Γ m x v) (h' : Argument Γ m' x' v) (hr : Marshals Γ M m old x r)
    (hr' : Marshals Γ M m' old' x' r') : r = r' := by
  have key : ∀ {s s'}, ValueWrites Γ M m x (old.reset.escapeHTML M.escapeHTML) s →
      ValueWrites Γ M m' x' (old'.reset.escapeHTML M.escapeHTML) s' → s = s' := by
    intro s s' hw hw'
    cases hw with
    | failed he => exact absurd rfl he
    | value _ hv =>
      cases hw' with
      | failed he => exact absurd rfl he
      | value _ hv' =>
        rw [C49_memory_partial L C G hf hf' h h' hv hv']
        rfl
  cases hr with
  | error hw he =>
    cases hr' with
    | error hw' he' => rw [key hw hw', he'] at he; cases he; rfl
    | ok hw' he' => rw [key hw hw', he'] at he; cases he
  | ok hw he =>
    cases hr' with
    | error hw' he' => rw [key hw hw', he'] at he; cases he
    | ok hw' he' => rw [key hw hw']

/-- The text is JSON if the texts in it that were given are: `json.RawMessage`, `json.Number`, the answers of `MarshalJSON` and what
encoders of the user write. -/
theorem C50_json_partial (L : Γ.Lawful) (C : Γ.Closed) (G : Γ.Clear) (hM : M.Lawful) {old x v t} (hf : m.Finite)
    (h : Argument Γ m x v) (hr : Marshals Γ M m old x (.ok t))
    (hc : ∀ o u, ArgumentShows Γ false v o → Carries M M.escapeHTML o u → IsValue u) (it : It) (pool : Stack) :
    Valid it pool t = true := by
  obtain ⟨o, ho, ht⟩ := C50_text_partial L C G hM hf h hr
  rw [C01_valid_iff_json]
  exact isJson_value (outText_value hM ht fun u hu => hc o u ho hu)

/-- An error is about a float or an unsupported type, or it is an answer of a method or an encoder of the user: the library itself
does not panic. -/
theorem C50_source_partial (L : Γ.Lawful) (C : Γ.Closed) (G : Γ.Clear) (hM : M.Lawful) {old x v e} (hf : m.Finite)
    (h : Argument Γ m x v) (hr : Marshals Γ M m old x (.error e)) : Source M M.escapeHTML e := by
  obtain ⟨o, ho, hfail⟩ := (C50_error_partial L C G hM hf h).mp hr
  cases ho with
  | nil => cases hfail
  | value ho => exact ho.source hfail

/-! ## A case -/

/-- Floats are NaN, `MarshalJSON` writes `"warm"`, the field names are `a`, `b` and so on, and 77 is the string `<`. -/
def sampleMeaning : Meaning where
  escapeHTML := true
  bool n := n = 1
  string _ := bs! "<"
  int n := ⟨false, .w64, (n % 256 : Nat)⟩
  float _ := { zeroArg with isNaN := true }
  name n := [UInt8.ofNat (0x61 + n)]
  base64 l := l.map fun _ => 0x41
  json _ _ := .ok (bs! "\"warm\"")
  text _ _ := .error (.custom 3)
  custom _ _ _ _ := .ok (bs! "1")

theorem sampleMeaning_lawful : sampleMeaning.Lawful where
  int n := by
    show FitsUnsigned 64 ((n % 256 : Nat) : Int)
    exact ⟨by omega, by omega⟩
  base64 l c hc := by
    simp only [sampleMeaning, List.mem_map] at hc
    obtain ⟨_, _, rfl⟩ := hc
    decide
  float n _ h := by cases h

def sampleText : List Byte :=
  bs! "{\"a\":\"7\",\"b\":{\"a\":\"5\",\"b\":{\"e\":null},\"c\":\"warm\"},\"c\":\"warm\",\"d\":\"\\u003c\"}"

example (old : Streamer) : Marshals sampleTypes sampleMeaning sampleMemory old (some (.ptr (.named 6), some 200))
    (.ok sampleText) := by
  have hv := (C49_value_partial (sampleLawful _ _) sampleClosed sampleClear sampleFinite sampleArgument).mpr sampleShows
  have hw : ValueWrites sampleTypes sampleMeaning sampleMemory (some (.ptr (.named 6), some 200)) (old.reset.escapeHTML true) _ :=
    .value rfl hv
  rw [show sampleOut.write sampleMeaning (old.reset.escapeHTML true) = ⟨none, sampleText, none, true, true⟩
    from (by decide +kernel : sampleOut.write sampleMeaning ⟨none, [], none, false, true⟩ = _)] at hw
  exact .ok hw rfl

def sampleBadMeaning : Meaning := { sampleMeaning with json := fun _ _ => .ok (bs! "warm") }
def sampleBadText : List Byte :=
  bs! "{\"a\":\"7\",\"b\":{\"a\":\"5\",\"b\":{\"e\":null},\"c\":warm},\"c\":warm,\"d\":\"\\u003c\"}"

/-- The same with an answer of `MarshalJSON` that is no JSON: nothing checks it. -/
example (old : Streamer) : ∃ M : Meaning, M.Lawful ∧ Marshals sampleTypes M sampleMemory old (some (.ptr (.named 6), some 200))
    (.ok sampleBadText) := by
  refine ⟨sampleBadMeaning, ⟨sampleMeaning_lawful.int, sampleMeaning_lawful.base64,
    sampleMeaning_lawful.float⟩, ?_⟩
  have hv := (C49_value_partial (sampleLawful _ _) sampleClosed sampleClear sampleFinite sampleArgument).mpr sampleShows
  have hw := ValueWrites.value (M := sampleBadMeaning) (s := old.reset.escapeHTML true) rfl hv
  rw [show sampleOut.write sampleBadMeaning (old.reset.escapeHTML true) = ⟨none, sampleBadText, none, true, true⟩
    from (by decide +kernel : sampleOut.write sampleBadMeaning ⟨none, [], none, false, true⟩ = _)] at hw
  exact .ok hw rfl

/-- A `Celsius` in an interface is a float, and that is NaN here. -/
example (old : Streamer) : Marshals sampleTypes sampleMeaning sampleMemory old (some (.named 4, some 124)) (.error .floatIsNan) :=
  (C50_error_partial (sampleLawful _ _) sampleClosed sampleClear sampleMeaning_lawful sampleFinite
    (.value (by simp [sampleUsed]) (.pointer rfl rfl (.named (.prim rfl))))).mpr
    ⟨_, .value (.prim rfl rfl rfl), .nan rfl rfl⟩

end Jzon.Props
