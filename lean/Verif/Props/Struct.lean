import Verif.Proof.Visible
import Verif.Spec.StructSample

/-!
# C28: the JSON fields of a struct type; C43: struct tags

`describeStruct E ot S` models the function that computes the JSON fields of the struct type `S`; `ot` is the option to take only
fields with a tag.  `Candidate`: the fields of `S` and of the structs embedded in it, at all depths.  `Visible`: the fields that
come before all others of their name by the rule of Go (less deep; or equally deep and with its name from a tag, and the other
not).
-/

set_option linter.unusedSimpArgs false

namespace Jzon.Props

open Jzon Spec

section
variable {E : StructEnv} {ot : Bool} {S : Ty} {out : List Cand}

/-- The computation ends, also for types that embed themselves. -/
theorem C28_terminates (hS : StructTy E S) : ∃ out, describeStruct E ot S = some out := by
  obtain ⟨_, _, _, fields, _, h, _⟩ := describe_done E ot S hS
  exact ⟨_, h⟩

theorem describe_cases (hS : StructTy E S) (h : describeStruct E ot S = some out) :
    ∃ k count visited fields V, out = chosen fields ∧ Inv E ot S k [] count visited fields V := by
  obtain ⟨k, count, visited, fields, V, h1, h2⟩ := describe_done E ot S hS
  rw [h] at h1
  simp at h1
  exact ⟨k, count, visited, fields, V, h1, h2⟩

/-- Each name occurs at most once. -/
theorem C28_names (hS : StructTy E S) (h : describeStruct E ot S = some out) : (out.map (·.name)).Nodup := by
  obtain ⟨k, count, visited, fields, V, rfl, _⟩ := describe_cases hS h
  exact chosen_nodup fields

/-- All fields come from the struct or the structs embedded in it, with the name, the options and the path of their
declaration. -/
theorem C28_candidates (hS : StructTy E S) (h : describeStruct E ot S = some out) {c : Cand} (hc : c ∈ out) :
    Candidate E ot S c := by
  obtain ⟨k, count, visited, fields, V, rfl, hi⟩ := describe_cases hS h
  exact hi.candidate hc

/-- The fields come in the order of their declaration. -/
theorem C28_order (hS : StructTy E S) (h : describeStruct E ot S = some out) :
    out.Pairwise fun a b => IndexLt a.index b.index := by
  have hn := C28_names hS h
  have hcand := fun c hc => C28_candidates hS h (c := c) hc
  obtain ⟨k, count, visited, fields, V, rfl, hi⟩ := describe_cases hS h
  have hs := chosen_sorted fields
  rw [List.Nodup, List.pairwise_map] at hn
  have := hs.and hn
  refine List.Pairwise.imp_of_mem ?_ this
  rintro a b ha hb ⟨h1, h2⟩
  rcases indexLess_linear.total a.index b.index with h3 | h3 | h3
  · exact (indexLess_iff _ _).mp h3
  · exfalso
    obtain ⟨n, hn1, hn2⟩ := (candidate_iff E ot S a).mp (hcand a ha)
    obtain ⟨m, hm1, hm2⟩ := (candidate_iff E ot S b).mp (hcand b hb)
    exact h2 (by rw [(leaf_index E ot S hn1 hm1 hn2 hm2 h3).2])
  · exact absurd ((indexLess_iff _ _).mp h3) h1

/-- No field that the rule of Go shows is missing. -/
theorem C28_complete (hS : StructTy E S) (h : describeStruct E ot S = some out) {c : Cand} (hc : Visible E ot S c) : c ∈ out := by
  obtain ⟨k, count, visited, fields, V, rfl, hi⟩ := describe_cases hS h
  exact hi.complete hc

/-- A field of the result comes before all others of its name, except the same member of the same struct type, embedded in
another way. -/
theorem C28_dominates (hS : StructTy E S) (h : describeStruct E ot S = some out) {c c' : Cand} (hc : c ∈ out)
    (hc' : Candidate E ot S c') (hname : c'.name = c.name) :
    Beats c c' ∨ ∃ T index index' path path' i, Reach E ot S index path T ∧ Reach E ot S index' path' T ∧ c.index = index ++ [i] ∧
      c'.index = index' ++ [i] ∧ index.length ≤ index'.length := by
  obtain ⟨k, count, visited, fields, V, rfl, hi⟩ := describe_cases hS h
  obtain ⟨n, hn, hl⟩ := (candidate_iff E ot S c').mp hc'
  rcases hi.beats hc hn hl hname with hb | ⟨x, hx, _, _, hxt, _, hlen, ⟨i, e1, e2⟩, _⟩
  · exact .inl hb
  · exact .inr ⟨_, _, _, _, _, i, (hi.reach x hx).1, hxt ▸ hn, e1, e2, hlen⟩

/-- If struct types to which several shortest ways lead embed no structs, the result is what the rule of Go says.  Missing:
without this condition the result can hold fields that the rule of Go hides (`C28_diamond_violated`). -/
theorem C28_fields_partial (hS : StructTy E S) (hd : FlatDiamonds E ot S) (h : describeStruct E ot S = some out) (c : Cand) :
    c ∈ out ↔ Visible E ot S c := by
  obtain ⟨k, count, visited, fields, V, rfl, hi⟩ := describe_cases hS h
  exact ⟨hi.sound hd, hi.complete⟩

end

/-! ## The structs of a diamond -/

/-- The member `X` of `U`, by the way through the member number `i` of `S`. -/
def diamondX (i : Nat) : Cand :=
  { index := [i, 0, 0, 0], path := [.member i, .member 0, .member 0, .member 0], name := bs! "X", tagged := false, quoted := false,
    omitEmpty := false, ty := .int .w64 }

theorem sample_embeds {sf : SField} {t : Ty}
    (h : (skips sampleStructEnv false sf = false ∧ isLeaf sampleStructEnv sf = false) ∧ t = sf.ty.elem) :
    Embeds sampleStructEnv false sf t := (embeds_iff _ _ _ _).mpr ⟨h.1.1, h.1.2, h.2⟩

theorem diamond_candidate (i : Nat) (hi : i = 0 ∨ i = 1) : Candidate sampleStructEnv false (.named 5) (diamondX i) := by
  rw [candidate_iff]
  have h0 : Reach sampleStructEnv false (.named 5) [] [] (.named 5) := .root
  have h1 : Reach sampleStructEnv false (.named 5) ([] ++ [i]) ([] ++ [.member i]) (.named (3 + i)) := by
    rcases hi with rfl | rfl
    · exact .step h0 (i := 0) (sf := embedded (bs! "A") (.named 3)) rfl rfl (sample_embeds ⟨by decide +kernel, rfl⟩)
    · exact .step h0 (i := 1) (sf := embedded (bs! "B") (.named 4)) rfl rfl (sample_embeds ⟨by decide +kernel, rfl⟩)
  have h2 : Reach sampleStructEnv false (.named 5) ([] ++ [i] ++ [0]) ([] ++ [.member i] ++ [.member 0]) (.named 2) := by
    rcases hi with rfl | rfl
    · exact .step h1 (sf := embedded (bs! "T") (.named 2)) rfl rfl (sample_embeds ⟨by decide +kernel, rfl⟩)
    · exact .step h1 (sf := embedded (bs! "T") (.named 2)) rfl rfl (sample_embeds ⟨by decide +kernel, rfl⟩)
  have h3 : Reach sampleStructEnv false (.named 5) ([] ++ [i] ++ [0] ++ [0]) ([] ++ [.member i] ++ [.member 0] ++ [.member 0])
      (.named 1) := .step h2 (sf := embedded (bs! "U") (.named 1)) rfl rfl (sample_embeds ⟨by decide +kernel, rfl⟩)
  refine ⟨⟨.named 1, _, _⟩, h3, ?_⟩
  rcases hi with rfl | rfl
  · decide +kernel
  · decide +kernel

/-- `type U struct{ X int64 }; type T struct{ U }; type A struct{ T }; type B struct{ T }; type S struct{ A; B }`: the field `X`
is ambiguous in `S`, as there are two ways to it, equally deep.  But the code, which explores the struct `T` only once and counts
the ways to `U` only from there, takes it for a field of `S`. -/
theorem C28_diamond_violated :
    StructTy sampleStructEnv (.named 5) ∧ describeStruct sampleStructEnv false (.named 5) = some [diamondX 0] ∧
      ¬ Visible sampleStructEnv false (.named 5) (diamondX 0) := by
  refine ⟨⟨_, rfl⟩, by decide +kernel, ?_⟩
  rintro ⟨_, h⟩
  rcases h (diamondX 1) (diamond_candidate 1 (.inr rfl)) rfl (by decide) with h | ⟨_, h, _⟩
  · simp [diamondX] at h
  · simp [diamondX] at h

/-- `R` embeds itself through `Q`; `X` comes from `Q` as it has the name from its tag there, `Y` from `R`, and `W` is hidden as it
occurs twice. -/
example : StructTy sampleStructEnv (.named 8) ∧
    (describeStruct sampleStructEnv false (.named 8)).map (fun l => l.map fun c => (c.name, c.index, c.path)) =
      some [(bs! "X", [1, 0], [.member 1, .deref true (.named 7), .member 0]),
        (bs! "Z", [1, 1], [.member 1, .deref true (.named 7), .member 1]), (bs! "Y", [2], [.member 2])] :=
  ⟨⟨_, rfl⟩, by decide +kernel⟩

/-- The embedded structs of `R` up to the first level. -/
theorem sample_reach {index : List Nat} {path : List PathStep} {t : Ty} (h : Reach sampleStructEnv false (.named 8) index path t) :
    (t = .named 6 ∨ t = .named 7 ∨ t = .named 8) ∧
      (index.length ≤ 1 → (index = [] ∧ t = .named 8) ∨ (index = [0] ∧ t = .named 6) ∨ (index = [1] ∧ t = .named 7)) := by
  induction h with
  | root => simp
  | @step index p s fs i sf t hr hf hi he ih =>
    obtain ⟨h1, h2, rfl⟩ := (embeds_iff _ _ _ _).mp he
    have key : ∀ j fs, sampleStructs j = some fs → fs[i]? = some sf → (j = 6 ∨ j = 7 ∨ j = 8) →
        (j = 7 ∧ i = 3 ∧ sf.ty.elem = .named 8) ∨ (j = 8 ∧ i = 0 ∧ sf.ty.elem = .named 6) ∨ (j = 8 ∧ i = 1 ∧ sf.ty.elem = .named 7) := by
      intro j fs hfs hj hjj
      rcases hjj with rfl | rfl | rfl
      · simp only [sampleStructs, Option.some.injEq] at hfs
        subst hfs
        match i, hj with
        | 0, hj => simp at hj; subst hj; exact absurd h2 (by decide +kernel)
        | 1, hj => simp at hj; subst hj; exact absurd h2 (by decide +kernel)
        | 2, hj => simp at hj; subst hj; exact absurd h2 (by decide +kernel)
        | i + 3, hj => simp at hj
      · simp only [sampleStructs, Option.some.injEq] at hfs
        subst hfs
        match i, hj with
        | 0, hj => simp at hj; subst hj; exact absurd h2 (by decide +kernel)
        | 1, hj => simp at hj; subst hj; exact absurd h2 (by decide +kernel)
        | 2, hj => simp at hj; subst hj; exact absurd h2 (by decide +kernel)
        | 3, hj => simp at hj; subst hj; simp [embedded, Ty.elem]
        | i + 4, hj => simp at hj
      · simp only [sampleStructs, Option.some.injEq] at hfs
        subst hfs
        match i, hj with
        | 0, hj => simp at hj; subst hj; simp [embedded, Ty.elem]
        | 1, hj => simp at hj; subst hj; simp [embedded, Ty.elem]
        | 2, hj => simp at hj; subst hj; exact absurd h2 (by decide +kernel)
        | i + 3, hj => simp at hj
    have hk : (s = .named 7 ∧ i = 3 ∧ sf.ty.elem = .named 8) ∨ (s = .named 8 ∧ i = 0 ∧ sf.ty.elem = .named 6) ∨
        (s = .named 8 ∧ i = 1 ∧ sf.ty.elem = .named 7) := by
      rcases ih.1 with rfl | rfl | rfl
      · simpa using key 6 fs hf hi (by simp)
      · simpa using key 7 fs hf hi (by simp)
      · simpa using key 8 fs hf hi (by simp)
    constructor
    · rcases hk with ⟨_, _, h⟩ | ⟨_, _, h⟩ | ⟨_, _, h⟩ <;> simp [h]
    · intro hl
      have hn : index = [] := List.length_eq_zero_iff.mp (by rw [List.length_append, List.length_singleton] at hl; omega)
      subst hn
      have := ih.2 (by simp)
      simp at this
      subst this
      simp at hk
      rcases hk with ⟨rfl, h⟩ | ⟨rfl, h⟩ <;> simp [h]

/-- The condition of `C28_fields_partial` for `R`. -/
example : StructTy sampleStructEnv (.named 8) ∧ FlatDiamonds sampleStructEnv false (.named 8) := by
  refine ⟨⟨_, rfl⟩, ?_⟩
  intro t index index' h1 h2 hne
  exfalso
  have h0 : Reach sampleStructEnv false (.named 8) [] [] (.named 8) := .root
  have r6 := Reach.step h0 (i := 0) (sf := embedded (bs! "P") (.named 6)) rfl rfl (sample_embeds (t := .named 6) ⟨by decide +kernel, rfl⟩)
  have r7 := Reach.step h0 (i := 1) (sf := embedded (bs! "Q") (.ptr (.named 7))) rfl rfl
    (sample_embeds (t := .named 7) ⟨by decide +kernel, rfl⟩)
  have short : ∀ {idx}, Shortest sampleStructEnv false (.named 8) idx t → idx.length ≤ 1 := by
    rintro idx ⟨⟨p, hp⟩, hs⟩
    rcases (sample_reach hp).1 with rfl | rfl | rfl
    · exact hs _ _ r6
    · exact hs _ _ r7
    · exact Nat.le_succ_of_le (hs _ _ h0)
  obtain ⟨p, hp⟩ := h1.1
  obtain ⟨p', hp'⟩ := h2.1
  rcases (sample_reach hp).2 (short h1) with ⟨rfl, rfl⟩ | ⟨rfl, rfl⟩ | ⟨rfl, rfl⟩ <;>
    rcases (sample_reach hp').2 (short h2) with ⟨rfl, h⟩ | ⟨rfl, h⟩ | ⟨rfl, h⟩ <;> simp at h hne

/-! ## Tags -/

section
variable (E : StructEnv)

/-- A field with the tag `-`, of the struct or of one of the embedded structs, is ignored: no field of the result has its place, nor a
place within it. -/
theorem C43_dash {ot : Bool} {S T : Ty} {fs : List SField} {out : List Cand} {index : List Nat} {path : List PathStep} {i : Nat} {sf : SField}
    (hS : StructTy E S) (h : describeStruct E ot S = some out) (hr : Reach E ot S index path T) (hT : E.fieldsOf T = some fs)
    (hi : fs[i]? = some sf) (ht : sf.tag = some (bs! "-")) : ∀ c ∈ out, ∀ rest, c.index ≠ index ++ i :: rest := by
  intro c hc rest he
  obtain ⟨index', path', s, fs', j, sf', h1, h2, h3, h4, h5, h6⟩ := C28_candidates hS h hc
  have hig : Ignored E ot sf := .inr (.inl ht)
  rw [h5] at he
  -- the member itself
  have here : ∀ {p' s' fs2} {sf2 : SField}, Reach E ot S index p' s' → E.fieldsOf s' = some fs2 → fs2[i]? = some sf2 → Ignored E ot sf2 := by
    intro p' s' fs2 sf2 hr' hf hj
    obtain ⟨_, rfl⟩ := reach_unique E ot S hr hr'
    rw [hT] at hf
    cases hf
    rw [hi] at hj
    cases hj
    exact hig
  have ends : ∀ (a : List Nat) j r, a ++ [j] = index ++ i :: r → (a = index ∧ j = i) ∨ ∃ r', a = index ++ i :: r' := by
    intro a j r h
    rcases List.eq_nil_or_concat r with rfl | ⟨r', b, rfl⟩
    · obtain ⟨h1, h2⟩ := List.append_inj' h rfl
      exact .inl ⟨h1, by simpa using h2⟩
    · have : a ++ [j] = (index ++ i :: r') ++ [b] := by simpa using h
      exact .inr ⟨r', (List.append_inj' this rfl).1⟩
  -- no way leads through the member
  have way : ∀ {a p s}, Reach E ot S a p s → ∀ r, a ≠ index ++ i :: r := by
    intro a p s hr'
    induction hr' with
    | root =>
      intro r h
      have := congrArg List.length h
      simp at this
    | @step a p s fs2 j sf2 t hr' hf hj hem ih =>
      intro r h
      rcases ends a j r h with ⟨rfl, rfl⟩ | ⟨r', h⟩
      · exact hem.1 (here hr' hf hj)
      · exact ih r' h
  rcases ends index' j rest he with ⟨rfl, rfl⟩ | ⟨r', h⟩
  · exact h4.shown (here h1 h2 h3)
  · exact way h1 r' h

/-- The tag of a member of the struct or of one of the embedded structs, and the field of the result that comes from it: the field
has the name before the first comma if this is valid, the name of the member otherwise; and the options behind the commas
count, `string` only for the kinds it is made for. -/
theorem C43_tag {ot : Bool} {S T : Ty} {fs : List SField} {out : List Cand} {index : List Nat} {path : List PathStep} {i : Nat} {sf : SField}
    {tag : List Byte} {c : Cand} (hS : StructTy E S) (h : describeStruct E ot S = some out) (hr : Reach E ot S index path T)
    (hT : E.fieldsOf T = some fs) (hi : fs[i]? = some sf) (ht : sf.tag = some tag) (hc : c ∈ out) (hci : c.index = index ++ [i]) :
    c.ty = sf.ty ∧
      (∀ n, TagName tag n → ValidName E.letter n → c.name = n ∧ c.tagged = true) ∧
      (∀ n, TagName tag n → ¬ ValidName E.letter n → c.name = sf.name ∧ c.tagged = false) ∧
      (c.omitEmpty = true ↔ TagOption tag (bs! "omitempty")) ∧
      (c.quoted = true ↔ HasStringOption (bare sf.ty) ∧ TagOption tag (bs! "string")) := by
  obtain ⟨index', path', s, fs', j, sf', h1, h2, h3, h4, h5, h6⟩ := C28_candidates hS h hc
  rw [h5] at hci
  obtain ⟨rfl, e⟩ := List.append_inj' hci rfl
  simp at e
  subst e
  obtain ⟨_, rfl⟩ := reach_unique E ot S hr h1
  rw [hT] at h2
  simp at h2
  subst h2
  rw [hi] at h3
  simp at h3
  subst h3
  have uniq : ∀ n m, TagName tag n → TagName tag m → n = m := by
    intro n m h1 h2
    rw [tagName_iff] at h1 h2
    rw [h1, h2]
  refine ⟨h4.ty, ?_, ?_, ?_, ?_⟩
  · intro n h1 h2
    rcases h4.name with ⟨⟨tag', g1, g2, _⟩, g4⟩ | ⟨g1, _, _⟩
    · rw [ht] at g1
      simp at g1
      subst g1
      exact ⟨uniq _ _ g2 h1, g4⟩
    · exact absurd ⟨tag, ht, h1, h2⟩ (g1 n)
  · intro n h1 h2
    rcases h4.name with ⟨⟨tag', g1, g2, g3⟩, _⟩ | ⟨_, g2, g3⟩
    · rw [ht] at g1
      simp at g1
      subst g1
      rw [uniq _ _ g2 h1] at g3
      exact absurd g3 h2
    · exact ⟨g2, g3⟩
  · rw [h4.omitEmpty, ht]
    constructor
    · rintro ⟨_, g, h⟩; simp at g; subst g; exact h
    · intro h; exact ⟨_, rfl, h⟩
  · rw [h4.quoted, ht]
    constructor
    · rintro ⟨g0, _, g, h⟩; simp at g; subst g; exact ⟨g0, h⟩
    · rintro ⟨g0, h⟩; exact ⟨g0, _, rfl, h⟩

/-- A member that is not ignored, not embedded, and the only one with its name gives a field. -/
theorem C43_shown {ot : Bool} {S : Ty} {out : List Cand} (hS : StructTy E S) (h : describeStruct E ot S = some out) {c : Cand}
    (hc : Candidate E ot S c) (hu : ∀ c', Candidate E ot S c' → c'.name = c.name → c'.index = c.index) : c ∈ out :=
  C28_complete hS h ⟨hc, fun c' h1 h2 h3 => absurd (hu c' h1 h2) h3⟩

/-- The struct `T0`: a name with two options; a field that is not exported; the tag `-`; the tag `-,`, which is the name `-`; and a
tag that is not a valid name. -/
example : (describeStruct sampleStructEnv false (.named 0)).map (fun l => l.map fun c => (c.name, c.tagged, c.quoted, c.omitEmpty)) =
    some [(bs! "a", true, true, true), (bs! "-", true, false, false), (bs! "E", false, false, false)] := by decide +kernel

example : TagName (bs! "a,omitempty,string") (bs! "a") ∧ TagOption (bs! "a,omitempty,string") (bs! "omitempty") ∧
    ¬ TagOption (bs! "omitempty,string") (bs! "omitempty") ∧ ValidName asciiLetter (bs! "a") ∧ ¬ ValidName asciiLetter (bs! "x\"y") := by
  refine ⟨(tagName_iff).mpr (by decide +kernel), (tagOption_iff (by simp)).mpr (by decide +kernel), ?_, ?_, ?_⟩
  · rw [tagOption_iff (by simp)]; decide +kernel
  · rw [← isValidTag_iff rfl]; decide +kernel
  · rw [← isValidTag_iff rfl]; decide +kernel

end

end Jzon.Props
