import Verif.Proof.Tag

/-!
# The fields of a struct type: one field
-/

set_option linter.unusedSimpArgs false

namespace Jzon

open Spec

section
variable (E : StructEnv) (ot : Bool)

/-- The name from the tag, empty if there is none. -/
def tagNameOf (sf : SField) : List Byte :=
  match sf.tag with
  | some tag => if isValidTag E.letter (parseTag tag).1 then (parseTag tag).1 else []
  | none => []

/-- The options of the tag. -/
def tagOptsOf (sf : SField) : List Byte :=
  match sf.tag with
  | some tag => (parseTag tag).2
  | none => []

/-- The tests that skip a field. -/
def skips (sf : SField) : Bool :=
  decide ((¬ sf.exported ∧ (¬ sf.anonymous ∨ (E.fieldsOf sf.ty.elem).isNone)) ∨ sf.tag = some (bs! "-") ∨
    (sf.tag = none ∧ ot ∧ ¬ sf.anonymous))

/-- The test for a field that is not an embedded struct. -/
def isLeaf (sf : SField) : Bool :=
  decide (tagNameOf E sf ≠ [] ∨ ¬ sf.anonymous ∨ (E.fieldsOf sf.ty.elem).isNone)

def leafOf (f : Embed) (sf : SField) (i : Nat) : Cand :=
  { index := f.index ++ [i], path := f.path ++ [.member i], ty := sf.ty,
    omitEmpty := tagContains (tagOptsOf sf) (bs! "omitempty"),
    name := if tagNameOf E sf = [] then sf.name else tagNameOf E sf,
    tagged := if tagNameOf E sf = [] then false else true,
    quoted := if tagContains (tagOptsOf sf) (bs! "string") then sf.ty.elem.quotable else false }

def childOf (f : Embed) (sf : SField) (i : Nat) : Embed :=
  { typ := sf.ty.elem, index := f.index ++ [i],
    path := f.path ++ (.member i :: if sf.ty.isPtr then [.deref sf.exported sf.ty.elem] else []) }

/-- The step that queues an embedded struct. -/
def DState.push (st : DState) (e : Embed) : DState :=
  { st with
    nextCount := fun t => if t = e.typ then st.nextCount t + 1 else st.nextCount t
    next := if st.nextCount e.typ = 0 then st.next ++ [e] else st.next }

def twice (b : Bool) (c : Cand) : List Cand := if b then [c, c] else [c]

theorem field_eq (count : Ty → Nat) (f : Embed) (st : DState) (sf : SField) (i : Nat) :
    DState.field E ot count f st (sf, i) =
      if skips E ot sf then st
      else if isLeaf E sf then { st with fields := st.fields ++ twice (decide (count f.typ > 1)) (leafOf E f sf i) }
      else st.push (childOf f sf i) := by
  have hn : sf.nameAndOpts E.letter = (tagNameOf E sf, tagOptsOf sf) := by
    unfold tagNameOf tagOptsOf SField.nameAndOpts
    cases sf.tag with
    | none => rfl
    | some tag =>
      simp only
      cases h : isValidTag E.letter (parseTag tag).1 <;> simp [h]
  unfold DState.field
  simp only
  have hsk : skips E ot sf = true ↔ (¬ sf.exported ∧ (¬ sf.anonymous ∨ (E.fieldsOf sf.ty.elem).isNone)) ∨
      sf.tag = some (bs! "-") ∨ (sf.tag = none ∧ ot ∧ ¬ sf.anonymous) := by
    unfold skips; rw [decide_eq_true_eq]
  by_cases h1 : ¬ sf.exported ∧ (¬ sf.anonymous ∨ (E.fieldsOf sf.ty.elem).isNone)
  · rw [if_pos h1, if_pos (hsk.mpr (.inl h1))]
  rw [if_neg h1]
  by_cases h2 : sf.tag = some (bs! "-")
  · rw [if_pos h2, if_pos (hsk.mpr (.inr (.inl h2)))]
  rw [if_neg h2]
  by_cases h3 : sf.tag = none ∧ ot ∧ ¬ sf.anonymous
  · rw [if_pos h3, if_pos (hsk.mpr (.inr (.inr h3)))]
  have hsk' : ¬ (skips E ot sf = true) := by
    rw [hsk]
    rintro (h | h | h)
    · exact h1 h
    · exact h2 h
    · exact h3 h
  rw [if_neg h3, if_neg hsk']
  rw [hn]
  simp only
  have hlf : isLeaf E sf = true ↔ (tagNameOf E sf ≠ [] ∨ ¬ sf.anonymous ∨ (E.fieldsOf sf.ty.elem).isNone) := by
    unfold isLeaf; rw [decide_eq_true_eq]
  by_cases h4 : tagNameOf E sf ≠ [] ∨ ¬ sf.anonymous ∨ (E.fieldsOf sf.ty.elem).isNone
  · rw [if_pos h4, if_pos (hlf.mpr h4)]
    unfold twice leafOf
    by_cases h5 : count f.typ > 1 <;> simp [h5]
  · rw [if_neg h4, if_neg (fun h => h4 (hlf.mp h))]
    unfold DState.push childOf
    by_cases h5 : st.nextCount sf.ty.elem = 0
    · simp [h5]
      cases sf.ty.isPtr <;> simp
    · simp [h5]

/-! ### What the tests mean -/

theorem structTy_iff (t : Ty) : StructTy E t ↔ (E.fieldsOf t).isNone = false := by
  unfold StructTy
  cases E.fieldsOf t <;> simp

theorem bare_eq (t : Ty) : bare t = t.elem := by
  cases t <;> rfl

theorem quotable_iff (t : Ty) : t.quotable = true ↔ HasStringOption t := by
  constructor
  · intro h
    cases t <;> first | constructor | (simp [Ty.quotable] at h)
  · intro h
    cases h <;> rfl

theorem skips_iff (sf : SField) : skips E ot sf = true ↔ Ignored E ot sf := by
  unfold skips Ignored
  simp only [decide_eq_true_eq, structTy_iff, bare_eq]
  have : (bs! "-") = [0x2D] := rfl
  rw [this]
  cases sf.exported <;> cases sf.anonymous <;> cases ot <;> cases (E.fieldsOf sf.ty.elem).isNone <;> simp

theorem namedBy_iff (sf : SField) (n : List Byte) : NamedBy E sf n ↔ tagNameOf E sf = n ∧ n ≠ [] := by
  unfold NamedBy tagNameOf
  cases ht : sf.tag with
  | none => simp
  | some tag =>
    simp only [Option.some.injEq, tagName_iff, ← isValidTag_iff E.replacement]
    constructor
    · rintro ⟨_, rfl, rfl, h⟩
      rw [if_pos h]
      refine ⟨rfl, ?_⟩
      intro h0
      rw [h0] at h
      simp [isValidTag] at h
    · rintro ⟨h1, h2⟩
      refine ⟨tag, rfl, ?_⟩
      by_cases h : isValidTag E.letter (parseTag tag).1 = true
      · rw [if_pos h] at h1
        exact ⟨h1.symm, h1 ▸ h⟩
      · rw [if_neg h] at h1
        exact absurd h1.symm h2

theorem unnamed_iff (sf : SField) : (∀ n, ¬ NamedBy E sf n) ↔ tagNameOf E sf = [] := by
  simp only [namedBy_iff]
  constructor
  · intro h
    cases h1 : tagNameOf E sf with
    | nil => rfl
    | cons c s => exact absurd ⟨h1, by simp⟩ (h (c :: s))
  · rintro h n ⟨h1, h2⟩
    exact h2 (h1.symm.trans h)

theorem embeds_iff (sf : SField) (t : Ty) : Embeds E ot sf t ↔ skips E ot sf = false ∧ isLeaf E sf = false ∧ t = sf.ty.elem := by
  unfold Embeds isLeaf
  rw [unnamed_iff, ← skips_iff, structTy_iff, bare_eq]
  simp only [decide_eq_false_iff_not]
  constructor
  · rintro ⟨h1, h2, h3, rfl, h5⟩
    refine ⟨by simpa using h1, ?_, rfl⟩
    simp [h2, h3, h5]
  · rintro ⟨h1, h2, rfl⟩
    simp only [not_or, Decidable.not_not] at h2
    obtain ⟨h2, h3, h4⟩ := h2
    exact ⟨by simp [h1], h3, h2, rfl, by cases h : (E.fieldsOf sf.ty.elem).isNone with
      | true => exact absurd h h4
      | false => rfl⟩

theorem option_iff (sf : SField) {o : List Byte} (ho : o ≠ []) :
    tagContains (tagOptsOf sf) o = true ↔ ∃ tag, sf.tag = some tag ∧ TagOption tag o := by
  unfold tagOptsOf
  cases sf.tag with
  | none => simp [tagContains]
  | some tag =>
    simp only [Option.some.injEq, tagOption_iff ho]
    constructor
    · intro h; exact ⟨_, rfl, h⟩
    · rintro ⟨_, rfl, h⟩; exact h

/-- The field of a struct that is not skipped and not an embedded struct. -/
theorem from_iff (f : Embed) (sf : SField) (i : Nat) (c : Cand) :
    (From E ot sf c ∧ c.index = f.index ++ [i] ∧ c.path = f.path ++ [.member i]) ↔
      skips E ot sf = false ∧ isLeaf E sf = true ∧ c = leafOf E f sf i := by
  constructor
  · rintro ⟨⟨h1, h2, h3, h4, h5, h6⟩, h7, h8⟩
    rw [← skips_iff] at h1
    have hs : skips E ot sf = false := by simpa using h1
    have hlf : isLeaf E sf = true := by
      cases h : isLeaf E sf with
      | true => rfl
      | false => exact absurd ((embeds_iff E ot sf sf.ty.elem).mpr ⟨hs, h, rfl⟩) (h2 _)
    refine ⟨hs, hlf, ?_⟩
    obtain ⟨index, path, name, tagged, quoted, omitEmpty, ty⟩ := c
    simp only at h3 h4 h5 h6 h7 h8
    subst h3 h7 h8
    unfold leafOf
    rw [← option_iff sf (by simp)] at h6
    rw [← option_iff sf (by simp)] at h5
    have e6 : omitEmpty = tagContains (tagOptsOf sf) (bs! "omitempty") := by
      rw [Bool.eq_iff_iff]; exact h6
    have e5 : quoted = if tagContains (tagOptsOf sf) (bs! "string") then sf.ty.elem.quotable else false := by
      rw [Bool.eq_iff_iff, h5, bare_eq, ← quotable_iff]
      show _ ∧ tagContains (tagOptsOf sf) (bs! "string") = true ↔ _
      cases tagContains (tagOptsOf sf) (bs! "string") <;> simp
    rw [unnamed_iff, namedBy_iff] at h4
    rw [← e6, ← e5]
    rcases h4 with ⟨⟨g1, g2⟩, g3⟩ | ⟨g1, g2, g3⟩
    · subst g3
      have : tagNameOf E sf ≠ [] := by rw [g1]; exact g2
      simp [this, g1, g2]
    · subst g3
      simp [g1, g2]
  · rintro ⟨h1, h2, rfl⟩
    refine ⟨⟨?_, ?_, rfl, ?_, ?_, ?_⟩, rfl, rfl⟩
    · rw [← skips_iff]; simp [h1]
    · intro t h
      rw [embeds_iff] at h
      rw [h.2.1] at h2
      cases h2
    · rw [unnamed_iff, namedBy_iff]
      unfold leafOf
      by_cases h : tagNameOf E sf = []
      · right; simp [h]
      · left; simp [h]
    · rw [← option_iff sf (by simp), bare_eq, ← quotable_iff]
      unfold leafOf
      simp only
      show _ ↔ _ ∧ tagContains (tagOptsOf sf) (bs! "string") = true
      cases tagContains (tagOptsOf sf) (bs! "string") <;> simp
    · rw [← option_iff sf (by simp)]
      exact Iff.rfl

/-! ### All fields of one struct -/

/-- The fields of a struct with their numbers. -/
def numbered (f : Embed) : List (SField × Nat) := ((E.fieldsOf f.typ).getD []).zipIdx

def leaves (f : Embed) : List Cand :=
  (numbered E f).filterMap fun x => if skips E ot x.1 = false ∧ isLeaf E x.1 = true then some (leafOf E f x.1 x.2) else none

def children (f : Embed) : List Embed :=
  (numbered E f).filterMap fun x => if skips E ot x.1 = false ∧ isLeaf E x.1 = false then some (childOf f x.1 x.2) else none

theorem mem_numbered (f : Embed) (sf : SField) (i : Nat) :
    (sf, i) ∈ numbered E f ↔ ∃ fs, E.fieldsOf f.typ = some fs ∧ fs[i]? = some sf := by
  unfold numbered
  rw [List.mem_zipIdx_iff_getElem?]
  simp only
  cases E.fieldsOf f.typ with
  | none => simp
  | some fs => simp

theorem mem_leaves (f : Embed) (c : Cand) :
    c ∈ leaves E ot f ↔ ∃ fs i sf, E.fieldsOf f.typ = some fs ∧ fs[i]? = some sf ∧ From E ot sf c ∧
      c.index = f.index ++ [i] ∧ c.path = f.path ++ [.member i] := by
  unfold leaves
  rw [List.mem_filterMap]
  constructor
  · rintro ⟨⟨sf, i⟩, h1, h2⟩
    obtain ⟨fs, h3, h4⟩ := (mem_numbered E f sf i).mp h1
    refine ⟨fs, i, sf, h3, h4, ?_⟩
    simp only at h2
    by_cases h5 : skips E ot sf = false ∧ isLeaf E sf = true
    · rw [if_pos h5] at h2
      simp at h2
      exact (from_iff E ot f sf i c).mpr ⟨h5.1, h5.2, h2.symm⟩
    · rw [if_neg h5] at h2; cases h2
  · rintro ⟨fs, i, sf, h3, h4, h5⟩
    refine ⟨(sf, i), (mem_numbered E f sf i).mpr ⟨fs, h3, h4⟩, ?_⟩
    obtain ⟨h6, h7, h8⟩ := (from_iff E ot f sf i c).mp h5
    rw [if_pos ⟨h6, h7⟩, h8]

theorem mem_children (f e : Embed) :
    e ∈ children E ot f ↔ ∃ fs i sf, E.fieldsOf f.typ = some fs ∧ fs[i]? = some sf ∧ Embeds E ot sf e.typ ∧
      e.index = f.index ++ [i] ∧ e.path = f.path ++ (.member i :: if sf.ty.isPtr then [.deref sf.exported e.typ] else []) := by
  unfold children
  rw [List.mem_filterMap]
  constructor
  · rintro ⟨⟨sf, i⟩, h1, h2⟩
    obtain ⟨fs, h3, h4⟩ := (mem_numbered E f sf i).mp h1
    refine ⟨fs, i, sf, h3, h4, ?_⟩
    simp only at h2
    by_cases h5 : skips E ot sf = false ∧ isLeaf E sf = false
    · rw [if_pos h5] at h2
      simp at h2
      subst h2
      exact ⟨(embeds_iff E ot sf _).mpr ⟨h5.1, h5.2, rfl⟩, rfl, rfl⟩
    · rw [if_neg h5] at h2; cases h2
  · rintro ⟨fs, i, sf, h3, h4, h5, h6, h7⟩
    refine ⟨(sf, i), (mem_numbered E f sf i).mpr ⟨fs, h3, h4⟩, ?_⟩
    obtain ⟨g1, g2, g3⟩ := (embeds_iff E ot sf _).mp h5
    rw [if_pos ⟨g1, g2⟩]
    obtain ⟨typ, index, path⟩ := e
    simp only at g3 h6 h7
    subst g3 h6 h7
    rfl

/-- The loop over the fields of a struct. -/
theorem fields_foldl (count : Ty → Nat) (f : Embed) (l : List (SField × Nat)) (st : DState) :
    l.foldl (DState.field E ot count f) st =
      (l.filterMap fun x => if skips E ot x.1 = false ∧ isLeaf E x.1 = false then some (childOf f x.1 x.2) else none).foldl
        DState.push
        { st with
          fields := st.fields ++
            List.flatMap (twice (decide (count f.typ > 1)))
              (l.filterMap fun x => if skips E ot x.1 = false ∧ isLeaf E x.1 = true then some (leafOf E f x.1 x.2) else none) } := by
  induction l generalizing st with
  | nil => simp
  | cons x l ih =>
    obtain ⟨sf, i⟩ := x
    rw [List.foldl_cons, field_eq, ih]
    cases h1 : skips E ot sf <;> cases h2 : isLeaf E sf <;> simp [h1, h2, DState.push]

end

end Jzon
