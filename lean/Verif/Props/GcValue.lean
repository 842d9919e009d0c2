import Verif.Proof.GcValue
import Verif.Props.Gc

/-!
# C47: the value after decoding

The words and pointers that the decoders write stand for the value that the input stands for.
-/

namespace Jzon.Props

open Jzon.Gc

theorem visible_run {k : HeaderKind} {fs fs' : List Frame} {h h' : Store} {es : List Event} (hv : Visible k fs h es fs' h') (base : List Nat) :
    ∃ es', visible es' = es ∧ Run k ⟨fs, base, h⟩ (es'.map some) ⟨fs', base, h'⟩ := by
  induction hv with
  | refl fs h => exact ⟨[], rfl, .nil _⟩
  | event f fs fs1 fs' h h1 h' e es he hs _ ih =>
    obtain ⟨es', rfl, hr⟩ := ih
    exact ⟨e :: es', by simp [visible, he], .cons _ _ _ _ _ (.go f fs fs1 base e h h1 hs) hr⟩
  | silent f fs fs1 fs' h h1 h' es hs _ ih =>
    obtain ⟨es', rfl, hr⟩ := ih
    exact ⟨.silent :: es', by simp [visible], .cons _ _ _ _ _ (.go f fs fs1 base .silent h h1 hs) hr⟩

/-- C47, the value: decoding into a variable without sharing, on input for the value `v'` (given the old value), ends without a fault; the
variable holds `v'` then, again without sharing, and all other memory is as before: the objects that do not belong to the variable, and
the other words of its own object. -/
theorem C47_value (k : HeaderKind) (h : Store) (p : Loc) (t : Typ) (v v' : Value) (fp : List Nat) (es : List Event) (base : List Nat)
    (hh : Holds h p t v fp) (hd : Decodes t v es v') :
    ∃ es' h' fp', visible es' = es ∧ Run k ⟨[.dec t p], base, h⟩ (es'.map some) ⟨[], base, h'⟩ ∧ Holds h' p t v' fp' ∧
      (∀ o, o < h.next → o ∉ fp → o ≠ p.obj → h'.obj o = h.obj o) ∧
      (∀ i, i < p.off ∨ p.off + size t ≤ i → (h'.obj p.obj).cells[i]? = (h.obj p.obj).cells[i]?) ∧
      (h'.obj p.obj).entries = (h.obj p.obj).entries := by
  obtain ⟨h1, h2, hr, hn, ho⟩ := hh
  rw [List.nodup_cons] at hn
  have hl := hr.length
  have hpre : Pre h p (((h.obj p.obj).cells.drop p.off).take (size t)) fp := ⟨h1, by rw [hl]; exact h2, by rw [hl]; rfl, hn.1, hn.2, ho⟩
  obtain ⟨h', cs', fp', hv, hr', hq⟩ := decodes_good (k := k) hd h p _ fp [] hpre hr
  obtain ⟨es', he, hrun⟩ := visible_run hv base
  have hl' : cs'.length = size t := hr'.length
  have hpre' := Post.pre hpre hq (by rw [hl', hl])
  refine ⟨es', h', fp', he, hrun, ⟨hpre'.there, ?_, ?_, ?_, hpre'.old⟩, hq.frame, ?_, ?_⟩
  · have := hpre'.fits
    rwa [hl'] at this
  · have := hpre'.words
    rw [hl'] at this
    unfold win at this
    rw [this]
    exact hr'
  · rw [List.nodup_cons]
    exact ⟨hpre'.other, hpre'.nodup⟩
  · intro i hi
    rw [hq.here]
    simp only
    rw [getElem?_patch (by omega)]
    grind
  · rw [hq.here]

theorem step_det {k : HeaderKind} {s s1 s2 : State} {e : Event} (h1 : Step k s (some e) s1) (h2 : Step k s (some e) s2) : s1 = s2 := by
  cases h1 with
  | go f fs fs' base e h h' hs =>
    cases h2 with
    | go _ _ _ _ _ _ _ hs' =>
      rw [hs] at hs'
      cases hs'
      rfl

theorem run_det {k : HeaderKind} {es : List Event} {s s1 s2 : State} (h1 : Run k s (es.map some) s1) (h2 : Run k s (es.map some) s2) : s1 = s2 := by
  induction es generalizing s with
  | nil => cases h1; cases h2; rfl
  | cons e es ih =>
    cases h1 with
    | cons _ a _ _ _ sa ra =>
      cases h2 with
      | cons _ b _ _ _ sb rb =>
        cases step_det sa sb
        exact ih ra rb

/-- What belongs to a value is what pointers lead to. -/
theorem reps_reach {h : Store} {roots : List Nat} {cs : List Cell} {t : Typ} {v : Value} {fp : List Nat} (hr : Reps h cs t v fp)
    (hc : ∀ c ∈ cs, ∀ o, c.ref = some o → Reach h roots o) : ∀ o ∈ fp, Reach h roots o := by
  induction hr using Reps.rec (motive_2 := fun cs _ _ fp _ => (∀ c ∈ cs, ∀ o, c.ref = some o → Reach h roots o) → ∀ o ∈ fp, Reach h roots o)
    (motive_3 := fun mes _ _ fp _ => (∀ e ∈ mes, ∀ c ∈ e.2, ∀ o, c.ref = some o → Reach h roots o) → ∀ o ∈ fp, Reach h roots o) with
  | num | strNil | ptrNil | embedNil | sliceNil | mapNil => simp
  | str o n ho =>
    intro o' h'
    simp only [List.mem_singleton] at h'
    subst h'
    exact hc (.ptr (some ⟨o', 0⟩)) (by simp) o' rfl
  | ptr t q cs v fp hq _ ih | embed t q cs v fp hq _ ih =>
    have hr : Reach h roots q := hc (.ptr (some ⟨q, 0⟩)) (by simp) q rfl
    intro o ho
    simp only [List.mem_cons] at ho
    rcases ho with rfl | ho
    · exact hr
    · refine ih (fun c hc o ho => .ref q o hr ?_) o ho
      rw [hq]
      simp only [Obj.refs, List.flatMap_nil, List.append_nil]
      exact List.mem_filterMap.2 ⟨c, hc, ho⟩
  | slice t a cap cs rest vs fp ha _ _ _ ih =>
    have hr : Reach h roots a := hc (.ptr (some ⟨a, 0⟩)) (by simp) a rfl
    intro o ho
    simp only [List.mem_cons] at ho
    rcases ho with rfl | ho
    · exact hr
    · refine ih (fun c hc o ho => .ref a o hr ?_) o ho
      rw [ha]
      simp only [Obj.refs, List.flatMap_nil, List.append_nil]
      exact List.mem_filterMap.2 ⟨c, List.mem_append_left _ hc, ho⟩
  | map t m mes kvs fp hm _ ih =>
    have hr : Reach h roots m := hc (.ptr (some ⟨m, 0⟩)) (by simp) m rfl
    intro o ho
    simp only [List.mem_cons] at ho
    rcases ho with rfl | ho
    · exact hr
    · refine ih (fun e he c hc o ho => .ref m o hr ?_) o ho
      rw [hm]
      simp only [Obj.refs, List.nil_append]
      exact List.mem_filterMap.2 ⟨c, List.mem_flatMap.2 ⟨e, he, hc⟩, ho⟩
  | array n t cs vs fp _ _ ih => exact ih hc
  | pair a b ca cb va vb fa fb _ _ iha ihb =>
    intro o ho
    simp only [List.mem_append] at ho
    rcases ho with ho | ho
    · exact iha (fun c h => hc c (by simp [h])) o ho
    · exact ihb (fun c h => hc c (by simp [h])) o ho
  | none => simp_all
  | more t c cs v vs f fp _ _ ih1 ih2 =>
    rename_i hc o ho
    simp only [List.mem_append] at ho
    rcases ho with ho | ho
    · exact ih1 (fun c h => hc c (by simp [h])) o ho
    · exact ih2 (fun c h => hc c (by simp [h])) o ho
  | empty => simp_all
  | entry t k c mes v kvs f fp _ _ ih1 ih2 =>
    rename_i hc o ho
    simp only [List.mem_append] at ho
    rcases ho with ho | ho
    · exact ih1 (hc (k, c) (by simp)) o ho
    · exact ih2 (fun e h => hc e (by simp [h])) o ho

/-- A run with collections leaves the value that the run without leaves. -/
theorem holds_gc {S : Layout} {k : HeaderKind} {h h' : Store} {p : Loc} {t : Typ} {v : Value} {fp : List Nat} {base : List Nat} {es : List Event} {s1 : State}
    (hk : k = .pointer ∨ t.noSlice) (ht : Typed S k h) (hp : At S p t) (hb : ∀ o ∈ base, ∃ s, S o = some s) (hpb : p.obj ∈ base)
    (hrun : Run k ⟨[.dec t p], base, h⟩ (es.map some) ⟨[], base, h'⟩) (hh : Holds h' p t v fp)
    (hr : RunGc k ⟨[.dec t p], base, h⟩ (es.map some) s1) : s1.frames = [] ∧ Holds s1.store p t v fp := by
  obtain ⟨s2, h2, hs⟩ := gc_run hk ht hp hb hr
  cases run_det hrun h2
  have hroots : State.roots k ⟨[], base, h'⟩ = base := by simp [State.roots]
  have hp1 : Reach h' base p.obj := .root _ hpb
  have e1 : s1.store.obj p.obj = h'.obj p.obj := hs.visible (by rw [hroots]; exact hp1)
  obtain ⟨P, _, _, ha⟩ := hs.agree
  have hn : s1.store.next = h'.next := ha.next
  obtain ⟨g1, g2, g3, g4, g5⟩ := hh
  refine ⟨hs.frames, by omega, by rw [e1]; exact g2, ?_, g4, fun o ho => by have := g5 o ho; omega⟩
  rw [e1]
  refine g3.frame fun o ho => hs.visible ?_
  rw [hroots]
  refine reps_reach g3 (fun c hc o ho => .ref _ o hp1 ?_) o ho
  exact List.mem_filterMap.2 ⟨c, List.mem_append_left _ (List.mem_of_mem_drop (List.mem_of_mem_take hc)), ho⟩

/-- C47 as a whole for slice headers with a pointer: whenever collections take place, the variable holds the value of the input in the
end.  (`hpb`: the caller still has the variable.) -/
theorem C47_value_collections (S : Layout) (h : Store) (p : Loc) (t : Typ) (v v' : Value) (fp : List Nat) (es : List Event) (base : List Nat)
    (ht : Typed S .pointer h) (hp : At S p t) (hb : ∀ o ∈ base, ∃ s, S o = some s) (hpb : p.obj ∈ base)
    (hh : Holds h p t v fp) (hd : Decodes t v es v') :
    ∃ es' fp', visible es' = es ∧ (∃ s1, RunGc .pointer ⟨[.dec t p], base, h⟩ (es'.map some) s1) ∧
      ∀ s1, RunGc .pointer ⟨[.dec t p], base, h⟩ (es'.map some) s1 → s1.frames = [] ∧ Holds s1.store p t v' fp' := by
  obtain ⟨es', h', fp', he, hrun, hh', _⟩ := C47_value .pointer h p t v v' fp es base hh hd
  refine ⟨es', fp', he, ⟨_, by simpa using run_gc hrun (.nil _)⟩, fun s1 hr => holds_gc (.inl rfl) ht hp hb hpb hrun hh' hr⟩

/-- The same with the headers of the code, for types without slices (see `C47_slice_violated`). -/
theorem C47_value_collections_partial (S : Layout) (h : Store) (p : Loc) (t : Typ) (v v' : Value) (fp : List Nat) (es : List Event) (base : List Nat)
    (ht : Typed S .uintptr h) (hp : At S p t) (hb : ∀ o ∈ base, ∃ s, S o = some s) (hpb : p.obj ∈ base) (hn : t.noSlice)
    (hh : Holds h p t v fp) (hd : Decodes t v es v') :
    ∃ es' fp', visible es' = es ∧ (∃ s1, RunGc .uintptr ⟨[.dec t p], base, h⟩ (es'.map some) s1) ∧
      ∀ s1, RunGc .uintptr ⟨[.dec t p], base, h⟩ (es'.map some) s1 → s1.frames = [] ∧ Holds s1.store p t v' fp' := by
  obtain ⟨es', h', fp', he, hrun, hh', _⟩ := C47_value .uintptr h p t v v' fp es base hh hd
  refine ⟨es', fp', he, ⟨_, by simpa using run_gc hrun (.nil _)⟩, fun s1 hr => holds_gc (.inr hn) ht hp hb hpb hrun hh' hr⟩

/-- `[1,2,3]` into a slice of numbers. -/
theorem decodes_slice : Decodes (.slice .leaf) .nil [.opening, .scalar 1, .comma, .scalar 2, .comma, .scalar 3, .closing]
    (.slice [.num 1, .num 2, .num 3]) :=
  .slice _ _ _ _ (.elem _ [_] _ _ _ (.num _ 1) (.elem _ [_] _ _ _ (.num _ 2) (.lastElem _ [_] _ (.num _ 3))))

theorem sliceVar_holds : Holds sliceVar ⟨0, 0⟩ (.slice .leaf) .nil [] :=
  ⟨Nat.one_pos, Nat.le_refl 3, .sliceNil _, by simp, by simp⟩

/-- The hypotheses of the theorems can be met: the slice above; a map in a struct behind a pointer, with a key twice. -/
example : ∃ es' fp', visible es' = [.opening, .scalar 1, .comma, .scalar 2, .comma, .scalar 3, .closing] ∧
    (∃ s1, RunGc .pointer ⟨[.dec (.slice .leaf) ⟨0, 0⟩], [0], sliceVar⟩ (es'.map some) s1) ∧
      ∀ s1, RunGc .pointer ⟨[.dec (.slice .leaf) ⟨0, 0⟩], [0], sliceVar⟩ (es'.map some) s1 →
        s1.frames = [] ∧ Holds s1.store ⟨0, 0⟩ (.slice .leaf) (.slice [.num 1, .num 2, .num 3]) fp' :=
  C47_value_collections sliceLayout sliceVar ⟨0, 0⟩ (.slice .leaf) .nil _ [] _ [0] (sliceVar_typed _) sliceVar_at
    (by intro o ho; simp at ho; subst ho; exact ⟨_, rfl⟩) (by simp) sliceVar_holds decodes_slice

example : Decodes (.ptr (.pair .str (.map (.array 2 .leaf)))) .nil
    [.opening, .key 1, .opening, .key 5, .opening, .scalar 1, .scalar 2, .skip, .closing, .comma, .key 5, .opening, .scalar 3, .closing, .closing,
      .skip, .key 0, .scalar 7, .closing]
    (.ptr (.pair (.str (some 7)) (.map [(5, .array [.num 3, .num 0])]))) :=
  .ptrNew _ _ _ (by simp) (.pair _ _ _ _ _ _ _
    (.snd _ _ _ _ [.opening, .key 5, .opening, .scalar 1, .scalar 2, .skip, .closing, .comma, .key 5, .opening, .scalar 3, .closing, .closing] _ _ _ _
      (.map _ _ _ _ (.entry _ _ 5 [.opening, .scalar 1, .scalar 2, .skip, .closing] _ [.key 5, .opening, .scalar 3, .closing, .closing] _
        (.array _ _ _ _ _ (.next _ _ _ [_] _ _ _ (.num _ 1) (.next _ _ _ [_] _ _ _ (.num _ 2) (.over _ _ (.rest _ _)))))
        (.lastEntry _ _ 5 [.opening, .scalar 3, .closing] _ (.array _ _ _ _ _ (.next _ _ _ [_] _ _ _ (.num _ 3) (.rest _ _))))))
      (.unknown _ _ _ _ _ _ _ (.fst _ _ _ _ [_] _ _ _ _ (.str _ 7) (.finish _ _ _ _)))))

end Jzon.Props
