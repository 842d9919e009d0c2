import Verif.Proof.Viable
import Verif.Proof.Cut
import Verif.Spec.Viable
import Verif.Props.Decided

/-!
# C65: what is wrong is told from what is only cut off
-/

set_option linter.unusedSimpArgs false

namespace Jzon.Props

open Spec Jzon

/-- The bytes the iterator has or gets before the reader fails. -/
abbrev arrivedBytes (it : It) (s : List RdRes) : List Byte := it.buf.drop it.head ++ readBytes s

/-- C65: when `Skip` reports the failure of the reader, the bytes that have arrived can be completed to a JSON text. -/
theorem C65_skip_waits (pool : Stack) (it : It) {s : List RdRes} {n : Nat} (hh : it.head ≤ it.buf.length) (hs : ∀ r ∈ s, r.err = none)
    (h : ((Skip pool).runM (cutOff it s n)).1 = .error (.io n)) :
    ∃ q w t v, arrivedBytes it s ++ q = w ++ t ∧ Ws w ∧ Value t v := by
  have hu := cutOff_unread (n := n) hh hs
  cases hm : (Skip pool).runM (cutOff it s n) with
  | mk x it' =>
    rw [hm] at h
    cases h
    obtain ⟨h1, _⟩ := runM_error hu hm
    obtain ⟨q, w, t, v, hw, hv, hq⟩ := stuck_skip pool ⟨env_endErr hu, h1⟩
    exact ⟨q, w, t, v, hq, hw, hv⟩

/-- **C65**: `Skip` refuses the bytes that have arrived exactly if no continuation begins with a JSON value. -/
theorem C65_skip (pool : Stack) (it : It) {s : List RdRes} {n : Nat} (hh : it.head ≤ it.buf.length) (hs : ∀ r ∈ s, r.err = none) :
    (∃ e, e ≠ .io n ∧ ((Skip pool).runM (cutOff it s n)).1 = .error e) ↔ ¬ Viable (arrivedBytes it s) := by
  have hu := cutOff_unread (n := n) hh hs
  constructor
  · rintro ⟨e, he, h⟩ ⟨q, w, t, v, r, hq, hw, hv, hr⟩
    have h1 := (C64_skip pool it s n hh hs (by rw [h]; simpa using he) [⟨q, some .eof⟩]).1
    rw [h] at h1
    have hu2 : Unread (goesOn it s [⟨q, some .eof⟩]) (w ++ (t ++ r)) .eof := by
      rw [← hq]
      exact ⟨hh, readBytes s ++ q, delivers_append hs (.last q [] (by simp)), by simp [goesOn]⟩
    cases hm : (Skip pool).runM (goesOn it s [⟨q, some .eof⟩]) with
    | mk x it' =>
      rw [hm] at h1
      cases h1
      obtain ⟨h2, _⟩ := runM_error hu2 hm
      have h3 := (runs_skip pool (env := (goesOn it s [⟨q, some .eof⟩]).env) (u := ())).mpr ⟨w, t, v, rfl, hw, hv, (endsAt_iff hv).mpr (by rw [env_endErr hu2]; exact hr)⟩
      rw [h3] at h2
      cases h2
  · intro hn
    cases hm : (Skip pool).runM (cutOff it s n) with
    | mk x it' =>
      cases x with
      | ok u =>
        obtain ⟨r, _, h2, _⟩ := runM_ok hu hm
        obtain ⟨w, t, v, h3, hw, hv, hr⟩ := (runs_skip pool).mp h2
        refine absurd ⟨[], w, t, v, r, by simpa using h3, hw, hv, ?_⟩ hn
        have h4 := (endsAt_iff hv).mp hr
        intro hnum
        obtain ⟨h5, h6⟩ := h4 hnum
        exact ⟨h5, fun _ => rfl⟩
      | error e =>
        refine ⟨e, ?_, rfl⟩
        rintro rfl
        obtain ⟨q, w, t, v, hq, hw, hv⟩ := C65_skip_waits pool it hh hs (by rw [hm])
        exact hn ⟨q, w, t, v, [], by simpa using hq, hw, hv, fun _ => ⟨nofun, fun _ => rfl⟩⟩

/-! ## Input that ends -/

theorem hasValue_ok (pool : Stack) {it : It} {l : List Byte} (hu : Unread it l .eof) :
    HasValue l ↔ ∃ r, (Skip pool).runF it.env l = .ok ((), r) := by
  constructor
  · rintro ⟨w, t, v, r, rfl, hw, hv, hr⟩
    exact ⟨r, (runs_skip pool (u := ())).mpr ⟨w, t, v, rfl, hw, hv, (endsAt_iff hv).mpr (by rw [env_endErr hu]; exact hr)⟩⟩
  · rintro ⟨r, h⟩
    obtain ⟨w, t, v, h3, hw, hv, hr⟩ := (runs_skip pool (u := ())).mp h
    exact ⟨w, t, v, r, h3, hw, hv, by have := (endsAt_iff hv).mp hr; rwa [env_endErr hu] at this⟩

/-- What `Skip` reports on input that ends behind `l`. -/
theorem skip_trichotomy (pool : Stack) {it : It} {l : List Byte} (hu : Unread it l .eof) :
    (HasValue l ∧ ((Skip pool).runM it).1 = .ok ()) ∨
    (¬ HasValue l ∧ Viable l ∧ ((Skip pool).runM it).1 = .error .eof) ∨
    (¬ Viable l ∧ ∃ e, e ≠ .eof ∧ ((Skip pool).runM it).1 = .error e) := by
  have hnv : ∀ {e}, (Skip pool).runF it.env l = .error e → ¬ HasValue l := by
    intro e h hv
    obtain ⟨r, h1⟩ := (hasValue_ok pool hu).mp hv
    rw [h1] at h
    cases h
  have herr : ∀ {e}, (Skip pool).runF it.env l = .error e → ((Skip pool).runM it).1 = .error e := by
    intro e h
    obtain ⟨_, h⟩ := runM_of_error hu h
    rw [h]
  by_cases hv : HasValue l
  · refine .inl ⟨hv, ?_⟩
    obtain ⟨r, h1⟩ := (hasValue_ok pool hu).mp hv
    obtain ⟨_, h2, _⟩ := runM_of_runs hu h1
    rw [h2]
  let it0 : It := { buf := l, head := 0, offset := it.offset + it.head, capture := false, reader := some [] }
  have hu0 : Unread (cutOff it0 [] 0) l (.io 0) := by
    have := cutOff_unread (it := it0) (s := []) (n := 0) (by simp [it0]) (by simp)
    simpa [it0, readBytes] using this
  have henv : it.env = ⟨.eof, (cutOff it0 [] 0).total⟩ := by
    obtain ⟨_, h1, h2⟩ := unread_iff.mp hu
    obtain ⟨_, h3, h4⟩ := unread_iff.mp hu0
    simp only [It.env, It.total, h1, h2, h3]
    rfl
  have henv0 : (cutOff it0 [] 0).env = ⟨.io 0, (cutOff it0 [] 0).total⟩ := by
    have := env_endErr hu0
    simp only [It.env] at this ⊢
    rw [this]
  have harr : arrivedBytes it0 [] = l := by simp [arrivedBytes, it0, readBytes]
  cases hx : (Skip pool).runF (cutOff it0 [] 0).env l with
  | ok x =>
    have h1 := end_same (Skip pool) (henv0 ▸ hx) (by simp)
    rw [← henv] at h1
    exact absurd ((hasValue_ok pool hu).mpr ⟨x.2, h1⟩) hv
  | error e =>
    have hc := calm_Skip pool l e (by rw [← henv0]; exact hx)
    rw [← henv] at hc
    by_cases he : e = .io 0
    · subst he
      refine .inr (.inl ⟨hv, ?_, ?_⟩)
      · obtain ⟨q, w, t, v, hw, ht, hq⟩ := stuck_skip pool ⟨env_endErr hu0, hx⟩
        exact ⟨q, w, t, v, [], by simpa using hq, hw, ht, fun _ => ⟨nofun, fun _ => rfl⟩⟩
      · rcases hc.2 rfl with h | h | ⟨a, h⟩
        · exact herr h
        · exact absurd (herr h) (C08_skip pool it l .eof hu (by simp) (by simp)).2.1
        · exact absurd ((hasValue_ok pool hu).mpr ⟨[], h⟩) hv
    · have h1 := end_same (Skip pool) (henv0 ▸ hx) (by simpa using he)
      rw [← henv] at h1
      refine .inr (.inr ⟨?_, e, hc.1, herr h1⟩)
      have := (C65_skip pool it0 (s := []) (n := 0) (by simp [it0]) (by simp)).mp ⟨e, he, by obtain ⟨_, h⟩ := runM_of_error hu0 hx; rw [h]⟩
      rwa [harr] at this

/-- **C65** for input that ends: `Skip` reports `io.EOF` exactly if the input has no value at its front, but is the beginning of one
that has. -/
theorem C65_skip_eof (pool : Stack) {it : It} {l : List Byte} (hu : Unread it l .eof) :
    ((Skip pool).runM it).1 = .error .eof ↔ Viable l ∧ ¬ HasValue l := by
  rcases skip_trichotomy pool hu with ⟨h1, h2⟩ | ⟨h1, h2, h3⟩ | ⟨h1, e, h2, h3⟩
  · rw [h2]; simp [h1]
  · simp [h1, h2, h3]
  · rw [h3]; simp [h1, h2]

/-- **C65** for input that ends: `Skip` reports another error exactly if nothing that could follow makes the input right. -/
theorem C65_skip_wrong (pool : Stack) {it : It} {l : List Byte} (hu : Unread it l .eof) :
    (∃ e, e ≠ .eof ∧ ((Skip pool).runM it).1 = .error e) ↔ ¬ Viable l := by
  rcases skip_trichotomy pool hu with ⟨h1, h2⟩ | ⟨h1, h2, h3⟩ | ⟨h1, h2⟩
  · rw [h2]
    simp only [reduceCtorEq, and_false, exists_false, false_iff, Classical.not_not]
    exact ⟨[], by simpa using h1⟩
  · rw [h3]; simp [h2]
  · simp only [h1, not_false_eq_true, iff_true]; exact h2

/-! ## Concrete cases -/

/-- A text that is only cut off. -/
example : ((Skip ⟨[], 0⟩).runM (cutOff ⟨bs! "[1", 0, 0, false, none⟩ [⟨bs! ",{\"a", none⟩] 7)).1 = .error (.io 7) := by rfl

example : Viable (bs! "[1,{\"a") :=
  (C65_skip_eof ⟨[], 0⟩ (it := ⟨bs! "[1,{\"a", 0, 0, false, none⟩) ⟨by decide, [], .done, rfl⟩).mp rfl |>.1

/-- A text that is wrong, though nobody has said that it ends. -/
example : ¬ Viable (bs! "[1 2") :=
  (C65_skip ⟨[], 0⟩ ⟨bs! "[1", 0, 0, false, none⟩ (s := [⟨bs! " 2", none⟩]) (n := 7) (by decide) (by simp)).mp
    ⟨_, by decide, rfl⟩

/-- A number that ends where the input ends. -/
example : HasValue (bs! "12") ∧ ¬ HasValue (bs! "12.") ∧ Viable (bs! "12.") ∧ ¬ Viable (bs! "12..") := by
  have hu : ∀ l : List Byte, Unread ⟨l, 0, 0, false, none⟩ l .eof := fun l => ⟨by simp, [], .done, by simp⟩
  refine ⟨(hasValue_ok ⟨[], 0⟩ (hu _)).mpr ⟨_, rfl⟩, ?_, ?_, (C65_skip_wrong ⟨[], 0⟩ (hu _)).mp ⟨_, by decide, rfl⟩⟩
  · exact ((C65_skip_eof ⟨[], 0⟩ (hu _)).mp rfl).2
  · exact ((C65_skip_eof ⟨[], 0⟩ (hu _)).mp rfl).1

end Jzon.Props
