import Verif.Proof.Expected
import Verif.Props.Viable

/-!
# C70: an error names the first wrong byte
-/

set_option linter.unusedSimpArgs false

namespace Jzon.Props

open Spec Jzon

theorem viable_prefix {a b : List Byte} (h : Viable (a ++ b)) : Viable a := by
  obtain ⟨q, h⟩ := h
  exact ⟨b ++ q, by rwa [← List.append_assoc]⟩

/-- The byte at which bytes that could be the beginning of something right stop to be that. -/
theorem first_wrong (p s : List Byte) (hp : Viable p) (hs : ¬ Viable (p ++ s)) :
    ∃ u c r, p ++ s = u ++ c :: r ∧ Viable u ∧ ¬ Viable (u ++ [c]) := by
  induction s generalizing p with
  | nil => exact absurd (by simpa using hp) hs
  | cons c s ih =>
    by_cases h : Viable (p ++ [c])
    · obtain ⟨u, d, r, h1, h2⟩ := ih (p ++ [c]) h (by simpa using hs)
      exact ⟨u, d, r, by rw [← h1]; simp, h2⟩
    · exact ⟨p, c, s, rfl, hp, h⟩

theorem viable_nil : Viable [] := by
  have hu : Unread ⟨bs! "null", 0, 0, false, none⟩ (bs! "null") .eof := ⟨by simp, [], .done, by simp⟩
  exact ⟨bs! "null", (hasValue_ok ⟨[], 0⟩ hu).mpr ⟨_, rfl⟩⟩

/-- An iterator that has `l` before it and whose reader fails then. -/
def restIt (o : Nat) (l : List Byte) : It := { buf := l, head := 0, offset := o, capture := false, reader := some [] }

theorem restIt_unread (o n : Nat) (l : List Byte) : Unread (cutOff (restIt o l) [] n) l (.io n) := by
  have := cutOff_unread (it := restIt o l) (s := []) (n := n) (by simp [restIt]) (by simp)
  simpa [restIt, readBytes] using this

theorem restIt_env (o n : Nat) (l : List Byte) : (cutOff (restIt o l) [] n).env = ⟨.io n, o + l.length⟩ := by
  have h := restIt_unread o n l
  obtain ⟨_, h1, h2⟩ := unread_iff.mp h
  simp only [It.env, It.total, h1, h2]
  simp [cutOff, restIt]

/-- C65 for the bytes alone. -/
theorem skip_refuses (pool : Stack) (o n : Nat) (l : List Byte) :
    (∃ e, e ≠ .io n ∧ (Skip pool).runF ⟨.io n, o + l.length⟩ l = .error e) ↔ ¬ Viable l := by
  have h := C65_skip pool (restIt o l) (s := []) (n := n) (by simp [restIt]) (by simp)
  have ha : arrivedBytes (restIt o l) [] = l := by simp [arrivedBytes, restIt, readBytes]
  rw [ha] at h
  rw [← h, ← restIt_env o n l]
  constructor
  · rintro ⟨e, he, h1⟩
    obtain ⟨_, h2⟩ := runM_of_error (restIt_unread o n l) h1
    exact ⟨e, he, by rw [h2]⟩
  · rintro ⟨e, he, h1⟩
    cases hm : (Skip pool).runM (cutOff (restIt o l) [] n) with
    | mk x it' =>
      rw [hm] at h1
      cases h1
      exact ⟨e, he, (runM_error (restIt_unread o n l) hm).1⟩

/-- An error is the same whatever follows. -/
theorem skip_settled (pool : Stack) (o n : Nat) (l r : List Byte) {e : Err} (he : e ≠ .io n)
    (h : (Skip pool).runF ⟨.io n, o + l.length⟩ l = .error e) : (Skip pool).runF ⟨.io n, o + (l ++ r).length⟩ (l ++ r) = .error e := by
  have hu := restIt_unread o n l
  obtain ⟨it1, h1⟩ := runM_of_error hu (restIt_env o n l ▸ h)
  have h2 := (C64_skip pool (restIt o l) [] n (by simp [restIt]) (by simp) (by rw [h1]; simpa using he)
    [⟨r, none⟩, ⟨[], some (.io n)⟩]).1
  rw [h1] at h2
  have hu2 : Unread (goesOn (restIt o l) [] [⟨r, none⟩, ⟨[], some (.io n)⟩]) (l ++ r) (.io n) := by
    refine ⟨by simp [goesOn, restIt], r, ?_, by simp [goesOn, restIt]⟩
    have := delivers_append (s := [⟨r, none⟩]) (by simp) (.broken [] (.io n) [] [] .eof (by simp) .done)
    simpa [goesOn, readBytes] using this
  have henv : (goesOn (restIt o l) [] [⟨r, none⟩, ⟨[], some (.io n)⟩]).env = ⟨.io n, o + (l ++ r).length⟩ := by
    obtain ⟨_, h3, h4⟩ := unread_iff.mp hu2
    simp only [It.env, It.total, h3, h4]
    simp [goesOn, restIt]
  cases hm : (Skip pool).runM (goesOn (restIt o l) [] [⟨r, none⟩, ⟨[], some (.io n)⟩]) with
  | mk x it' =>
    rw [hm] at h2
    cases h2
    rw [← henv]
    exact (runM_error hu2 hm).1

theorem skip_blames (pool : Stack) (o n : Nat) (l : List Byte) {e : Err} (he : e ≠ .io n)
    (h : (Skip pool).runF ⟨.io n, o + l.length⟩ l = .error e) :
    ∃ u c r, l = u ++ c :: r ∧ Viable u ∧ ¬ Viable (u ++ [c]) ∧ NamesByte e c ∧ ∀ y, AsksByte e y → Viable (u ++ [y]) := by
  obtain ⟨u, c, r, hl, hv, hn⟩ := first_wrong [] l viable_nil ((skip_refuses pool o n _).mp ⟨e, he, h⟩)
  rw [List.nil_append] at hl
  subst hl
  refine ⟨u, c, r, rfl, hv, hn, ?_⟩
  obtain ⟨e', he', h'⟩ := (skip_refuses pool o n _).mpr hn
  have h1 := skip_settled pool o n (u ++ [c]) r he' h'
  simp only [List.append_assoc, List.singleton_append] at h1
  rw [h] at h1
  cases h1
  have hb : ∀ (l : List Byte) e, (Skip pool).runF ⟨.io n, o + l.length⟩ l = .error e → e ≠ .panic ∧ e ≠ .hang := by
    intro l e h
    obtain ⟨it1, h1⟩ := runM_of_error (restIt_unread o n l) (restIt_env o n l ▸ h)
    have := C08_skip pool _ _ _ (restIt_unread o n l) (by simp) (by simp)
    rw [h1] at this
    exact ⟨fun h => this.1 (by rw [h]), fun h => this.2.1 (by rw [h])⟩
  have hx := prog_forget (Skip pool) ⟨.io n, o + (u ++ [c]).length⟩ (u ++ [c]) (u ++ [c])
  rw [h'] at hx
  cases hy : (Skip pool).runX ⟨.io n, o + (u ++ [c]).length⟩ (u ++ [c]) (u ++ [c]) with
  | ok y => rw [hy] at hx; cases hx
  | error y =>
    rw [hy] at hx
    obtain ⟨e, r2⟩ := y
    cases hx
    have hy' := hy
    rcases says_Skip pool _ _ _ _ _ (.inl rfl) hy with (h2 | h2 | h2 | h2) | ⟨d, h2, h3⟩
    · exact absurd h2 he
    · exact absurd h2 (calm_Skip pool _ _ h').1
    · exact absurd h2 (hb _ _ h').1
    · exact absurd h2 (hb _ _ h').2
    · rcases h3 with ⟨u2, h3⟩ | ⟨_, h3⟩
      · have h4 : u ++ [c] = (u2 ++ [d]) ++ r2 := by rw [← h3]; simp
        have hn2 : ¬ Viable (u2 ++ [d]) := by
          rw [h4] at hy
          have hT : o + (u2 ++ [d] ++ r2).length = o + (u2 ++ [d]).length + r2.length := by simp; omega
          rw [hT] at hy
          rcases grows_cut (grows_Skip pool) (.inl rfl) hy (by intro z hz; cases hz; exact he rfl) (List.suffix_refl _) with ⟨z, h5⟩ | ⟨y', h5, h6⟩
          · have := prog_forget (Skip pool) ⟨.io n, o + (u2 ++ [d]).length⟩ (u2 ++ [d]) (u2 ++ [d])
            rw [h5] at this
            exact absurd rfl (hb _ _ this).2
          · have := prog_forget (Skip pool) ⟨.io n, o + (u2 ++ [d]).length⟩ (u2 ++ [d]) (u2 ++ [d])
            rw [h5] at this
            cases y' with
            | ok y' => cases h6
            | error y' =>
              have h7 : y'.1 = e := by simp only [Seen.more, Except.error.injEq, Prod.mk.injEq] at h6; exact h6.1.symm
              exact (skip_refuses pool o n _).mp ⟨_, he, by rw [this, ← h7]; rfl⟩
        rcases List.eq_nil_or_concat r2 with rfl | ⟨r3, d', rfl⟩
        · simp only [List.append_nil] at h4
          have := List.append_inj' h4 rfl
          cases this.2
          refine ⟨h2, fun y hq => ?_⟩
          cases e with
          | unexpectedByte d a b =>
            obtain rfl : d = c := h2
            have hf := fits_Skip pool n (o + (u ++ [d]).length) u u d a b y (.inl rfl) hy' ⟨hq.2, hq.1⟩
            refine Classical.byContradiction fun hno => ?_
            obtain ⟨e2, h5, h6⟩ := (skip_refuses pool o n (u ++ [y])).mpr hno
            have hlen : o + (u ++ [d]).length = o + (u ++ [y]).length := by simp
            rw [hlen] at hf
            have h7 := h6
            rw [prog_forget (Skip pool) _ _ (u ++ [y])] at h7
            rcases hf with ⟨a, x, h8⟩ | ⟨e3, z, h8, h9⟩
            · rw [h8] at h7; cases h7
            · rw [h8] at h7
              cases h7
              rcases h9 with h9 | h9 | h9
              · exact h5 h9
              · exact (hb _ _ h6).2 h9
              · exact (hb _ _ h6).1 h9
          | _ => exact hq.elim
        · exfalso
          rw [List.concat_eq_append, ← List.append_assoc] at h4
          have := List.append_inj' h4 rfl
          rw [this.1] at hv
          exact hn2 (viable_prefix hv)
      · cases h3

/-- **C70**: when `Skip` fails though the input does not end too early, the byte its error names is the first wrong one: what stands before it
is the beginning of something that `Skip` accepts, and together with it no longer. With a byte in its place that the error asks for it would
have been. -/
theorem C70_skip (pool : Stack) {it : It} {l : List Byte} (hu : Unread it l .eof) {e : Err} (he : e ≠ .eof)
    (h : ((Skip pool).runM it).1 = .error e) :
    ∃ u c r, l = u ++ c :: r ∧ Viable u ∧ ¬ Viable (u ++ [c]) ∧ NamesByte e c ∧ ∀ y, AsksByte e y → Viable (u ++ [y]) := by
  have hn := (C65_skip_wrong pool hu).mp ⟨e, he, h⟩
  obtain ⟨o, hT⟩ : ∃ o, it.env = ⟨.eof, o + l.length⟩ := by
    obtain ⟨_, h1, h2⟩ := unread_iff.mp hu
    exact ⟨it.offset + it.head, by simp only [It.env, It.total, h1, h2]⟩
  obtain ⟨e', he', h'⟩ := (skip_refuses pool o 0 l).mpr hn
  have h1 := end_same (Skip pool) h' (by simpa using he')
  rw [← hT] at h1
  obtain ⟨_, h2⟩ := runM_of_error hu h1
  rw [h2] at h
  cases h
  exact skip_blames pool o 0 l he' h'

/-- C70 for a reader that fails: an error other than that of the reader names the first wrong byte of those that arrived. -/
theorem C70_reader (pool : Stack) (it : It) {s : List RdRes} {n : Nat} (hh : it.head ≤ it.buf.length) (hs : ∀ r ∈ s, r.err = none)
    {e : Err} (he : e ≠ .io n) (h : ((Skip pool).runM (cutOff it s n)).1 = .error e) :
    ∃ u c r, arrivedBytes it s = u ++ c :: r ∧ Viable u ∧ ¬ Viable (u ++ [c]) ∧ NamesByte e c ∧ ∀ y, AsksByte e y → Viable (u ++ [y]) := by
  have hu := cutOff_unread (n := n) hh hs
  obtain ⟨o, hT⟩ : ∃ o, (cutOff it s n).env = ⟨.io n, o + (arrivedBytes it s).length⟩ := by
    obtain ⟨_, h1, h2⟩ := unread_iff.mp hu
    exact ⟨(cutOff it s n).offset + (cutOff it s n).head, by simp only [It.env, It.total, h1, h2]⟩
  cases hm : (Skip pool).runM (cutOff it s n) with
  | mk x it' =>
    rw [hm] at h
    cases h
    have := (runM_error hu hm).1
    rw [hT] at this
    exact skip_blames pool o n _ he this

/-- There is only one such byte. -/
theorem C70_unique {u u' r r' : List Byte} {c c' : Byte} (h : u ++ c :: r = u' ++ c' :: r') (h1 : Viable u) (h2 : ¬ Viable (u ++ [c]))
    (h1' : Viable u') (h2' : ¬ Viable (u' ++ [c'])) : u = u' ∧ c = c' := by
  rcases List.append_eq_append_iff.mp h with ⟨a, ha, hb⟩ | ⟨a, ha, hb⟩
  · cases a with
    | nil => cases hb; exact ⟨by simpa using ha.symm, rfl⟩
    | cons d a =>
      cases hb
      subst ha
      exact absurd (viable_prefix (a := u ++ [c]) (b := a) (by simpa using h1')) h2
  · cases a with
    | nil => cases hb; exact ⟨by simpa using ha, rfl⟩
    | cons d a =>
      cases hb
      subst ha
      exact absurd (viable_prefix (a := u' ++ [c']) (b := a) (by simpa using h1)) h2'

/-! ## Concrete cases -/

/-- The second `x` is the wrong byte. -/
example : ∃ u c r, bs! "[\"x\",x]" = u ++ c :: r ∧ Viable u ∧ ¬ Viable (u ++ [c]) ∧ NamesByte (.unexpectedByte (b! 'x') 0 0) c ∧
    ∀ y, AsksByte (.unexpectedByte (b! 'x') 0 0) y → Viable (u ++ [y]) :=
  C70_skip ⟨[], 0⟩ (it := ⟨bs! "[\"x\",x]", 0, 0, false, none⟩) ⟨by decide, [], .done, rfl⟩ (by decide) rfl

/-- Behind `tru` the error asks for an `e`, behind the element of an array for a bracket or a comma. -/
example : Viable (bs! "{\"a\":true") ∧ Viable (bs! "[12]") ∧ Viable (bs! "[12,") := by
  have h1 := C70_skip ⟨[], 0⟩ (it := ⟨bs! "{\"a\":tru}", 0, 0, false, none⟩) (e := .unexpectedByte (b! '}') (b! 'e') 0)
    ⟨by decide, [], .done, rfl⟩ (by decide) rfl
  have h2 := C70_skip ⟨[], 0⟩ (it := ⟨bs! "[12;", 0, 0, false, none⟩) (e := .unexpectedByte (b! ';') (b! ']') (b! ','))
    ⟨by decide, [], .done, rfl⟩ (by decide) rfl
  have find : ∀ {l u r : List Byte} {c d : Byte} {v : List Byte}, l = u ++ c :: r → d = c → l = v ++ [d] → d ∉ v → u = v := by
    intro l u r c d v h1 h2 h3 h4
    subst h2
    rw [h1] at h3
    rcases List.append_eq_append_iff.mp h3 with ⟨a, ha, hb⟩ | ⟨a, ha, hb⟩
    · cases a with
      | nil => simpa using ha.symm
      | cons x a => cases hb; subst ha; exact absurd (by simp) h4
    · cases a with
      | nil => simpa using ha
      | cons x a => simp at hb
  obtain ⟨u, c, r, hl, _, _, hc, h1⟩ := h1
  cases find (d := b! '}') (v := bs! "{\"a\":tru") hl hc rfl (by decide)
  obtain ⟨u, c, r, hl, _, _, hc, h2⟩ := h2
  cases find (d := b! ';') (v := bs! "[12") hl hc rfl (by decide)
  exact ⟨h1 (b! 'e') ⟨by decide, .inl rfl⟩, h2 (b! ']') ⟨by decide, .inl rfl⟩, h2 (b! ',') ⟨by decide, .inr rfl⟩⟩

end Jzon.Props
