import Verif.Proof.TypedScalar
import Verif.Props.Str

/-!
# C60: functions for one kind of values accept exactly this kind
-/

set_option linter.unusedSimpArgs false

namespace Jzon.Props

open Spec Jzon

/-- **C60.** `ReadBool` returns `b` and leaves `r` exactly if the unread input is white space, the literal of `b`, and `r`. -/
theorem C60_readBool_iff {it : It} {l r : List Byte} {e : Err} {b : Bool} (h : Unread it l e) :
    (∃ it', ReadBool.runM it = (.ok b, it') ∧ Unread it' r e) ↔
      ∃ w, Ws w ∧ l = w ++ ((if b = true then bs! "true" else bs! "false") ++ r) := by
  rw [runM_iff h]
  unfold ReadBool
  simp only [runs_bind, runs_token']
  constructor
  · rintro ⟨c, l1, ⟨w, l', hw, hc, rfl, h1⟩, h2⟩
    by_cases ht : c = 0x74
    · subst ht
      simp only [true_or, if_true, true_and, reduceCtorEq, false_and, or_false] at h1 h2
      subst h1
      simp only [runs_bind, runs_expectBytes (s := rue) (by decide), runs_pure] at h2
      obtain ⟨_, l2, rfl, rfl, rfl⟩ := h2
      exact ⟨w, hw, by simp [rue]⟩
    · by_cases hf : c = 0x66
      · subst hf
        rw [if_neg (by decide)] at h2
        simp at h1
        subst h1
        simp only [runs_bind, runs_expectBytes (s := alse) (by decide), runs_pure] at h2
        obtain ⟨_, l2, rfl, rfl, rfl⟩ := h2
        exact ⟨w, hw, by simp [alse]⟩
      · simp [ht, hf] at h1
  · rintro ⟨w, hw, rfl⟩
    cases b with
    | true =>
      refine ⟨0x74, rue ++ r, ⟨w, rue ++ r, hw, by decide, by simp [rue], .inl ⟨by simp, rfl⟩⟩, ?_⟩
      simp only [if_true, runs_bind, runs_expectBytes (s := rue) (by decide), runs_pure]
      exact ⟨(), r, rfl, by simp⟩
    | false =>
      refine ⟨0x66, alse ++ r, ⟨w, alse ++ r, hw, by decide, by simp [alse], .inl ⟨by simp, rfl⟩⟩, ?_⟩
      rw [if_neg (by decide)]
      simp only [runs_bind, runs_expectBytes (s := alse) (by decide), runs_pure]
      exact ⟨(), r, rfl, by simp⟩

/-- **C60.** `ReadNull` succeeds and leaves `r` exactly if the unread input is white space, `null`, and `r`. -/
theorem C60_readNull_iff {it : It} {l r : List Byte} {e : Err} (h : Unread it l e) :
    (∃ it', ReadNull.runM it = (.ok (), it') ∧ Unread it' r e) ↔ ∃ w, Ws w ∧ l = w ++ (bs! "null" ++ r) := by
  rw [runM_iff h]
  unfold ReadNull
  simp only [runs_bind, runs_token', runs_expectBytes (s := ull) (by decide)]
  constructor
  · rintro ⟨c, l1, ⟨w, l', hw, hc, rfl, h1⟩, rfl⟩
    by_cases hn : c = 0x6E
    · subst hn
      simp at h1
      subst h1
      exact ⟨w, hw, by simp [ull]⟩
    · simp [hn] at h1
  · rintro ⟨w, hw, rfl⟩
    exact ⟨0x6E, ull ++ r, ⟨w, ull ++ r, hw, by decide, by simp [ull], .inl ⟨by simp, rfl⟩⟩, rfl⟩

theorem skip_first {pool : Stack} {env : Env} {l r r1 : List Byte} {c : Byte} (hd : dropWs l = c :: r1) (h : Runs (Skip pool) env l () r) :
    ∃ w t v u, l = w ++ (t ++ r) ∧ Ws w ∧ Value t v ∧ t = c :: u := by
  obtain ⟨w, t, v, rfl, hw, hv, _⟩ := (runs_skip pool).mp h
  obtain ⟨c', u, rfl, hc, _⟩ := value_headed hv
  have : dropWs (w ++ (c' :: u ++ r)) = c' :: (u ++ r) := dropWs_eq_cons.mpr ⟨w, hw, hc, by simp⟩
  rw [this] at hd
  injection hd with h1 h2
  subst h1
  exact ⟨w, _, v, u, rfl, hw, hv, rfl⟩

/-- **C60.** `SkipArray` succeeds and leaves `r` exactly if the unread input is white space, an array, and `r`. -/
theorem C60_skipArray_iff {it : It} {l r : List Byte} {e : Err} (h : Unread it l e) (pool : Stack) :
    (∃ it', (SkipArray pool).runM it = (.ok (), it') ∧ Unread it' r e) ↔ ∃ w t vs, Ws w ∧ Value t (.arr vs) ∧ l = w ++ (t ++ r) := by
  rw [runM_iff h]
  unfold SkipArray
  simp only [runs_bind, runs_token_one, skipArrayWithStack_iff]
  constructor
  · rintro ⟨c, l1, ⟨hd, rfl⟩, hs⟩
    obtain ⟨w, t, v, u, hl, hw, hv, ht⟩ := skip_first (pool := pool) hd ((skip_iff pool).mpr ⟨_, _, hd, sval_arr.mpr hs⟩)
    refine ⟨w, t, ?_⟩
    cases hv with
    | arrEmpty w' hw' => exact ⟨_, hw, .arrEmpty w' hw', hl⟩
    | arr b vs h => exact ⟨_, hw, .arr b vs h, hl⟩
    | num _ hn =>
      obtain ⟨c, u', h1, h2⟩ := number_head hn
      rw [ht] at h1
      cases h1
      simp [Digit] at h2
    | str _ s hs =>
      obtain ⟨b, _, hb⟩ := hs
      rw [ht] at hb
      cases hb
    | _ => cases ht
  · rintro ⟨w, t, vs, hw, hv, rfl⟩
    have hr : Runs (Skip pool) it.env (w ++ (t ++ r)) () r := (runs_skip pool).mpr ⟨w, t, _, rfl, hw, hv, trivial⟩
    obtain ⟨c, l1, hd, hs⟩ := (skip_iff pool).mp hr
    obtain rfl : c = 0x5B := by
      obtain ⟨w', hw', hc, he⟩ := dropWs_eq_cons.mp hd
      have : ∃ u, t = 0x5B :: u := by cases hv <;> exact ⟨_, rfl⟩
      obtain ⟨u, rfl⟩ := this
      have hd' : dropWs (w ++ (0x5B :: u ++ r)) = 0x5B :: (u ++ r) := dropWs_eq_cons.mpr ⟨w, hw, by decide, by simp⟩
      rw [hd'] at hd
      injection hd with h1
      exact h1.symm
    exact ⟨_, l1, ⟨hd, rfl⟩, sval_arr.mp hs⟩

/-- **C60.** `SkipObject` succeeds and leaves `r` exactly if the unread input is white space, an object, and `r`. -/
theorem C60_skipObject_iff {it : It} {l r : List Byte} {e : Err} (h : Unread it l e) (pool : Stack) :
    (∃ it', (SkipObject pool).runM it = (.ok (), it') ∧ Unread it' r e) ↔ ∃ w t ms, Ws w ∧ Value t (.obj ms) ∧ l = w ++ (t ++ r) := by
  rw [runM_iff h]
  unfold SkipObject
  simp only [runs_bind, runs_token_one, skipObjectWithStack_iff]
  constructor
  · rintro ⟨c, l1, ⟨hd, rfl⟩, hs⟩
    obtain ⟨w, t, v, u, hl, hw, hv, ht⟩ := skip_first (pool := pool) hd ((skip_iff pool).mpr ⟨_, _, hd, sval_obj.mpr hs⟩)
    refine ⟨w, t, ?_⟩
    cases hv with
    | objEmpty w' hw' => exact ⟨_, hw, .objEmpty w' hw', hl⟩
    | obj b vs h => exact ⟨_, hw, .obj b vs h, hl⟩
    | num _ hn =>
      obtain ⟨c, u', h1, h2⟩ := number_head hn
      rw [ht] at h1
      cases h1
      simp [Digit] at h2
    | str _ s hs =>
      obtain ⟨b, _, hb⟩ := hs
      rw [ht] at hb
      cases hb
    | _ => cases ht
  · rintro ⟨w, t, vs, hw, hv, rfl⟩
    have hr : Runs (Skip pool) it.env (w ++ (t ++ r)) () r := (runs_skip pool).mpr ⟨w, t, _, rfl, hw, hv, trivial⟩
    obtain ⟨c, l1, hd, hs⟩ := (skip_iff pool).mp hr
    obtain rfl : c = 0x7B := by
      obtain ⟨w', hw', hc, he⟩ := dropWs_eq_cons.mp hd
      have : ∃ u, t = 0x7B :: u := by cases hv <;> exact ⟨_, rfl⟩
      obtain ⟨u, rfl⟩ := this
      have hd' : dropWs (w ++ (0x7B :: u ++ r)) = 0x7B :: (u ++ r) := dropWs_eq_cons.mpr ⟨w, hw, by decide, by simp⟩
      rw [hd'] at hd
      injection hd with h1
      exact h1.symm
    exact ⟨_, l1, ⟨hd, rfl⟩, sval_obj.mp hs⟩

/-- **C60.** `SkipNumber` succeeds and leaves `r` exactly if the unread input is white space, a number that goes as far as possible,
and `r`. -/
theorem C60_skipNumber_iff {it : It} {l r : List Byte} {e : Err} (h : Unread it l e) :
    (∃ it', SkipNumber.runM it = (.ok (), it') ∧ Unread it' r e) ↔ ∃ t, Number t ∧ Split e l t r := by
  rw [runM_iff h]
  unfold SkipNumber
  simp only [runs_bind, runs_token']
  constructor
  · rintro ⟨c, l1, ⟨w, l', hw, hc, rfl, h1⟩, h2⟩
    cases hn : isNumberStart c with
    | false => simp [hn] at h1
    | true =>
      simp [hn] at h1
      subst h1
      obtain ⟨t, rfl, h3, h4, h5⟩ := (runs_skipNumber hn).mp h2
      exact ⟨c :: t, h3, w, hw, by simp, fun _ => ⟨h4, fun hr => env_endErr h ▸ h5 hr⟩⟩
  · rintro ⟨t, hn, w, hw, rfl, he⟩
    obtain ⟨c, u, rfl, hc⟩ := numberStart_head hn
    have hws : isWs c = false := by
      obtain ⟨c', u', h1, h2, _⟩ := value_headed (.num _ hn)
      cases h1
      exact h2
    refine ⟨c, u ++ r, ⟨w, u ++ r, hw, hws, by simp, .inl ⟨by simp [hc], rfl⟩⟩, (runs_skipNumber hc).mpr ⟨u, rfl, hn, (he hn).1, fun hr => ?_⟩⟩
    rw [env_endErr h]
    exact (he hn).2 hr

/-- Concrete cases; what follows the literal is left. -/
example (it : It) : (ReadBool.runM (it.resetBytes (bs! " false,"))).1 = .ok false := rfl
example (it : It) : (ReadBool.runM (it.resetBytes (bs! "\ntrue1"))).1 = .ok true := rfl
example (it : It) : ∃ it', ReadNull.runM (it.resetBytes (bs! " \tnull]")) = (.ok (), it') ∧ Unread it' (bs! "]") .eof :=
  (C60_readNull_iff (unread_bytes _ _)).mpr ⟨bs! " \t", by simp [Ws], rfl⟩

example (it : It) (pool : Stack) : ∃ it', (SkipArray pool).runM (it.resetBytes (bs! " [true]]")) = (.ok (), it') ∧ Unread it' (bs! "]") .eof :=
  (C60_skipArray_iff (unread_bytes _ _) pool).mpr ⟨bs! " ", bs! "[true]", [.bool true], by simp [Ws],
    .arr (bs! "true") _ (.one [] (bs! "true") [] (.bool true) (by simp [Ws]) .true (by simp [Ws])), rfl⟩
example (it : It) (pool : Stack) : ∃ it', (SkipObject pool).runM (it.resetBytes (bs! "\n{ }x")) = (.ok (), it') ∧ Unread it' (bs! "x") .eof :=
  (C60_skipObject_iff (unread_bytes _ _) pool).mpr ⟨bs! "\n", bs! "{ }", [], by simp [Ws], .objEmpty (bs! " ") (by simp [Ws]), rfl⟩
example (it : It) : (SkipNumber.runM (it.resetBytes (bs! " -1.5e3 ,"))).1 = .ok () := rfl
example (it : It) (pool : Stack) : ((SkipArray pool).runM (it.resetBytes (bs! "{}"))).1 = .error (.unexpectedByte 0x7B 0x5B 0) := rfl

end Jzon.Props
