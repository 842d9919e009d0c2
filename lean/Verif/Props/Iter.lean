import Verif.Proof.Top

/-!
# C03, C06, C07: chunks, raw capture, offsets
-/

set_option linter.unusedSimpArgs false

namespace Jzon.Props

open Spec Jzon

/-! ## C03 -/

/-- **C03**, general form: a decoding program gives the same result on two iterators with the same unread input, at
the same position in the stream, however that input is distributed over buffer and read results. -/
theorem C03_same_unread {α : Type} (p : Prog α) {it1 it2 : It} {l : List Byte} {e : Err} (h1 : Unread it1 l e)
    (h2 : Unread it2 l e) (hpos : it1.offset + it1.head = it2.offset + it2.head) :
    (p.runM it1).1 = (p.runM it2).1 ∧
    ∀ a, (p.runM it1).1 = .ok a → ∃ r, Unread (p.runM it1).2 r e ∧ Unread (p.runM it2).2 r e ∧
      (p.runM it1).2.offset + (p.runM it1).2.head = (p.runM it2).2.offset + (p.runM it2).2.head := by
  have henv : it1.env = it2.env := by
    obtain ⟨_, a, b⟩ := unread_iff.mp h1
    obtain ⟨_, c, d⟩ := unread_iff.mp h2
    simp only [It.env, It.total, a, b, c, d, hpos]
  cases hm1 : p.runM it1 with
  | mk x1 it1' =>
    cases hm2 : p.runM it2 with
    | mk x2 it2' =>
      cases x1 with
      | error e1 =>
        have r1 := (runM_error h1 hm1).1
        cases x2 with
        | error e2 =>
          have r2 := (runM_error h2 hm2).1
          rw [henv, r2] at r1
          cases r1
          exact ⟨rfl, by simp⟩
        | ok b =>
          obtain ⟨r, _, r2, _⟩ := runM_ok h2 hm2
          rw [henv, show p.runF it2.env l = _ from r2] at r1
          cases r1
      | ok a =>
        obtain ⟨r, u1, r1, s1⟩ := runM_ok h1 hm1
        cases x2 with
        | error e2 =>
          have r2 := (runM_error h2 hm2).1
          rw [henv, Runs, r2] at r1
          cases r1
        | ok b =>
          obtain ⟨r', u2, r2, s2⟩ := runM_ok h2 hm2
          rw [henv, Runs, show p.runF it2.env l = _ from r2] at r1
          cases r1
          refine ⟨rfl, fun _ _ => ⟨r, u1, u2, ?_⟩⟩
          have t1 := s1.total
          have t2 := s2.total
          simp only [It.total, (unread_iff.mp u1).2.1, (unread_iff.mp u2).2.1, (unread_iff.mp h1).2.1,
            (unread_iff.mp h2).2.1] at t1 t2
          simp only
          omega

/-- **C03.** Decoding from a reader gives the same result, the same unread rest and the same position as decoding the
same bytes from a slice, for every decoding program and every way the reader cuts the bytes. -/
theorem C03_reader_slice {α : Type} (p : Prog α) (it1 it2 : It) {script : List RdRes} {data : List Byte}
    (h : Delivers script data .eof) :
    (p.runM (it1.resetReader script)).1 = (p.runM (it2.resetBytes data)).1 ∧
    ∀ a, (p.runM (it1.resetReader script)).1 = .ok a →
      ∃ r, Unread (p.runM (it1.resetReader script)).2 r .eof ∧ Unread (p.runM (it2.resetBytes data)).2 r .eof ∧
      (p.runM (it1.resetReader script)).2.offset + (p.runM (it1.resetReader script)).2.head =
        (p.runM (it2.resetBytes data)).2.offset + (p.runM (it2.resetBytes data)).2.head :=
  C03_same_unread p (unread_reader it1 h) (unread_bytes it2 data) (by simp [It.resetReader, It.resetBytes])

/-- **C03**, for streams that break with an error: only the delivered bytes and the error matter. -/
theorem C03_readers {α : Type} (p : Prog α) (it1 it2 : It) {script1 script2 : List RdRes} {data : List Byte} {e : Err}
    (h1 : Delivers script1 data e) (h2 : Delivers script2 data e) :
    (p.runM (it1.resetReader script1)).1 = (p.runM (it2.resetReader script2)).1 :=
  (C03_same_unread p (unread_reader it1 h1) (unread_reader it2 h2) (by simp [It.resetReader])).1

/-- **C03** for `Reset(nil)`: whatever was read before and is left of it, the input is now the empty one. -/
theorem C03_nil {α : Type} (p : Prog α) (it1 it2 : It) : p.runM it1.reset = p.runM (it2.resetBytes []) := rfl

/-- Concrete case: an iterator with bytes left over. -/
example : (ReadString.runM (It.reset ⟨bs! "\"old\"", 0, 9, true, some [⟨bs! "\"more\"", none⟩]⟩)).1 = .error .eof := by rfl

/-- Concrete case: the input `"\u0041"` cut inside the escape, with empty reads. -/
example : Delivers [⟨bs! "\"\\u0", none⟩, ⟨[], none⟩, ⟨bs! "04", none⟩, ⟨bs! "1\"", some .eof⟩] (bs! "\"\\u0041\"") .eof :=
  .chunk (bs! "\"\\u0") _ _ _ (.chunk [] _ _ _ (.chunk (bs! "04") _ _ _ (.last (bs! "1\"") [] (by simp))))
example (it : It) : (ReadString.runM (it.resetReader [⟨bs! "\"\\u0", none⟩, ⟨[], none⟩, ⟨bs! "04", none⟩,
    ⟨bs! "1\"", some .eof⟩])).1 = .ok (bs! "A") := by rfl

/-! ## C06 -/

theorem runs_skipRaw (pool : Stack) {env : Env} {l t r : List Byte} :
    Runs (SkipRaw pool) env l t r ↔ ∃ w v, l = w ++ (t ++ r) ∧ Ws w ∧ Value t v ∧ Ends env t v r := by
  unfold SkipRaw
  simp only [runs_bind, runs_token, runs_captured, runs_pure]
  constructor
  · rintro ⟨c, l1, ⟨l', h1, h2⟩, ⟨u, t'⟩, l2, ⟨⟨c', l3, h3, h4⟩, h5⟩, rfl, rfl⟩
    simp at h2
    subst h2
    obtain ⟨rfl, rfl⟩ : c = c' ∧ l' = l3 := by simpa using runs_nextByteTake.mp h3
    obtain ⟨w, hw, _, rfl⟩ := dropWs_eq_cons.mp h1
    obtain ⟨t', v, a1, a2, a4⟩ := sval_iff.mp ((skipFunction_iff pool).mp h4)
    have : t = t' := by
      simp only at h5
      rw [h5, a1]
      simp
    subst this
    exact ⟨w, v, by rw [a1], hw, a2, a4⟩
  · rintro ⟨w, v, rfl, hw, a2, a4⟩
    obtain ⟨c, t', rfl, hc⟩ := value_cons a2
    refine ⟨c, c :: (t' ++ r), ⟨t' ++ r, dropWs_ws hw hc _, .inr ⟨trivial, rfl⟩⟩, ((), c :: t'), r,
      ⟨⟨c, t' ++ r, runs_nextByteTake.mpr rfl, (skipFunction_iff pool).mpr (sval_iff.mpr ⟨_, v, rfl, a2, a4⟩)⟩, ?_⟩, rfl, rfl⟩
    have : (c :: (t' ++ r)).length - r.length = (c :: t').length := by simp; omega
    rw [this, show c :: (t' ++ r) = (c :: t') ++ r from rfl, List.take_left]

/-- **C06.** `SkipRaw` returns the text of the next value: it succeeds with `t`, leaving `r`, exactly if the unread input
is white space, the value text `t`, and `r`. -/
theorem C06_skipRaw_iff {it : It} {l t r : List Byte} {e : Err} (h : Unread it l e) (pool : Stack) :
    (∃ it', (SkipRaw pool).runM it = (.ok t, it') ∧ Unread it' r e) ↔ (∃ v, Value t v) ∧ Split e l t r := by
  rw [runM_iff h, runs_skipRaw]
  constructor
  · rintro ⟨w, v, h1, h2, h3, h4⟩
    exact ⟨⟨v, h3⟩, w, h2, h1, env_endErr h ▸ (endsAt_iff h3).mp h4⟩
  · rintro ⟨⟨v, h3⟩, w, h2, h1, h4⟩
    exact ⟨w, v, h1, h2, h3, (endsAt_iff h3).mpr (env_endErr h ▸ h4)⟩

/-- **C06.** `AppendRaw` appends the text of the next value to its argument. -/
theorem C06_appendRaw_iff {it : It} {l inp x r : List Byte} {e : Err} (h : Unread it l e) (pool : Stack) :
    (∃ it', (AppendRaw pool inp).runM it = (.ok x, it') ∧ Unread it' r e) ↔
      ∃ t v, x = inp ++ t ∧ Value t v ∧ Split e l t r := by
  rw [runM_iff h]
  unfold AppendRaw
  simp only [runs_bind, runs_pure]
  constructor
  · rintro ⟨t, l1, h1, rfl, rfl⟩
    obtain ⟨⟨v, h2⟩, h3⟩ := (C06_skipRaw_iff h pool).mp ((runM_iff h).mpr h1)
    exact ⟨t, v, rfl, h2, h3⟩
  · rintro ⟨t, v, rfl, h2, h3⟩
    exact ⟨t, r, (runM_iff h).mp ((C06_skipRaw_iff h pool).mpr ⟨⟨v, h2⟩, h3⟩), rfl, rfl⟩

/-- **C06.** `ReadRaw` returns the text of the next value. -/
theorem C06_readRaw_iff {it : It} {l x r : List Byte} {e : Err} (h : Unread it l e) (pool : Stack) :
    (∃ it', (ReadRaw pool).runM it = (.ok x, it') ∧ Unread it' r e) ↔ (∃ v, Value x v) ∧ Split e l x r := by
  unfold ReadRaw
  rw [C06_appendRaw_iff h]
  constructor
  · rintro ⟨t, v, h1, h2, h3⟩
    simp at h1; subst h1
    exact ⟨⟨v, h2⟩, h3⟩
  · rintro ⟨⟨v, h2⟩, h3⟩
    exact ⟨x, v, by simp, h2, h3⟩

/-- **C06.** `ReadNumber` returns the text of the next number. -/
theorem C06_readNumber_iff {it : It} {l t r : List Byte} {e : Err} (h : Unread it l e) :
    (∃ it', ReadNumber.runM it = (.ok t, it') ∧ Unread it' r e) ↔ Number t ∧ Split e l t r := by
  rw [runM_iff h]
  unfold ReadNumber
  simp only [runs_bind, runs_token]
  have he := env_endErr h
  constructor
  · rintro ⟨c, l1, ⟨l', h1, h2⟩, h3⟩
    obtain ⟨w, hw, _, rfl⟩ := dropWs_eq_cons.mp h1
    have hc : isNumberStart c = true := by
      rcases h2 with ⟨h2, _⟩ | ⟨h2, _⟩ <;> split at h2 <;> simp_all
    simp [hc] at h2
    subst h2
    obtain ⟨a1, a2, a3, a4⟩ := (runs_readNumberAsString hc).mp h3
    exact ⟨a2, w, hw, by rw [a1], fun _ => ⟨a3, he ▸ a4⟩⟩
  · rintro ⟨hn, w, hw, rfl, h4⟩
    obtain ⟨c, u, rfl, hc⟩ := numberStart_head hn
    refine ⟨c, u ++ r, ⟨u ++ r, dropWs_ws hw (numberStart_notWs hc).1 _, .inl ⟨by simp [hc], rfl⟩⟩, ?_⟩
    exact (runs_readNumberAsString hc).mpr ⟨rfl, hn, (h4 hn).1, fun hr => he ▸ (h4 hn).2 hr⟩

/-- Concrete case: a value that spans three chunks. -/
example (it : It) (pool : Stack) : ((SkipRaw pool).runM (it.resetReader [⟨bs! " {\"a", none⟩, ⟨bs! "\":tr", none⟩, ⟨bs! "ue} 1", some .eof⟩])).1 =
    .ok (bs! "{\"a\":true}") := by
  have hu := unread_reader it (.chunk (bs! " {\"a") _ _ _ (.chunk (bs! "\":tr") _ _ _ (.last (bs! "ue} 1") [] (by simp))))
  have w0 : Ws [] := by intro c hc; cases hc
  have str : Str (bs! "\"a\"") (bs! "a") :=
    ⟨bs! "a", ⟨[.raw 0x61], by intro c hc; simp at hc; subst hc; simp [Chr.Ok], rfl, rfl⟩, rfl⟩
  obtain ⟨it', h, _⟩ := (C06_skipRaw_iff (t := bs! "{\"a\":true}") (r := bs! " 1") hu pool).mpr ⟨⟨_, .obj (bs! "\"a\":true") _
    (.single [] (bs! "\"a\"") [] [] (bs! "true") [] (bs! "a") _ w0 str w0 w0 .true w0)⟩, bs! " ",
    by intro c hc; simp at hc; simp [hc], rfl, by
      intro h
      obtain ⟨c, u, h1, h2⟩ := number_head h
      cases h1
      exact absurd h2 (by decide)⟩
  rw [h]

/-! ## C07 -/

/-- **C07.** After any decoding program that began at the start of a stream delivering `data`, the position
`offset + head` is the number of bytes consumed, and the unread input is exactly the rest of `data`. -/
theorem C07_offset {α : Type} (p : Prog α) (it it' : It) {script : List RdRes} {data : List Byte} {e : Err} {a : α}
    (h : Delivers script data e) (hr : p.runM (it.resetReader script) = (.ok a, it')) :
    ∃ consumed rest, data = consumed ++ rest ∧ Unread it' rest e ∧ it'.offset + it'.head = consumed.length := by
  obtain ⟨r, h1, h2, h3⟩ := runM_ok (unread_reader it h) hr
  obtain ⟨c, rfl⟩ := h2.suffix
  refine ⟨c, r, rfl, h1, ?_⟩
  have := h3.total
  simp only [It.total, (unread_iff.mp h1).2.1, (unread_iff.mp (unread_reader it h)).2.1] at this
  simp [It.resetReader] at this
  omega

/-- **C07**, in the middle of a stream: the position advances by the number of bytes consumed. -/
theorem C07_offset_step {α : Type} (p : Prog α) {it it' : It} {l : List Byte} {e : Err} {a : α} (h : Unread it l e)
    (hr : p.runM it = (.ok a, it')) :
    ∃ consumed rest, l = consumed ++ rest ∧ Unread it' rest e ∧
      it'.offset + it'.head = it.offset + it.head + consumed.length := by
  obtain ⟨r, h1, h2, h3⟩ := runM_ok h hr
  obtain ⟨c, rfl⟩ := h2.suffix
  refine ⟨c, r, rfl, h1, ?_⟩
  have := h3.total
  simp only [It.total, (unread_iff.mp h1).2.1, (unread_iff.mp h).2.1] at this
  simp at this
  omega

/-- Concrete case: after the first of two values in a stream cut inside that value. -/
example (it : It) : ((do let a ← ReadBool; let n ← inputOffset; pure (a, n) : Prog (Bool × Nat)).runM
    (it.resetReader [⟨bs! " tr", none⟩, ⟨bs! "ue null", some .eof⟩])).1 = .ok (true, 5) := by rfl

end Jzon.Props
