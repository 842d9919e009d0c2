import Verif.Model.Prog

/-!
# Chunked and flat runs agree

For every program, every iterator state and every reader script that keeps returning `0, io.EOF` after its
first `io.EOF`, running on the iterator gives the result of running on the remaining bytes.
-/

namespace Jzon

/-- After a read that reports `io.EOF` all later reads return `0, io.EOF`. -/
def Sticky : List RdRes → Prop
  | [] => True
  | r :: rest => (r.err = some .eof → ∀ r' ∈ rest, r' = ⟨[], some .eof⟩) ∧ Sticky rest

/-- The error a reader ends with. -/
def endScript : List RdRes → Err
  | [] => .eof
  | r :: rest =>
    match r.err with
    | none => endScript rest
    | some e => if e = .eof then .eof else e

def It.endErr (it : It) : Err := endScript (it.reader.getD [])

def It.total (it : It) : Nat := it.offset + it.head + it.rem.length

def It.env (it : It) : Env := { endErr := it.endErr, total := it.total }

/-- Well-formed iterator: `head ≤ tail`, and a sticky reader. -/
structure It.Inv (it : It) : Prop where
  head_le : it.head ≤ it.buf.length
  sticky : Sticky (it.reader.getD [])

/-- What a successful operation preserves. -/
structure Step (it it' : It) : Prop where
  inv : it'.Inv
  cap : it'.capture = it.capture
  total : it'.total = it.total
  endErr : it'.endErr = it.endErr
  isNone : it.reader = none → it'.reader = none
  frame : it.capture = true → it'.offset = it.offset ∧ it.head ≤ it'.head ∧
    ∃ more, it'.buf = it.buf ++ more ∧ flatReader it.reader = more ++ flatReader it'.reader

theorem Step.refl {it : It} (h : it.Inv) : Step it it :=
  ⟨h, rfl, rfl, rfl, id, fun _ => ⟨rfl, Nat.le_refl _, [], by simp⟩⟩

theorem Step.trans {a b c : It} (h1 : Step a b) (h2 : Step b c) : Step a c := by
  refine ⟨h2.inv, h2.cap.trans h1.cap, h2.total.trans h1.total, h2.endErr.trans h1.endErr,
    fun h => h2.isNone (h1.isNone h), ?_⟩
  intro hc
  obtain ⟨o1, l1, m1, e1, f1⟩ := h1.frame hc
  obtain ⟨o2, l2, m2, e2, f2⟩ := h2.frame (h1.cap.trans hc)
  exact ⟨o2.trans o1, Nat.le_trans l1 l2, m1 ++ m2, by simp [e1, e2], by simp [f1, f2]⟩

theorem Step.env {a b : It} (h : Step a b) : b.env = a.env := by
  simp [It.env, h.total, h.endErr]

theorem flatScript_eofs {l : List RdRes} (h : ∀ r' ∈ l, r' = ⟨[], some .eof⟩) : flatScript l = [] := by
  induction l with
  | nil => rfl
  | cons r l ih =>
    have := h r (by simp); subst this
    simp [flatScript]
    exact ih fun r' hr => h r' (by simp [hr])

theorem endScript_eofs {l : List RdRes} (h : ∀ r' ∈ l, r' = ⟨[], some .eof⟩) : endScript l = .eof := by
  cases l with
  | nil => rfl
  | cons r l => have := h r (by simp); subst this; simp [endScript]

theorem sticky_eofs {l : List RdRes} (h : ∀ r' ∈ l, r' = ⟨[], some .eof⟩) : Sticky l := by
  induction l with
  | nil => trivial
  | cons r l ih =>
    exact ⟨fun _ r' hr => h r' (by simp [hr]), ih fun r' hr => h r' (by simp [hr])⟩

/-- Outcome of a refill, for an iterator with nothing unread in its buffer. -/
structure Refill (it : It) (e : Option Err) (it' : It) : Prop where
  cap : it'.capture = it.capture
  head_le : it'.head ≤ it'.buf.length
  ok : e = none → Step it it' ∧ it'.rem = it.rem ∧ it'.head < it'.buf.length ∧
    (it'.reader.getD []).length < (it.reader.getD []).length
  eof : e = some .eof → Step it it' ∧ it'.rem = it.rem ∧ it.rem = [] ∧ it.endErr = .eof
  err : ∀ x, e = some x → x = it.endErr ∧ it.rem = []

theorem fill_step {it : It} {r : RdRes} {rest : List RdRes} (h : it.Inv) (hh : it.head = it.buf.length)
    (hr : it.reader = some (r :: rest)) (hn : r.err = none ∨ r.err = some .eof) :
    Step it (it.fill r.data rest) ∧ (it.fill r.data rest).rem = it.rem ∧
      (r.data.length > 0 → (it.fill r.data rest).head < (it.fill r.data rest).buf.length) ∧
      ((it.fill r.data rest).head = (it.fill r.data rest).buf.length ∨ r.data.length > 0) ∧
      (it.fill r.data rest).reader = some rest := by
  have hs := h.sticky
  rw [hr] at hs
  simp [Sticky] at hs
  have hflat : flatScript (r :: rest) = r.data ++ flatScript rest := by
    rcases hn with hn | hn <;> simp [flatScript, hn]
  have hend : endScript (r :: rest) = endScript rest := by
    rcases hn with hn | hn
    · simp [endScript, hn]
    · simp [endScript, hn, endScript_eofs (hs.1 hn)]
  unfold It.fill
  cases hc : it.capture with
  | true =>
    simp only [if_true]
    refine ⟨⟨⟨by simp; omega, by simpa using hs.2⟩, by simp [hc], ?_, ?_, by simp [hr], ?_⟩, ?_, ?_, ?_, ?_⟩
    · simp [It.total, It.rem, hh, hr, flatReader, hflat]
    · simp [It.endErr, hr, hend]
    · intro _
      exact ⟨rfl, Nat.le_refl _, r.data, rfl, by simp [flatReader, hr, hflat]⟩
    · simp [It.rem, hh, hr, flatReader, hflat]
    · intro hd; simp; omega
    · rcases Nat.eq_zero_or_pos r.data.length with h0 | h0
      · left; simp [h0, hh]
      · right; exact h0
    · simp
  | false =>
    simp only [Bool.false_eq_true, if_false]
    refine ⟨⟨⟨by simp, by simpa using hs.2⟩, by simp [hc], ?_, ?_, by simp [hr], by simp [hc]⟩, ?_, ?_, ?_, ?_⟩
    · simp [It.total, It.rem, hh, hr, flatReader, hflat]
    · simp [It.endErr, hr, hend]
    · simp [It.rem, hh, hr, flatReader, hflat]
    · intro hd; simpa using hd
    · rcases Nat.eq_zero_or_pos r.data.length with h0 | h0
      · left; simp [h0]
      · right; exact h0
    · simp

theorem fill_cap (it : It) (d : List Byte) (rest : List RdRes) : (it.fill d rest).capture = it.capture := by
  unfold It.fill; split <;> rfl

theorem fill_head_le {it : It} (h : it.head ≤ it.buf.length) (d : List Byte) (rest : List RdRes) :
    (it.fill d rest).head ≤ (it.fill d rest).buf.length := by
  unfold It.fill; split <;> simp; omega

theorem readLoop_refill (script : List RdRes) (it : It) (h : it.Inv) (hh : it.head = it.buf.length)
    (hr : it.reader = some script) :
    Refill it (It.readLoop script it).1 (It.readLoop script it).2 := by
  induction script generalizing it with
  | nil =>
    have hrem : it.rem = [] := by simp [It.rem, hh, hr, flatReader, flatScript]
    have hend : it.endErr = .eof := by simp [It.endErr, hr, endScript]
    refine ⟨fill_cap _ _ _, fill_head_le h.head_le _ _, by simp [It.readLoop], ?_, ?_⟩
    · intro _
      refine ⟨?_, ?_, hrem, hend⟩
      · unfold It.readLoop It.fill
        cases hc : it.capture with
        | true =>
          simp only [if_true]
          refine ⟨⟨by simp; omega, trivial⟩, by simp [hc], ?_, ?_, by simp [hr], ?_⟩
          · simp [It.total, It.rem, hr]
          · simp [It.endErr, hr]
          · intro _; exact ⟨rfl, Nat.le_refl _, [], by simp, by simp [flatReader, hr]⟩
        | false =>
          simp only [Bool.false_eq_true, if_false]
          refine ⟨⟨by simp, trivial⟩, by simp [hc], ?_, ?_, by simp [hr], by simp [hc]⟩
          · simp [It.total, It.rem, hr, hh, flatReader, flatScript]
          · simp [It.endErr, hr]
      · unfold It.readLoop It.fill
        cases hc : it.capture <;> simp [It.rem, hh, hr, flatReader]
    · simp [It.readLoop, hrem, hend]
  | cons r rest ih =>
    unfold It.readLoop
    cases he : r.err with
    | some e =>
      simp only []
      split
      · rename_i hcond
        obtain ⟨rfl, hlen⟩ := hcond
        obtain ⟨h1, h2, h3, h4, h5⟩ := fill_step h hh hr (Or.inr he)
        exact ⟨fill_cap _ _ _, fill_head_le h.head_le _ _,
          fun _ => ⟨h1, h2, h3 hlen, by simp [h5, hr]⟩, by simp, by simp⟩
      · rename_i hcond
        refine ⟨fill_cap _ _ _, fill_head_le h.head_le _ _, by simp, ?_, ?_⟩
        · intro hx
          simp at hx; subst hx
          obtain ⟨h1, h2, h3, h4, h5⟩ := fill_step h hh hr (Or.inr he)
          have hd : r.data = [] := by simpa using hcond
          have hs := h.sticky
          rw [hr] at hs
          simp [Sticky, he] at hs
          have hrem : it.rem = [] := by
            simp [It.rem, hh, hr, flatReader, flatScript, he, hd, flatScript_eofs hs.1]
          exact ⟨h1, h2, hrem, by simp [It.endErr, hr, endScript, he]⟩
        · intro x hx
          simp at hx; subst hx
          have hs := h.sticky
          rw [hr] at hs
          simp [Sticky, he] at hs
          constructor
          · simp [It.endErr, hr, endScript, he]
          · by_cases hx : e = .eof
            · subst hx
              have hd : r.data = [] := by simpa using hcond
              simp at hs
              simp [It.rem, hh, hr, flatReader, flatScript, he, hd, flatScript_eofs hs.1]
            · simp [It.rem, hh, hr, flatReader, flatScript, he, hx]
    | none =>
      simp only []
      obtain ⟨h1, h2, h3, h4, h5⟩ := fill_step h hh hr (Or.inl he)
      split
      · rename_i hlen
        exact ⟨fill_cap _ _ _, fill_head_le h.head_le _ _,
          fun _ => ⟨h1, h2, h3 hlen, by simp [h5, hr]⟩, by simp, by simp⟩
      · rename_i hlen
        have hd : (it.fill r.data rest).head = (it.fill r.data rest).buf.length := by
          rcases h4 with h4 | h4
          · exact h4
          · exact absurd h4 hlen
        have := ih (it.fill r.data rest) h1.inv hd h5
        refine ⟨this.cap.trans h1.cap, this.head_le, ?_, ?_, ?_⟩
        · intro hx
          obtain ⟨a, b, c, d⟩ := this.ok hx
          exact ⟨h1.trans a, b.trans h2, c, by rw [h5] at d; rw [hr]; simp at d ⊢; omega⟩
        · intro hx
          obtain ⟨a, b, c, d⟩ := this.eof hx
          exact ⟨h1.trans a, b.trans h2, h2 ▸ c, h1.endErr ▸ d⟩
        · intro x hx
          obtain ⟨a, b⟩ := this.err x hx
          exact ⟨h1.endErr ▸ a, h2 ▸ b⟩

theorem readMore_refill (it : It) (h : it.Inv) (hh : it.head = it.buf.length) :
    Refill it it.readMore.1 it.readMore.2 := by
  unfold It.readMore
  cases hr : it.reader with
  | none =>
    have hrem : it.rem = [] := by simp [It.rem, hh, hr, flatReader, flatScript]
    refine ⟨rfl, h.head_le, by simp, ?_, ?_⟩
    · intro _; exact ⟨Step.refl h, rfl, hrem, by simp [It.endErr, hr, endScript]⟩
    · intro x hx
      simp at hx; subst hx
      exact ⟨by simp [It.endErr, hr, endScript], hrem⟩
  | some script => exact readLoop_refill script it h hh hr

/-- Relation between the outcome of a chunked run started in `it` and of a flat run. -/
def Agree {α : Type} (it : It) (m : Except Err α × It) (f : Except Err (α × List Byte)) : Prop :=
  match m, f with
  | (.ok a, it'), .ok (a', l') => a = a' ∧ it'.rem = l' ∧ Step it it'
  | (.error e, it'), .error e' => e = e' ∧ it'.capture = it.capture ∧ it'.head ≤ it'.buf.length
  | _, _ => False

theorem Agree.of_step {α : Type} {it it1 : It} {m : Except Err α × It} {f : Except Err (α × List Byte)}
    (st : Step it it1) (h : Agree it1 m f) : Agree it m f := by
  obtain ⟨r, it'⟩ := m
  cases r <;> rcases f with e | ⟨a, l⟩ <;> simp only [Agree] at h ⊢
  · exact ⟨h.1, h.2.1.trans st.cap, h.2.2⟩
  · exact ⟨h.1, h.2.1, st.trans h.2.2⟩

theorem scanBuf_spec {σ β : Type} (body : σ → Byte → Act σ β) (onEOF : σ → Except Err β) (endErr : Err)
    (s : σ) (i : Nat) (l rest : List Byte) :
    match scanBuf body s i l with
    | .exhausted s' j => j = i + l.length ∧
        scanF body onEOF endErr s (l ++ rest) = scanF body onEOF endErr s' rest
    | .stop b j => i ≤ j ∧ j ≤ i + l.length ∧
        scanF body onEOF endErr s (l ++ rest) = .ok (b, l.drop (j - i) ++ rest)
    | .err e => scanF body onEOF endErr s (l ++ rest) = .error e := by
  induction l generalizing s i with
  | nil => simp [scanBuf]
  | cons c l ih =>
    unfold scanBuf
    simp only [List.cons_append, scanF]
    cases hb : body s c with
    | cont s' =>
      have := ih s' (i + 1)
      simp only []
      split <;> rename_i heq <;> rw [heq] at this <;> simp only [] at this
      · exact ⟨by simp; omega, this.2⟩
      · rename_i b j
        obtain ⟨h1, h2, h3⟩ := this
        refine ⟨by omega, by simp; omega, ?_⟩
        have : j - i = (j - (i+1)) + 1 := by omega
        rw [this, List.drop_succ_cons]; exact h3
      · exact this
    | stop b => simp
    | stopNext b =>
      have : i + 1 - i = 1 := by omega
      simp [this]
    | err e => simp

theorem scanLoop_agree {σ β : Type} (body : σ → Byte → Act σ β) (onEOF : σ → Except Err β)
    (fuel : Nat) (s : σ) (it : It) (h : it.Inv) (hf : (it.reader.getD []).length < fuel) :
    Agree it (scanLoop body onEOF fuel s it) (scanF body onEOF it.endErr s it.rem) := by
  induction fuel generalizing s it with
  | zero => omega
  | succ fuel ih =>
    unfold scanLoop
    have spec := scanBuf_spec body onEOF it.endErr s it.head (it.buf.drop it.head) (flatReader it.reader)
    split <;> rename_i heq <;> rw [heq] at spec <;> simp only [] at spec
    · rename_i b j
      obtain ⟨h1, h2, h3⟩ := spec
      have hl := h.head_le
      have hj : j ≤ it.buf.length := by simp at h2; omega
      unfold It.rem
      rw [h3]
      have hrem : ({ it with head := j } : It).rem = List.drop (j - it.head) (List.drop it.head it.buf) ++ flatReader it.reader := by
        simp [It.rem, List.drop_drop]; congr 2; omega
      refine ⟨rfl, hrem, ⟨hj, h.sticky⟩, rfl, ?_, rfl, id, ?_⟩
      · simp [It.total, It.rem]; omega
      · intro _; exact ⟨rfl, h1, [], by simp, by simp⟩
    · unfold It.rem
      rw [spec]
      exact ⟨rfl, rfl, h.head_le⟩
    · rename_i s' i
      obtain ⟨hi, hs⟩ := spec
      have hi' : i = it.buf.length := by have := h.head_le; simp at hi; omega
      subst hi'
      have h1 : ({ it with head := it.buf.length } : It).Inv := ⟨Nat.le_refl _, h.sticky⟩
      have ref := readMore_refill { it with head := it.buf.length } h1 rfl
      have hrem1 : ({ it with head := it.buf.length } : It).rem = flatReader it.reader := by simp [It.rem]
      -- moving the head over scanned bytes is a step, except for the consumed bytes
      have st1 : Step it { it with head := it.buf.length } := by
        refine ⟨h1, rfl, ?_, rfl, id, ?_⟩
        · have := h.head_le; simp [It.total, It.rem]; omega
        · intro _; exact ⟨rfl, h.head_le, [], by simp, by simp⟩
      unfold It.rem
      rw [hs]
      rw [← hrem1]
      generalize hm : ({ it with head := it.buf.length } : It).readMore = m at ref
      obtain ⟨e, it'⟩ := m
      cases e with
      | none =>
        simp only []
        obtain ⟨st, hrem, hlt, hlen⟩ := ref.ok rfl
        have := ih s' it' st.inv (by simp at hlen; omega)
        rw [hrem, st.endErr] at this
        exact Agree.of_step (st1.trans st) this
      | some x =>
        simp only []
        obtain ⟨hx, hrem⟩ := ref.err x rfl
        have hx' : x = it.endErr := hx
        rw [hrem]
        simp only [scanF]
        split
        · rename_i hxe
          obtain ⟨st, hr1, _, _⟩ := ref.eof (by rw [hxe])
          rw [if_pos (hx'.symm.trans hxe)]
          cases onEOF s' with
          | ok b => exact ⟨rfl, hr1.trans hrem, st1.trans st⟩
          | error e => exact ⟨rfl, ref.cap, ref.head_le⟩
        · rename_i hxe
          rw [if_neg (fun h => hxe (hx'.trans h))]
          exact ⟨hx', ref.cap, ref.head_le⟩

theorem scan_agree {σ β : Type} (body : σ → Byte → Act σ β) (onEOF : σ → Except Err β) (s : σ) (it : It) (h : it.Inv) :
    Agree it (it.scan body onEOF s) (scanF body onEOF it.endErr s it.rem) :=
  scanLoop_agree body onEOF _ s it h (Nat.lt_succ_self _)

theorem nextByte_agree (it : It) (h : it.Inv) :
    Agree it it.nextByte (match it.rem with | [] => .error it.endErr | c :: l => .ok (c, c :: l)) := by
  unfold It.nextByte
  by_cases hh : it.head = it.buf.length
  · have ref := readMore_refill it h hh
    rw [if_pos hh]
    generalize it.readMore = m at ref
    obtain ⟨e, it'⟩ := m
    cases e with
    | some x =>
      obtain ⟨hx, hrem⟩ := ref.err x rfl
      rw [hrem]
      exact ⟨hx, ref.cap, ref.head_le⟩
    | none =>
      obtain ⟨st, hrem, hlt, _⟩ := ref.ok rfl
      simp only [List.getElem?_eq_getElem hlt]
      have : it.rem = it'.buf[it'.head] :: (it'.buf.drop (it'.head+1) ++ flatReader it'.reader) := by
        rw [← hrem, It.rem, List.drop_eq_getElem_cons hlt]; rfl
      rw [this]
      exact ⟨rfl, by rw [hrem, this], st⟩
  · rw [if_neg hh]
    have hlt : it.head < it.buf.length := Nat.lt_of_le_of_ne h.head_le hh
    simp only [List.getElem?_eq_getElem hlt]
    have : it.rem = it.buf[it.head] :: (it.buf.drop (it.head+1) ++ flatReader it.reader) := by
      rw [It.rem, List.drop_eq_getElem_cons hlt]; rfl
    rw [this]
    exact ⟨rfl, this, Step.refl h⟩

theorem isWs_le {c : Byte} (h : isWs c = true) : c ≤ 32 := by
  revert h; revert c; apply forall_byte; decide +kernel

theorem scanF_token (endErr : Err) (l : List Byte) :
    scanF tokenBody (fun _ => (.error .eof : Except Err Byte)) endErr () l =
      match dropWs l with
      | [] => .error endErr
      | c :: l' => .ok (c, c :: l') := by
  induction l with
  | nil =>
    simp [scanF, dropWs]
    intro h; exact h.symm
  | cons c l ih =>
    rw [scanF]
    unfold tokenBody at ih ⊢
    by_cases hw : isWs c = true
    · have := isWs_le hw
      simp [hw, this, ih, dropWs]
    · have hw' : isWs c = false := by simpa using hw
      by_cases hc : c ≤ 32
      · simp [hc, hw', dropWs]
      · simp [hc, hw', dropWs]

theorem Dec.agree (d : Dec) (c : Byte) (l : List Byte) {it it1 : It} (st : Step it it1) (hrem : it1.rem = c :: l)
    (hlt : it1.head < it1.buf.length) : Agree it (d.runM c it1) (d.runF c l) := by
  cases d with
  | take =>
    have hr : ({ it1 with head := it1.head + 1 } : It).rem = l := by
      rw [It.rem, List.drop_eq_getElem_cons hlt, List.cons_append, List.cons.injEq] at hrem
      exact hrem.2
    refine ⟨rfl, hr, st.trans ⟨⟨hlt, st.inv.sticky⟩, rfl, ?_, rfl, id, ?_⟩⟩
    · unfold It.total; rw [hr, hrem]; simp; omega
    · intro _; exact ⟨rfl, Nat.le_succ _, [], by simp, by simp⟩
  | leave => exact ⟨rfl, hrem, st⟩
  | fail e => exact ⟨rfl, st.cap, st.inv.head_le⟩

theorem readLoop_head_le (script : List RdRes) (a b : It) (e : Option Err) (ha : a.head ≤ a.buf.length)
    (hb : It.readLoop script a = (e, b)) : b.head ≤ b.buf.length := by
  induction script generalizing a with
  | nil =>
    simp [It.readLoop] at hb
    rw [← hb.2]; exact fill_head_le ha _ _
  | cons r rest ihs =>
    unfold It.readLoop at hb
    simp only [] at hb
    split at hb
    · split at hb <;> (cases hb; exact fill_head_le ha _ _)
    · split at hb
      · cases hb; exact fill_head_le ha _ _
      · exact ihs _ (fill_head_le ha _ _) hb

/-- After a loop that stopped in front of a byte, that byte is in the buffer. -/
theorem scanLoop_token_lt (fuel : Nat) (it : It) (h : it.head ≤ it.buf.length) (c : Byte) (it' : It)
    (hs : scanLoop tokenBody (fun _ => (.error .eof : Except Err Byte)) fuel () it = (.ok c, it')) :
    it'.head < it'.buf.length := by
  have key : ∀ (l : List Byte) (i : Nat) (b : Byte) (j : Nat),
      scanBuf tokenBody () i l = .stop b j → j < i + l.length := by
    intro l
    induction l with
    | nil => intro i b j hj; simp [scanBuf] at hj
    | cons c l ih =>
      intro i b j hj
      unfold scanBuf at hj
      split at hj
      · have := ih _ _ _ hj; simp; omega
      · cases hj; simp
      · rename_i b' heq
        unfold tokenBody at heq
        split at heq
        · split at heq <;> cases heq
        · cases heq
      · cases hj
  induction fuel generalizing it with
  | zero => simp [scanLoop] at hs
  | succ fuel ih =>
    unfold scanLoop at hs
    split at hs
    · rename_i b j heq
      cases hs
      have := key _ _ _ _ heq
      simp at this; simp; omega
    · cases hs
    · rename_i s' i heq
      split at hs
      · rename_i it2 hm
        refine ih it2 ?_ hs
        -- readMore keeps head ≤ tail
        have hi : i ≤ it.buf.length := by
          have spec := scanBuf_spec tokenBody (fun _ => (.error .eof : Except Err Byte)) .eof () it.head (it.buf.drop it.head) []
          rw [heq] at spec
          simp at spec
          omega
        unfold It.readMore at hm
        split at hm
        · cases hm
        · exact readLoop_head_le _ _ _ _ (by simpa using hi) hm
      · split at hs <;> simp at hs

theorem nextByte_lt (it : It) (c : Byte) (it' : It) (h : it.nextByte = (.ok c, it')) :
    it'.head < it'.buf.length := by
  unfold It.nextByte at h
  split at h
  rename_i e it1 _
  cases e with
  | some e => simp at h
  | none =>
    simp only [] at h
    split at h
    · rename_i c' hc
      cases h
      exact (List.getElem?_eq_some_iff.mp hc).1
    · simp at h

theorem Op.agree {β : Type} (o : Op β) (it : It) (h : it.Inv) :
    Agree it (o.runM it) (o.runF it.env it.rem) := by
  cases o with
  | token d =>
    have := scan_agree tokenBody (fun _ => (.error .eof : Except Err Byte)) () it h
    rw [scanF_token] at this
    simp only [Op.runM, Op.runF]
    have hlt := scanLoop_token_lt ((it.reader.getD []).length + 1) it h.head_le
    unfold It.scan at this ⊢
    generalize scanLoop tokenBody (fun _ => (.error .eof : Except Err Byte)) ((it.reader.getD []).length + 1) () it = m at this hlt ⊢
    obtain ⟨r, it'⟩ := m
    generalize dropWs it.rem = w at this ⊢
    rcases r with e | c <;> rcases w with _ | ⟨c', l⟩
    · exact this
    · exact this.elim
    · exact this.elim
    · obtain ⟨rfl, hrem, st⟩ := this
      exact Dec.agree _ _ _ st hrem (hlt _ _ rfl)
  | byte d =>
    have := nextByte_agree it h
    have hlt := nextByte_lt it
    simp only [Op.runM, Op.runF]
    generalize it.nextByte = m at this hlt ⊢
    obtain ⟨r, it'⟩ := m
    generalize it.rem = w at this ⊢
    rcases r with e | c <;> rcases w with _ | ⟨c', l⟩
    · exact this
    · exact this.elim
    · exact this.elim
    · obtain ⟨rfl, hrem, st⟩ := this
      exact Dec.agree _ _ _ st hrem (hlt _ _ rfl)
  | scan body onEOF s => exact scan_agree body onEOF s it h
  | inputOffset =>
    refine ⟨?_, rfl, Step.refl h⟩
    simp [It.env, It.total]
  | remaining => exact ⟨rfl, rfl, Step.refl h⟩

theorem Agree.bind {α β : Type} {it : It} {m : Except Err α × It} {f : Except Err (α × List Byte)}
    {km : α → It → Except Err β × It} {kf : α → List Byte → Except Err (β × List Byte)}
    (h : Agree it m f)
    (hk : ∀ a it', Step it it' → Agree it' (km a it') (kf a it'.rem)) :
    Agree it (match (generalizing := false) m with | (.ok a, it') => km a it' | (.error e, it') => (.error e, it'))
      (match (generalizing := false) f with | .ok (a, l) => kf a l | .error e => .error e) := by
  obtain ⟨r, it'⟩ := m
  rcases r with e | a <;> rcases f with e' | ⟨a', l⟩
  · exact h
  · exact h.elim
  · exact h.elim
  · obtain ⟨rfl, rfl, st⟩ := h
    exact Agree.of_step st (hk _ _ st)

/-- **Simulation**: a program run on the iterator and on the remaining bytes. -/
theorem Prog.agree {α : Type} (p : Prog α) (it : It) (h : it.Inv) :
    Agree it (p.runM it) (p.runF it.env it.rem) := by
  induction p generalizing it with
  | pure a => exact ⟨rfl, rfl, Step.refl h⟩
  | fail e => exact ⟨rfl, rfl, h.head_le⟩
  | op o k ih =>
    unfold Prog.runM Prog.runF
    refine Agree.bind (Op.agree o it h) ?_
    intro a it' st
    have := ih a it' st.inv
    rwa [st.env] at this
  | captured p k ih ihk =>
    have hc : ({ it with capture := true } : It).Inv := ⟨h.head_le, h.sticky⟩
    have := ih { it with capture := true } hc
    have henv : ({ it with capture := true } : It).env = it.env := rfl
    have hrem : ({ it with capture := true } : It).rem = it.rem := rfl
    rw [henv, hrem] at this
    unfold Prog.runM Prog.runF
    generalize p.runM { it with capture := true } = m at this ⊢
    generalize p.runF it.env it.rem = f at this ⊢
    obtain ⟨r, it1⟩ := m
    rcases r with e | a <;> rcases f with e' | ⟨a', l⟩
    · exact ⟨this.1, rfl, this.2.2⟩
    · exact this.elim
    · exact this.elim
    · obtain ⟨rfl, hl, st⟩ := this
      obtain ⟨ho, hh, more, hbuf, hflat⟩ := st.frame rfl
      simp only [] at ho hh hbuf hflat ⊢
      have hle := st.inv.head_le
      rw [if_pos ⟨hh, hle⟩]
      have st2 : Step it { it1 with capture := it.capture } := by
        refine ⟨⟨st.inv.head_le, st.inv.sticky⟩, rfl, st.total, st.endErr, st.isNone, ?_⟩
        intro _; exact ⟨ho, hh, more, hbuf, hflat⟩
      have htot : it1.offset + it1.head + it1.rem.length = it.offset + it.head + it.rem.length := st.total
      have htext : (it1.buf.take it1.head).drop it.head = it.rem.take (it.rem.length - l.length) := by
        have e1 : it.rem.length - l.length = it1.head - it.head := by rw [← hl]; omega
        rw [e1]
        have e2 : it.rem = it1.buf.drop it.head ++ flatReader it1.reader := by
          rw [It.rem, hbuf, hflat, List.drop_append_of_le_length h.head_le, List.append_assoc]
        rw [e2, List.take_append_of_le_length (by simp; omega), List.drop_take]
      rw [htext]
      have := ihk (a, it.rem.take (it.rem.length - l.length)) _ st2.inv
      rw [st2.env] at this
      have hrem2 : ({ it1 with capture := it.capture } : It).rem = l := hl
      rw [hrem2] at this
      exact Agree.of_step st2 this

end Jzon
