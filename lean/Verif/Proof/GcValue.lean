import Verif.Spec.GcValue
import Verif.Proof.GcTyped

/-!
# The value after decoding

A run of the machine of decoder calls on the events of a value leaves that value in memory.
-/

set_option linter.unusedSimpArgs false

namespace Jzon.Gc

theorem Reps.length {h : Store} {cs : List Cell} {t : Typ} {v : Value} {fp : List Nat} (hr : Reps h cs t v fp) : cs.length = size t := by
  induction hr using Reps.rec (motive_2 := fun cs t vs _ _ => cs.length = vs.length * size t) (motive_3 := fun _ _ _ _ _ => True) with
  | num | strNil | str | ptrNil | ptr | embedNil | embed | sliceNil | slice | mapNil | map => first | rfl | trivial
  | array n t cs vs fp hn _ ih => rw [ih, size_array, hn]
  | pair a b ca cb va vb fa fb _ _ iha ihb => rw [List.length_append, iha, ihb, size_pair]
  | none => simp
  | more => simp only [List.length_append, List.length_cons, Nat.add_mul, Nat.one_mul]; omega
  | empty => trivial
  | entry => trivial

theorem RepsList.length {h : Store} {cs : List Cell} {t : Typ} {vs : List Value} {fp : List Nat} (hr : RepsList h cs t vs fp) :
    cs.length = vs.length * size t := by
  have := (Reps.array _ t cs vs fp rfl hr).length
  rwa [size_array] at this

theorem Reps.frame {h h' : Store} {cs : List Cell} {t : Typ} {v : Value} {fp : List Nat} (hr : Reps h cs t v fp)
    (hh : ∀ o ∈ fp, h'.obj o = h.obj o) : Reps h' cs t v fp := by
  induction hr using Reps.rec (motive_2 := fun cs t vs fp _ => (∀ o ∈ fp, h'.obj o = h.obj o) → RepsList h' cs t vs fp)
    (motive_3 := fun es t kvs fp _ => (∀ o ∈ fp, h'.obj o = h.obj o) → RepsEntries h' es t kvs fp) with
  | num n => exact .num n
  | strNil => exact .strNil
  | str o n ho => exact .str o n (by rw [hh o (by simp), ho])
  | ptrNil t => exact .ptrNil t
  | ptr t q cs v fp hq _ ih => exact .ptr t q cs v fp (by rw [hh q (by simp), hq]) (ih fun o ho => hh o (by simp [ho]))
  | embedNil t => exact .embedNil t
  | embed t q cs v fp hq _ ih => exact .embed t q cs v fp (by rw [hh q (by simp), hq]) (ih fun o ho => hh o (by simp [ho]))
  | sliceNil t => exact .sliceNil t
  | slice t a cap cs rest vs fp ha hl hv _ ih =>
    exact .slice t a cap cs rest vs fp (by rw [hh a (by simp), ha]) hl hv (ih fun o ho => hh o (by simp [ho]))
  | mapNil t => exact .mapNil t
  | map t m es kvs fp hm _ ih => exact .map t m es kvs fp (by rw [hh m (by simp), hm]) (ih fun o ho => hh o (by simp [ho]))
  | array n t cs vs fp hn _ ih => exact .array n t cs vs fp hn (ih hh)
  | pair a b ca cb va vb fa fb _ _ iha ihb =>
    exact .pair a b ca cb va vb fa fb (iha fun o ho => hh o (by simp [ho])) (ihb fun o ho => hh o (by simp [ho]))
  | none t => exact .none t
  | more t c cs v vs f fp _ _ ih1 ih2 =>
    rename_i hh
    exact .more t c cs v vs f fp (ih1 fun o ho => hh o (by simp [ho])) (ih2 fun o ho => hh o (by simp [ho]))
  | empty t => exact .empty t
  | entry t k c es v kvs f fp _ _ ih1 ih2 =>
    rename_i hh
    exact .entry t k c es v kvs f fp (ih1 fun o ho => hh o (by simp [ho])) (ih2 fun o ho => hh o (by simp [ho]))

theorem RepsList.frame {h h' : Store} {cs : List Cell} {t : Typ} {vs : List Value} {fp : List Nat} (hr : RepsList h cs t vs fp)
    (hh : ∀ o ∈ fp, h'.obj o = h.obj o) : RepsList h' cs t vs fp := by
  have := (Reps.array _ t cs vs fp rfl hr).frame hh
  cases this with
  | array _ _ _ _ _ _ h => exact h

theorem RepsEntries.frame {h h' : Store} {es : List (Nat × List Cell)} {t : Typ} {kvs : List (Nat × Value)} {fp : List Nat}
    (hr : RepsEntries h es t kvs fp) (hh : ∀ o ∈ fp, h'.obj o = h.obj o) : RepsEntries h' es t kvs fp := by
  induction es generalizing kvs fp with
  | nil => cases hr; exact .empty t
  | cons e es ih =>
    cases hr with
    | entry _ k c _ v kvs f fp hc hes =>
      exact .entry t k c es v kvs f fp (hc.frame fun o ho => hh o (by simp [ho])) (ih hes fun o ho => hh o (by simp [ho]))

theorem RepsList.append {h : Store} {t : Typ} {c1 c2 : List Cell} {v1 v2 : List Value} {f1 f2 : List Nat} (h1 : RepsList h c1 t v1 f1)
    (h2 : RepsList h c2 t v2 f2) : RepsList h (c1 ++ c2) t (v1 ++ v2) (f1 ++ f2) := by
  induction v1 generalizing c1 f1 with
  | nil => cases h1; exact h2
  | cons v vs ih =>
    cases h1 with
    | more _ c cs _ _ f fp hc hcs =>
      rw [List.append_assoc, List.append_assoc]
      exact .more _ _ _ _ _ _ _ hc (ih hcs)

theorem RepsList.single {h : Store} {t : Typ} {c : List Cell} {v : Value} {f : List Nat} (hr : Reps h c t v f) : RepsList h c t [v] f := by
  have := RepsList.more t c [] v [] f [] hr (.none t)
  simpa using this

theorem reps_zeroes {h : Store} {t : Typ} (hz : Reps h (zeroCells t) t (zeroVal t) []) (n : Nat) :
    RepsList h (List.replicate n (zeroCells t)).flatten t (List.replicate n (zeroVal t)) [] := by
  induction n with
  | zero => exact .none t
  | succ n ih =>
    simp only [List.replicate_succ, List.flatten_cons]
    exact .more t _ _ _ _ [] [] hz ih

theorem reps_zero (h : Store) (t : Typ) : Reps h (zeroCells t) t (zeroVal t) [] := by
  induction t with
  | leaf => exact .num 0
  | str => exact .strNil
  | ptr t => exact .ptrNil t
  | slice t => exact .sliceNil t
  | map t => exact .mapNil t
  | array n t ih => exact .array n t _ _ [] (by simp) (reps_zeroes ih n)
  | pair a b iha ihb => exact .pair a b _ _ _ _ [] [] iha ihb
  | embed t => exact .embedNil t

/-- Runs, without the silent events. -/
inductive Visible (k : HeaderKind) : List Frame → Store → List Event → List Frame → Store → Prop
  | refl (fs : List Frame) (h : Store) : Visible k fs h [] fs h
  | event (f : Frame) (fs fs1 fs' : List Frame) (h h1 h' : Store) (e : Event) (es : List Event) : e ≠ .silent → step k f e h = some (fs1, h1) →
      Visible k (fs1 ++ fs) h1 es fs' h' → Visible k (f :: fs) h (e :: es) fs' h'
  | silent (f : Frame) (fs fs1 fs' : List Frame) (h h1 h' : Store) (es : List Event) : step k f .silent h = some (fs1, h1) →
      Visible k (fs1 ++ fs) h1 es fs' h' → Visible k (f :: fs) h es fs' h'

theorem Visible.trans {k : HeaderKind} {fs fs1 fs' : List Frame} {h h1 h' : Store} {es es' : List Event} (hv : Visible k fs h es fs1 h1)
    (h2 : Visible k fs1 h1 es' fs' h') : Visible k fs h (es ++ es') fs' h' := by
  induction hv with
  | refl => exact h2
  | event f fs fs1 fs' h h1 h' e es he hs _ ih => exact .event f fs fs1 _ h h1 _ e _ he hs (ih h2)
  | silent f fs fs1 fs' h h1 h' es hs _ ih => exact .silent f fs fs1 _ h h1 _ _ hs (ih h2)

theorem Visible.one {k : HeaderKind} {f : Frame} {fs fs1 : List Frame} {h h1 : Store} {e : Event} (he : e ≠ .silent)
    (hs : step k f e h = some (fs1, h1)) : Visible k (f :: fs) h [e] (fs1 ++ fs) h1 := .event f fs fs1 _ h h1 _ e [] he hs (.refl _ _)

theorem Visible.tau {k : HeaderKind} {f : Frame} {fs fs1 : List Frame} {h h1 : Store}
    (hs : step k f .silent h = some (fs1, h1)) : Visible k (f :: fs) h [] (fs1 ++ fs) h1 := .silent f fs fs1 _ h h1 _ [] hs (.refl _ _)

/-- The words `cs` are at `p`, and the objects `fp` are other ones. -/
structure Pre (h : Store) (p : Loc) (cs : List Cell) (fp : List Nat) : Prop where
  there : p.obj < h.next
  fits : p.off + cs.length ≤ (h.obj p.obj).cells.length
  words : win (h.obj p.obj).cells p.off cs.length = cs
  other : p.obj ∉ fp
  nodup : fp.Nodup
  old : ∀ o ∈ fp, o < h.next

/-- The words at `p` were replaced with `cs`, and the objects `fp` with `fp'`; nothing else was changed. -/
structure Post (h : Store) (p : Loc) (fp : List Nat) (h' : Store) (cs : List Cell) (fp' : List Nat) : Prop where
  next : h.next ≤ h'.next
  here : h'.obj p.obj = ⟨patch (h.obj p.obj).cells p.off cs, (h.obj p.obj).entries⟩
  nodup : fp'.Nodup
  inside : ∀ o ∈ fp', o < h'.next ∧ (o ∈ fp ∨ h.next ≤ o)
  frame : ∀ o, o < h.next → o ∉ fp → o ≠ p.obj → h'.obj o = h.obj o

theorem win_patch_same {cs new : List Cell} {o : Nat} (h : o + new.length ≤ cs.length) : win (patch cs o new) o new.length = new := by
  apply List.ext_getElem?
  intro i
  rw [getElem?_win, getElem?_patch h]
  grind

theorem patch_win {cs new : List Cell} {o : Nat} (h : o + new.length ≤ cs.length) (hw : win cs o new.length = new) : patch cs o new = cs := by
  apply List.ext_getElem?
  intro i
  rw [getElem?_patch h]
  split
  · rfl
  · split
    · have := getElem?_win cs o new.length (i - o)
      rw [hw, if_pos (by omega), Nat.add_sub_cancel' (by omega)] at this
      exact this
    · rfl

theorem patch_patch {cs a b : List Cell} {o : Nat} (h : o + a.length ≤ cs.length) (hl : a.length = b.length) : patch (patch cs o a) o b = patch cs o b := by
  apply List.ext_getElem?
  intro i
  rw [getElem?_patch (by rw [patch_length h]; omega), getElem?_patch h, getElem?_patch (by omega)]
  grind

theorem Post.pre {h h' : Store} {p : Loc} {cs cs' : List Cell} {fp fp' : List Nat} (hp : Pre h p cs fp) (hq : Post h p fp h' cs' fp')
    (hl : cs'.length = cs.length) : Pre h' p cs' fp' := by
  have := hp.fits
  have := hp.there
  have hn := hq.next
  refine ⟨by omega, ?_, ?_, ?_, hq.nodup, fun o ho => (hq.inside o ho).1⟩
  · rw [hq.here, patch_length (by omega)]; omega
  · rw [hq.here]; exact win_patch_same (by omega)
  · intro ho
    rcases (hq.inside _ ho).2 with h1 | h1
    · exact hp.other h1
    · omega

theorem Post.trans {h h1 h2 : Store} {p : Loc} {c c1 c2 : List Cell} {f f1 f2 : List Nat} (hp : Pre h p c f) (h1' : Post h p f h1 c1 f1)
    (hl : c1.length = c.length) (h2' : Post h1 p f1 h2 c2 f2) (hl2 : c2.length = c1.length) : Post h p f h2 c2 f2 := by
  have := hp.fits
  have n1 := h1'.next
  have n2 := h2'.next
  refine ⟨by omega, ?_, h2'.nodup, ?_, ?_⟩
  · rw [h2'.here, h1'.here, patch_patch (by omega) hl2.symm]
  · intro o ho
    have := h2'.inside o ho
    refine ⟨this.1, ?_⟩
    rcases this.2 with h | h
    · exact (h1'.inside o h).2
    · right; omega
  · intro o ho hf hne
    rw [h2'.frame o (by omega) ?_ hne, h1'.frame o ho hf hne]
    intro h
    rcases (h1'.inside o h).2 with h | h
    · exact hf h
    · omega

/-- A part of the words. -/
theorem Pre.part {h : Store} {p : Loc} {c1 c2 c3 : List Cell} {f1 f2 f3 : List Nat} (hp : Pre h p (c1 ++ c2 ++ c3) (f1 ++ f2 ++ f3)) :
    Pre h ⟨p.obj, p.off + c1.length⟩ c2 f2 := by
  have hf := hp.fits
  simp only [List.length_append] at hf
  refine ⟨hp.there, by simp only; omega, ?_, ?_, ?_, ?_⟩
  · have := congrArg (fun l => win l c1.length c2.length) hp.words
    rw [win_win _ (by simp)] at this
    rw [this]
    simp [win]
  · have := hp.other
    simp only [List.mem_append] at this
    exact fun h => this (.inl (.inr h))
  · have := hp.nodup
    rw [List.nodup_append, List.nodup_append] at this
    exact this.1.2.1
  · intro o ho
    exact hp.old o (by simp [ho])

theorem Post.whole {h h' : Store} {p : Loc} {c1 c2 c3 c2' : List Cell} {f1 f2 f3 f2' : List Nat} (hp : Pre h p (c1 ++ c2 ++ c3) (f1 ++ f2 ++ f3))
    (hq : Post h ⟨p.obj, p.off + c1.length⟩ f2 h' c2' f2') (hl : c2'.length = c2.length) :
    Post h p (f1 ++ f2 ++ f3) h' (c1 ++ c2' ++ c3) (f1 ++ f2' ++ f3) := by
  have hf := hp.fits
  simp only [List.length_append] at hf
  have hold := hp.old
  have hnext := hq.next
  have hin := hq.inside
  refine ⟨hq.next, ?_, ?_, ?_, ?_⟩
  · rw [hq.here]
    congr 1
    simp only
    have hw := hp.words
    apply List.ext_getElem?
    intro i
    rw [getElem?_patch (by omega), getElem?_patch (by simp; omega)]
    have hi := getElem?_win (h.obj p.obj).cells p.off (c1 ++ c2 ++ c3).length (i - p.off)
    rw [hw] at hi
    simp only [List.length_append, List.getElem?_append] at hi ⊢
    grind
  · have hn := hp.nodup
    have hn' := hq.nodup
    simp only [List.nodup_append, List.mem_append] at hn hn' hold ⊢
    grind
  · intro o ho
    simp only [List.mem_append] at ho hold ⊢
    grind
  · intro o ho hno hne
    simp only [List.mem_append] at hno
    exact hq.frame o ho (by grind) hne

/-- Objects of other parts are as before. -/
theorem Post.keeps {h h' : Store} {p : Loc} {c1 c2 c3 c2' : List Cell} {f1 f2 f3 f2' : List Nat} (hp : Pre h p (c1 ++ c2 ++ c3) (f1 ++ f2 ++ f3))
    (hq : Post h ⟨p.obj, p.off + c1.length⟩ f2 h' c2' f2') {o : Nat} (ho : o ∈ f1 ∨ o ∈ f3) : h'.obj o = h.obj o := by
  have h1 := hp.old o (by simp only [List.mem_append]; grind)
  have hn := hp.nodup
  have h2 := hp.other
  refine hq.frame o h1 ?_ ?_
  · intro h
    simp only [List.nodup_append, List.mem_append] at hn
    grind
  · intro h
    simp at h
    subst h
    apply h2
    simp only [List.mem_append]
    grind

/-- Nothing but the objects `fp` was changed. -/
def Kept (h : Store) (fp : List Nat) (h1 : Store) : Prop := h.next ≤ h1.next ∧ ∀ o, o < h.next → o ∉ fp → h1.obj o = h.obj o

/-- Memory after the words at `p` are written. -/
def upd (h : Store) (p : Loc) (cs : List Cell) : Store := Mem.put h p.obj ⟨patch (h.obj p.obj).cells p.off cs, (h.obj p.obj).entries⟩

theorem upd_here (h : Store) (p : Loc) (cs : List Cell) : (upd h p cs).obj p.obj = ⟨patch (h.obj p.obj).cells p.off cs, (h.obj p.obj).entries⟩ := by
  simp [upd, Mem.put]

theorem upd_other {h : Store} {p : Loc} {cs : List Cell} {o : Nat} (ho : o ≠ p.obj) : (upd h p cs).obj o = h.obj o := by
  simp [upd, Mem.put, ho]

theorem upd_next (h : Store) (p : Loc) (cs : List Cell) : (upd h p cs).next = h.next := rfl

/-- The words at `p` are written at last. -/
theorem Post.store {h h1 : Store} {p : Loc} {cs new : List Cell} {fp fp' : List Nat} (hp : Pre h p cs fp) (hk : Kept h fp h1) (hn : fp'.Nodup)
    (hi : ∀ o ∈ fp', o < h1.next ∧ (o ∈ fp ∨ h.next ≤ o)) :
    Post h p fp (upd h1 p new) new fp' := by
  refine ⟨hk.1, ?_, hn, hi, ?_⟩
  · simp [upd_here, hk.2 _ hp.there hp.other]
  · intro o ho hf hne
    rw [upd_other hne]
    exact hk.2 o ho hf

theorem write_eq {h : Store} {p : Loc} {cs : List Cell} (hl : p.off + cs.length ≤ (h.obj p.obj).cells.length) :
    Mem.write p cs h = some ((), upd h p cs) := by
  unfold Mem.write
  simp only
  rw [if_pos hl]
  rfl

theorem deref_eq {h : Store} {p : Loc} {a : Option Loc} (hw : win (h.obj p.obj).cells p.off 1 = [.ptr a]) : Mem.deref p h = some (a, h) := by
  have hg : (h.obj p.obj).cells[p.off]? = some (.ptr a) := by
    have := getElem?_win (h.obj p.obj).cells p.off 1 0
    rw [hw] at this
    simpa using this.symm
  unfold Mem.deref
  rw [bind_apply, show Mem.read p h = some (.ptr a, h) by simp [Mem.read, hg]]
  rfl

theorem readHeader_eq {k : HeaderKind} {h : Store} {o a l c : Nat} (ho : h.obj o = ⟨[k.cell (some ⟨a, 0⟩), .num l, .num c], []⟩) :
    readHeader k ⟨o, 0⟩ h = some (⟨some ⟨a, 0⟩, l, c⟩, h) := by
  unfold readHeader
  rw [bind_apply, show Mem.readAll ⟨o, 0⟩ 3 h = some ([k.cell (some ⟨a, 0⟩), .num l, .num c], h) by simp [Mem.readAll, ho]]
  cases k <;> rfl

/-- Memory with one more object. -/
def ext (h : Store) (x : Obj) : Store := ⟨fun i => if i = h.next then x else h.obj i, h.next + 1⟩

theorem alloc_eq (h : Store) (x : Obj) : Mem.alloc x h = some (h.next, ext h x) := rfl

theorem ext_new (h : Store) (x : Obj) : (ext h x).obj h.next = x := by simp [ext]

theorem ext_old {h : Store} {x : Obj} {o : Nat} (ho : o < h.next) : (ext h x).obj o = h.obj o := by
  simp only [ext]
  rw [if_neg (by omega)]

theorem kept_ext (h : Store) (x : Obj) : Kept h [] (ext h x) := ⟨by simp [ext], fun _ ho _ => ext_old ho⟩

theorem pre_new (h : Store) (cs : List Cell) : Pre (ext h ⟨cs, []⟩) ⟨h.next, 0⟩ cs [] :=
  ⟨by simp [ext], by simp [ext_new], by simp [ext_new, win_all], by simp, by simp, by simp⟩

/-- Decoding into a variable that holds the first value ends, and the variable holds the second one; nothing else is changed. -/
def Good (k : HeaderKind) (t : Typ) (v : Value) (es : List Event) (v' : Value) : Prop :=
  ∀ h p cs fp fs, Pre h p cs fp → Reps h cs t v fp →
    ∃ h' cs' fp', Visible k (.dec t p :: fs) h es fs h' ∧ Reps h' cs' t v' fp' ∧ Post h p fp h' cs' fp'

variable {k : HeaderKind} {t : Typ} {es : List Event}

theorem Post.none {h : Store} {p : Loc} {cs : List Cell} {fp : List Nat} (hp : Pre h p cs fp) : Post h p fp h cs fp := by
  refine ⟨Nat.le_refl _, ?_, hp.nodup, fun o ho => ⟨hp.old o ho, .inl ho⟩, fun _ _ _ _ => rfl⟩
  rw [patch_win hp.fits hp.words]

/-- Decoding into a new variable. -/
theorem Good.new {v : Value} (hg : Good k t (zeroVal t) es v) (h : Store) (fs : List Frame) :
    ∃ h' cs fp, Visible k (.dec t ⟨h.next, 0⟩ :: fs) (ext h ⟨zeroCells t, []⟩) es fs h' ∧ Reps h' cs t v fp ∧ h'.obj h.next = ⟨cs, []⟩ ∧
      Kept h [] h' ∧ h.next < h'.next ∧ (h.next :: fp).Nodup ∧ ∀ o ∈ fp, h.next < o ∧ o < h'.next := by
  obtain ⟨h', cs, fp, hv, hr, hq⟩ := hg (ext h ⟨zeroCells t, []⟩) ⟨h.next, 0⟩ (zeroCells t) [] fs (pre_new h _) (reps_zero _ t)
  have hn : h.next + 1 ≤ h'.next := hq.next
  have hi : ∀ o ∈ fp, h.next < o ∧ o < h'.next := by
    intro o ho
    have := hq.inside o ho
    simp only [List.not_mem_nil, false_or, ext] at this
    omega
  refine ⟨h', cs, fp, hv, hr, ?_, ⟨by omega, ?_⟩, by omega, ?_, hi⟩
  · rw [hq.here]
    simp only [ext_new]
    rw [patch_all (by rw [hr.length]; rfl)]
  · intro o ho _
    rw [hq.frame o (by simp [ext]; omega) (by simp) (by simp; omega), ext_old ho]
  · rw [List.nodup_cons]
    refine ⟨fun ho => ?_, hq.nodup⟩
    have := hi _ ho
    omega

theorem step_store {h : Store} {p : Loc} {q : Nat} {rest : List Nat} (hf : p.off + (1 + rest.length) ≤ (h.obj p.obj).cells.length) :
    step k (.store p q rest) .silent h = some ([], upd h p (.ptr (some ⟨q, 0⟩) :: rest.map .num)) := by
  simp only [step]
  rw [bind_apply, write_eq (by simp; omega)]
  rfl

theorem good_num (v : Value) (n : Nat) : Good k .leaf v [.scalar n] (.num n) := by
  intro h p cs fp fs hp hr
  have hf := hp.fits
  rw [hr.length] at hf
  refine ⟨upd h p [.num n], [.num n], [], .one (fs1 := []) (e := .scalar n) (by simp) ?_, .num n, Post.store hp ⟨Nat.le_refl _, fun _ _ _ => rfl⟩ (by simp) (by simp)⟩
  simp only [step]
  rw [bind_apply, write_eq (by exact hf)]
  rfl

theorem good_str (v : Value) (n : Nat) : Good k .str v [.scalar n] (.str (some n)) := by
  intro h p cs fp fs hp hr
  have hf := hp.fits
  rw [hr.length] at hf
  have ht := hp.there
  refine ⟨upd (ext h ⟨[.num n], []⟩) p [.ptr (some ⟨h.next, 0⟩), .num 1], [.ptr (some ⟨h.next, 0⟩), .num 1], [h.next],
    .event _ _ [.store p h.next [1]] _ _ (ext h ⟨[.num n], []⟩) _ _ _ (by simp) rfl (.tau (step_store ?_)), ?_, ?_⟩
  · rw [ext_old ht]
    exact hf
  · refine .str _ _ ?_
    rw [upd_other (by omega), ext_new]
  · exact Post.store (cs := cs) hp ⟨(kept_ext h _).1, fun o ho _ => ext_old ho⟩ (by simp) (by simp [ext])

theorem good_ptrNull (v : Value) : Good k (.ptr t) v [.null] .nil := by
  intro h p cs fp fs hp hr
  have hf := hp.fits
  rw [hr.length] at hf
  refine ⟨upd h p [.ptr none], [.ptr none], [], .one (fs1 := []) (e := .null) (by simp) ?_, .ptrNil t, Post.store hp ⟨Nat.le_refl _, fun _ _ _ => rfl⟩ (by simp) (by simp)⟩
  simp only [step]
  rw [bind_apply, write_eq (by exact hf)]
  rfl

theorem good_mapNull (v : Value) : Good k (.map t) v [.null] .nil := by
  intro h p cs fp fs hp hr
  have hf := hp.fits
  rw [hr.length] at hf
  refine ⟨upd h p [.ptr none], [.ptr none], [], .one (fs1 := []) (e := .null) (by simp) ?_, .mapNil t, Post.store hp ⟨Nat.le_refl _, fun _ _ _ => rfl⟩ (by simp) (by simp)⟩
  simp only [step]
  rw [bind_apply, write_eq (by exact hf)]
  rfl

theorem good_sliceNull (v : Value) : Good k (.slice t) v [.null] .nil := by
  intro h p cs fp fs hp hr
  have hf := hp.fits
  rw [hr.length] at hf
  refine ⟨upd h p [.ptr none, .num 0, .num 0], [.ptr none, .num 0, .num 0], [], .one (fs1 := []) (e := .null) (by simp) ?_, .sliceNil t,
    Post.store hp ⟨Nat.le_refl _, fun _ _ _ => rfl⟩ (by simp) (by simp)⟩
  simp only [step]
  rw [bind_apply, write_eq (by exact hf)]
  rfl

theorem good_ptrNew {v : Value} (hg : Good k t (zeroVal t) es v) : Good k (.ptr t) .nil es (.ptr v) := by
  intro h p cs fp fs hp hr
  cases hr
  have hf := hp.fits
  have ht := hp.there
  obtain ⟨h', cs, fp, hv, hr, ho, hk, hn, hnd, hi⟩ := hg.new h (.store p h.next [] :: fs)
  have h1 : h'.obj p.obj = h.obj p.obj := hk.2 _ ht (by simp)
  refine ⟨upd h' p [.ptr (some ⟨h.next, 0⟩)], [.ptr (some ⟨h.next, 0⟩)], h.next :: fp,
    .silent _ _ [.dec t ⟨h.next, 0⟩, .store p h.next []] _ _ (ext h ⟨zeroCells t, []⟩) _ _ (by simp only [step]; rw [bind_apply, deref_eq hp.words]; rfl) ?_, ?_, ?_⟩
  · have h2 : Visible k (.store p h.next [] :: fs) h' [] ([] ++ fs) _ := .tau (step_store (by rw [h1]; simpa using hf))
    simpa using hv.trans h2
  · refine .ptr t _ cs v fp (by rw [upd_other (by omega), ho]) (hr.frame ?_)
    intro o ho
    have := hi o ho
    rw [upd_other (by omega)]
  · refine Post.store hp hk hnd ?_
    intro o ho
    simp only [List.mem_cons] at ho
    rcases ho with rfl | ho
    · exact ⟨hn, .inr (Nat.le_refl _)⟩
    · have := hi o ho
      exact ⟨this.2, .inr (by omega)⟩

theorem good_embedNew {v : Value} (hg : Good k t (zeroVal t) es v) : Good k (.embed t) .nil es (.ptr v) := by
  intro h p cs fp fs hp hr
  cases hr
  have hf := hp.fits
  have ht := hp.there
  have h1 : (ext h ⟨zeroCells t, []⟩).obj p.obj = h.obj p.obj := ext_old ht
  -- the pointer is stored first
  have hx : (upd (ext h ⟨zeroCells t, []⟩) p [.ptr (some ⟨h.next, 0⟩)]).obj h.next = ⟨zeroCells t, []⟩ := by
    rw [upd_other (by omega), ext_new]
  have hpre : Pre (upd (ext h ⟨zeroCells t, []⟩) p [.ptr (some ⟨h.next, 0⟩)]) ⟨h.next, 0⟩ (zeroCells t) [] :=
    ⟨by simp [ext, upd_next], by simp [hx], by simp [hx, win_all], by simp, by simp, by simp⟩
  obtain ⟨h', cs, fp, hv, hr, hq⟩ := hg _ _ _ _ fs hpre (reps_zero _ t)
  have hn : h.next + 1 ≤ h'.next := hq.next
  have hi : ∀ o ∈ fp, h.next < o ∧ o < h'.next := by
    intro o ho
    have := hq.inside o ho
    simp only [List.not_mem_nil, false_or, ext, upd_next] at this
    omega
  refine ⟨h', [.ptr (some ⟨h.next, 0⟩)], h.next :: fp,
    .silent _ _ [.embed t p h.next] _ _ (ext h ⟨zeroCells t, []⟩) _ _ (by simp only [step]; rw [bind_apply, deref_eq hp.words]; rfl)
      (.silent _ _ [.dec t ⟨h.next, 0⟩] _ _ _ _ _ (by simp only [step]; rw [bind_apply, write_eq (by rw [h1]; simpa using hf)]; rfl) hv), ?_, ?_⟩
  · refine .embed t _ cs v fp ?_ hr
    rw [hq.here]
    simp only [hx]
    rw [patch_all (by rw [hr.length]; rfl)]
  · refine ⟨by omega, ?_, ?_, ?_, ?_⟩
    · rw [hq.frame _ (by simp [ext, upd_next]; omega) (by simp) (by simp; omega), upd_here, h1]
    · rw [List.nodup_cons]
      refine ⟨fun ho => ?_, hq.nodup⟩
      have := hi _ ho
      omega
    · intro o ho
      simp only [List.mem_cons] at ho
      rcases ho with rfl | ho
      · exact ⟨by omega, .inr (Nat.le_refl _)⟩
      · have := hi o ho
        exact ⟨this.2, .inr (by omega)⟩
    · intro o ho _ hne
      rw [hq.frame _ (by simp [ext, upd_next]; omega) (by simp) (by simp; omega), upd_other hne, ext_old ho]

/-- Decoding into what a pointer leads to. -/
theorem Good.through {v v' : Value} (hg : Good k t v es v') {h : Store} {p : Loc} {q : Nat} {cs : List Cell} {fp : List Nat} (fs : List Frame)
    (hp : Pre h p [.ptr (some ⟨q, 0⟩)] (q :: fp)) (hq : h.obj q = ⟨cs, []⟩) (hr : Reps h cs t v fp) :
    ∃ h' cs' fp', Visible k (.dec t ⟨q, 0⟩ :: fs) h es fs h' ∧ Reps h' cs' t v' fp' ∧ h'.obj q = ⟨cs', []⟩ ∧
      Post h p (q :: fp) h' [.ptr (some ⟨q, 0⟩)] (q :: fp') := by
  have hnd := hp.nodup
  rw [List.nodup_cons] at hnd
  have hqn := hp.old q (by simp)
  have hot := hp.other
  simp only [List.mem_cons, not_or] at hot
  obtain ⟨h', cs', fp', hv, hr', hpost⟩ := hg h ⟨q, 0⟩ cs fp fs
    ⟨hqn, by simp [hq], by simp [hq, win_all], hnd.1, hnd.2, fun o ho => hp.old o (by simp [ho])⟩ hr
  refine ⟨h', cs', fp', hv, hr', ?_, hpost.next, ?_, ?_, ?_, ?_⟩
  · rw [hpost.here]
    simp only [hq]
    rw [patch_all (by rw [hr'.length, hr.length])]
  · rw [patch_win hp.fits hp.words, hpost.frame _ hp.there hot.2 hot.1]
  · rw [List.nodup_cons]
    refine ⟨fun ho => ?_, hpost.nodup⟩
    rcases (hpost.inside _ ho).2 with h | h
    · exact hnd.1 h
    · omega
  · intro o ho
    simp only [List.mem_cons] at ho ⊢
    rcases ho with rfl | ho
    · exact ⟨Nat.lt_of_lt_of_le hqn hpost.next, .inl (.inl rfl)⟩
    · have := hpost.inside o ho
      grind
  · intro o ho hf hne
    simp only [List.mem_cons, not_or] at hf
    exact hpost.frame o ho hf.2 hf.1

theorem good_ptrOld {v v' : Value} (hg : Good k t v es v') : Good k (.ptr t) (.ptr v) es (.ptr v') := by
  intro h p cs fp fs hp hr
  cases hr with
  | ptr _ q cs _ fp hq hr =>
    obtain ⟨h', cs', fp', hv, hr', ho, hpost⟩ := hg.through fs hp hq hr
    exact ⟨h', _, _, .silent _ _ [.dec t ⟨q, 0⟩] _ _ h _ _ (by simp only [step]; rw [bind_apply, deref_eq hp.words]; rfl) hv,
      .ptr t q cs' v' fp' ho hr', hpost⟩

theorem good_embedOld {v v' : Value} (hg : Good k t v es v') : Good k (.embed t) (.ptr v) es (.ptr v') := by
  intro h p cs fp fs hp hr
  cases hr with
  | embed _ q cs _ fp hq hr =>
    obtain ⟨h', cs', fp', hv, hr', ho, hpost⟩ := hg.through fs hp hq hr
    exact ⟨h', _, _, .silent _ _ [.dec t ⟨q, 0⟩] _ _ h _ _ (by simp only [step]; rw [bind_apply, deref_eq hp.words]; rfl) hv,
      .embed t q cs' v' fp' ho hr', hpost⟩

/-- A slice under construction: the header at `hdr`, the array at `a`, the elements so far, and zeroes for the rest; all of it is new
(from `n0` on). -/
structure Building (k : HeaderKind) (h : Store) (n0 : Nat) (t : Typ) (hdr a len cap : Nat) (vs : List Value) (cs : List Cell) (fp : List Nat) : Prop where
  header : h.obj hdr = ⟨[k.cell (some ⟨a, 0⟩), .num len, .num cap], []⟩
  array : h.obj a = ⟨cs ++ (List.replicate (cap - vs.length) (zeroCells t)).flatten, []⟩
  elems : RepsList h cs t vs fp
  le : vs.length ≤ len
  room : len ≤ cap
  ne : hdr ≠ a
  hdrNew : n0 ≤ hdr ∧ hdr < h.next
  arrNew : n0 ≤ a ∧ a < h.next
  nodup : fp.Nodup
  apart : ∀ o ∈ fp, n0 ≤ o ∧ o < h.next ∧ o ≠ hdr ∧ o ≠ a

theorem flatten_length (n : Nat) (t : Typ) : (List.replicate n (zeroCells t)).flatten.length = n * size t := by
  simp [size, List.length_flatten]

theorem patch_zeroes {cs : List Cell} {t : Typ} {n m : Nat} (hl : cs.length = m * size t) (h : m ≤ n) :
    patch (List.replicate n (zeroCells t)).flatten 0 cs = cs ++ (List.replicate (n - m) (zeroCells t)).flatten := by
  have hn : n = m + (n - m) := by omega
  unfold patch
  simp only [List.take_zero, List.nil_append, Nat.zero_add]
  congr 1
  conv => lhs; rw [hn, ← List.replicate_append_replicate, List.flatten_append]
  rw [List.drop_append, List.drop_eq_nil_of_le (by rw [flatten_length]; omega), flatten_length, hl]
  simp

/-- `unsafeGrowSlice` -/
theorem Building.grow {h : Store} {n0 hdr a cap : Nat} {vs : List Value} {cs : List Cell} {fp : List Nat}
    (hb : Building k h n0 t hdr a vs.length cap vs cs fp) (p : Loc) (fs : List Frame) (hn : n0 ≤ h.next) :
    ∃ h' hdr' a' cap', Visible k (.grow t p ⟨hdr, 0⟩ (vs.length + 1) :: fs) h [] (.child t p ⟨hdr', 0⟩ (vs.length + 1) :: fs) h' ∧
      Building k h' n0 t hdr' a' (vs.length + 1) cap' vs cs fp ∧ h.next ≤ h'.next ∧ ∀ o, o < n0 → h'.obj o = h.obj o := by
  have hh := hb.hdrNew
  have ha := hb.arrNew
  by_cases hc : vs.length + 1 < cap
  · refine ⟨upd h ⟨hdr, 1⟩ [.num (vs.length + 1)], hdr, a, cap, .tau (fs1 := [_]) ?_, ?_, Nat.le_refl _, ?_⟩
    · simp only [step]
      rw [bind_apply, readHeader_eq hb.header]
      simp only [Option.bind_some, if_pos hc]
      rw [bind_apply, write_eq (by simp [hb.header])]
      rfl
    · refine ⟨?_, ?_, ?_, by omega, by omega, hb.ne, hh, ha, hb.nodup, hb.apart⟩
      · rw [show (upd h ⟨hdr, 1⟩ [.num (vs.length + 1)]).obj hdr = _ from upd_here h ⟨hdr, 1⟩ _]
        simp only [hb.header]
        rfl
      · rw [upd_other (Ne.symm hb.ne), hb.array]
      · refine hb.elems.frame fun o ho => ?_
        rw [upd_other (hb.apart o ho).2.2.1]
    · intro o ho
      rw [upd_other (by simp only; omega)]
  · have hl := hb.elems.length
    have hcap := hb.room
    have hg : vs.length + 1 ≤ growCap cap (vs.length + 1) := le_growCap _ _
    -- memory after the two allocations
    let h1 := ext h ⟨(List.replicate (growCap cap (vs.length + 1)) (zeroCells t)).flatten, []⟩
    let h2 := ext h1 ⟨[k.cell (some ⟨h.next, 0⟩), .num (vs.length + 1), .num (growCap cap (vs.length + 1))], []⟩
    have e1 : h1.next = h.next + 1 := rfl
    have e2 : h2.next = h.next + 2 := rfl
    have old2 : ∀ o, o < h.next → h2.obj o = h.obj o := by
      intro o ho
      rw [show h2.obj o = h1.obj o from ext_old (by omega), show h1.obj o = h.obj o from ext_old ho]
    have arr2 : h2.obj h.next = ⟨(List.replicate (growCap cap (vs.length + 1)) (zeroCells t)).flatten, []⟩ := by
      rw [show h2.obj h.next = h1.obj h.next from ext_old (by omega)]
      exact ext_new _ _
    have hdr2 : h2.obj (h.next + 1) = ⟨[k.cell (some ⟨h.next, 0⟩), .num (vs.length + 1), .num (growCap cap (vs.length + 1))], []⟩ := ext_new h1 _
    have hdr2' : h2.obj hdr = ⟨[k.cell (some ⟨a, 0⟩), .num vs.length, .num cap], []⟩ := by rw [old2 _ hh.2, hb.header]
    have arr2' : h2.obj a = ⟨cs ++ (List.replicate (cap - vs.length) (zeroCells t)).flatten, []⟩ := by rw [old2 _ ha.2, hb.array]
    have hmin : min vs.length (vs.length + 1) * size t = cs.length := by rw [Nat.min_eq_left (by omega), hl]
    refine ⟨upd h2 ⟨h.next, 0⟩ cs, h.next + 1, h.next, growCap cap (vs.length + 1), ?_, ?_, ?_, ?_⟩
    · refine .silent _ _ [.sliceHeader t p (some ⟨hdr, 0⟩) h.next (vs.length + 1) (growCap cap (vs.length + 1))] _ _ h1 _ _ ?_
        (.silent _ _ [.copy t p ⟨hdr, 0⟩ ⟨h.next + 1, 0⟩ (vs.length + 1)] _ _ h2 _ _ rfl (.tau (fs1 := [_]) ?_))
      · simp only [step]
        rw [bind_apply, readHeader_eq hb.header]
        simp only [Option.bind_some, if_neg hc]
        rfl
      · simp only [step]
        rw [bind_apply, readHeader_eq hdr2']
        simp only [Option.bind_some]
        rw [bind_apply, readHeader_eq hdr2]
        simp only [Option.bind_some, hmin]
        split
        · next hz =>
          have hz : cs = [] := List.eq_nil_of_length_eq_zero hz
          subst hz
          have : upd h2 ⟨h.next, 0⟩ [] = h2 := by
            unfold upd
            simp only [patch_nil]
            unfold Mem.put
            have : (fun i => if i = h.next then (⟨(h2.obj h.next).cells, (h2.obj h.next).entries⟩ : Obj) else h2.obj i) = h2.obj := by
              funext i
              split
              · next e => rw [e]
              · rfl
            rw [this]
          rw [this]
          rfl
        · rw [bind_apply, show Mem.readAll ⟨a, 0⟩ cs.length h2 = some (cs, h2) by simp [Mem.readAll, arr2']]
          simp only [Option.bind_some]
          rw [bind_apply, write_eq]
          · rfl
          · simp only [arr2, flatten_length, hl, Nat.zero_add]
            exact Nat.mul_le_mul_right _ (by omega)
    · refine ⟨?_, ?_, ?_, by omega, by omega, by omega, ⟨by omega, by rw [upd_next]; omega⟩, ⟨by omega, by rw [upd_next]; omega⟩, hb.nodup, ?_⟩
      · rw [upd_other (by simp), hdr2]
      · rw [show (upd h2 ⟨h.next, 0⟩ cs).obj h.next = _ from upd_here h2 ⟨h.next, 0⟩ _]
        simp only [arr2]
        rw [patch_zeroes hl (by omega)]
      · refine hb.elems.frame fun o ho => ?_
        have := (hb.apart o ho).2.1
        rw [upd_other (by simp only; omega), old2 o this]
      · intro o ho
        have := hb.apart o ho
        refine ⟨this.1, by rw [upd_next]; omega, by omega, by omega⟩
    · rw [upd_next]; omega
    · intro o ho
      rw [upd_other (by simp only; omega), old2 o (by omega)]

/-- One element. -/
theorem Building.elem {v : Value} (hg : Good k t (zeroVal t) es v) {h : Store} {n0 hdr a cap : Nat} {vs : List Value} {cs : List Cell} {fp : List Nat}
    (hb : Building k h n0 t hdr a (vs.length + 1) cap vs cs fp) (p : Loc) (fs : List Frame) :
    ∃ h' cs' fp', Visible k (.child t p ⟨hdr, 0⟩ (vs.length + 1) :: fs) h es (.sliceNext t p ⟨hdr, 0⟩ (vs.length + 1) :: fs) h' ∧
      Building k h' n0 t hdr a (vs.length + 1) cap (vs ++ [v]) (cs ++ cs') (fp ++ fp') ∧ h.next ≤ h'.next ∧ ∀ o, o < n0 → h'.obj o = h.obj o := by
  have hh := hb.hdrNew
  have ha := hb.arrNew
  have hl := hb.elems.length
  have hroom := hb.room
  have hz : List.replicate (cap - vs.length) (zeroCells t) = zeroCells t :: List.replicate (cap - (vs.length + 1)) (zeroCells t) := by
    rw [show cap - vs.length = (cap - (vs.length + 1)) + 1 by omega, List.replicate_succ]
  have harr : h.obj a = ⟨cs ++ (zeroCells t ++ (List.replicate (cap - (vs.length + 1)) (zeroCells t)).flatten), []⟩ := by
    rw [hb.array, hz]; rfl
  have hpre : Pre h ⟨a, vs.length * size t⟩ (zeroCells t) [] := by
    refine ⟨ha.2, ?_, ?_, by simp, by simp, by simp⟩
    · simp only [harr, List.length_append, hl]
      omega
    · simp only [harr, ← hl]
      simp [win]
  obtain ⟨h', cs', fp', hv, hr, hq⟩ := hg h _ _ _ (.sliceNext t p ⟨hdr, 0⟩ (vs.length + 1) :: fs) hpre (reps_zero _ t)
  have hi : ∀ o ∈ fp', h.next ≤ o ∧ o < h'.next := by
    intro o ho
    have := hq.inside o ho
    simp only [List.not_mem_nil, false_or] at this
    omega
  have hnx := hq.next
  have hl' := hr.length
  refine ⟨h', cs', fp', .silent _ _ [.dec t ⟨a, vs.length * size t⟩, .sliceNext t p ⟨hdr, 0⟩ (vs.length + 1)] _ _ h _ _ ?_ hv, ?_, hnx, ?_⟩
  · simp only [step]
    rw [bind_apply, readHeader_eq hb.header]
    simp only [Option.bind_some, Nat.add_sub_cancel, Nat.zero_add]
    rfl
  · refine ⟨?_, ?_, ?_, by simp, hroom, hb.ne, ⟨hh.1, by omega⟩, ⟨ha.1, by omega⟩, ?_, ?_⟩
    · rw [hq.frame _ hh.2 (by simp) hb.ne, hb.header]
    · rw [show h'.obj a = _ from hq.here]
      simp only [harr, List.length_append, List.length_singleton]
      unfold patch
      rw [← hl]
      simp [List.drop_append, hl', size, Nat.add_sub_cancel_left]
    · refine RepsList.append (hb.elems.frame fun o ho => ?_) (.single hr)
      have := hb.apart o ho
      exact hq.frame o this.2.1 (by simp) this.2.2.2
    · rw [List.nodup_append]
      refine ⟨hb.nodup, hq.nodup, fun o ho o' ho' => ?_⟩
      have := hb.apart o ho
      have := hi o' ho'
      omega
    · intro o ho
      simp only [List.mem_append] at ho
      rcases ho with ho | ho
      · have := hb.apart o ho
        exact ⟨this.1, by omega, this.2.2⟩
      · have := hi o ho
        exact ⟨by omega, by omega, by omega, by omega⟩
  · intro o ho
    exact hq.frame o (by omega) (by simp) (by simp only; omega)

/-- All elements. -/
def GoodElems (k : HeaderKind) (t : Typ) (es : List Event) (vs' : List Value) : Prop :=
  ∀ h n0 hdr a cap vs cs fp p fs, Building k h n0 t hdr a vs.length cap vs cs fp →
    ∃ h' hdr' a' cap' cs' fp', Visible k (.grow t p ⟨hdr, 0⟩ (vs.length + 1) :: fs) h es (.sliceEnd p ⟨hdr', 0⟩ :: fs) h' ∧
      Building k h' n0 t hdr' a' (vs ++ vs').length cap' (vs ++ vs') cs' fp' ∧ h.next ≤ h'.next ∧ ∀ o, o < n0 → h'.obj o = h.obj o

theorem good_lastElem {v : Value} (hg : Good k t (zeroVal t) es v) : GoodElems k t (es ++ [.closing]) [v] := by
  intro h n0 hdr a cap vs cs fp p fs hb
  have hh := hb.hdrNew
  obtain ⟨h1, hdr1, a1, cap1, v1, b1, n1, o1⟩ := hb.grow p fs (by omega)
  obtain ⟨h2, cs2, fp2, v2, b2, n2, o2⟩ := b1.elem hg p fs
  refine ⟨h2, hdr1, a1, cap1, cs ++ cs2, fp ++ fp2, ?_, ?_, by omega, fun o ho => by rw [o2 o ho, o1 o ho]⟩
  · exact (v1.trans v2).trans (.one (fs1 := [_]) (by simp) rfl)
  · rw [show (vs ++ [v]).length = vs.length + 1 by simp]
    exact b2

theorem good_elem {v : Value} {es' : List Event} {vs' : List Value} (hg : Good k t (zeroVal t) es v) (hgs : GoodElems k t es' vs') :
    GoodElems k t (es ++ .comma :: es') (v :: vs') := by
  intro h n0 hdr a cap vs cs fp p fs hb
  have hh := hb.hdrNew
  obtain ⟨h1, hdr1, a1, cap1, v1, b1, n1, o1⟩ := hb.grow p fs (by omega)
  obtain ⟨h2, cs2, fp2, v2, b2, n2, o2⟩ := b1.elem hg p fs
  have hl : (vs ++ [v]).length = vs.length + 1 := by simp
  rw [← hl] at b2
  obtain ⟨h3, hdr3, a3, cap3, cs3, fp3, v3, b3, n3, o3⟩ := hgs _ _ _ _ _ _ _ _ p fs b2
  rw [List.append_assoc, List.singleton_append] at b3
  refine ⟨h3, hdr3, a3, cap3, cs3, fp3, ?_, b3, by omega, fun o ho => by rw [o3 o ho, o2 o ho, o1 o ho]⟩
  rw [hl] at v3
  exact (v1.trans v2).trans (.event _ _ [.grow t p ⟨hdr1, 0⟩ (vs.length + 1 + 1)] _ _ h2 _ _ _ (by simp) rfl v3)

/-- The header is stored at last. -/
theorem Building.finish {h h1 : Store} {p : Loc} {cs : List Cell} {fp : List Nat} (hp : Pre h p cs fp) (hl : cs.length = 3) {hdr a cap : Nat}
    {vs : List Value} {cs' : List Cell} {fp' : List Nat} (hb : Building k h1 h.next t hdr a vs.length cap vs cs' fp') (hn : h.next ≤ h1.next)
    (ho : ∀ o, o < h.next → h1.obj o = h.obj o) (fs : List Frame) :
    ∃ h', Visible k (.sliceEnd p ⟨hdr, 0⟩ :: fs) h1 [] fs h' ∧
      Reps h' [.ptr (some ⟨a, 0⟩), .num vs.length, .num cap] (.slice t) (.slice vs) (a :: fp') ∧
      Post h p fp h' [.ptr (some ⟨a, 0⟩), .num vs.length, .num cap] (a :: fp') := by
  have hf := hp.fits
  have ht := hp.there
  have ha := hb.arrNew
  refine ⟨upd h1 p [.ptr (some ⟨a, 0⟩), .num vs.length, .num cap], .tau (fs1 := []) ?_, ?_, ?_⟩
  · simp only [step]
    rw [bind_apply, readHeader_eq hb.header]
    simp only [Option.bind_some]
    rw [bind_apply, write_eq (by rw [ho _ ht]; simp; omega)]
    rfl
  · refine .slice t a cap cs' (List.replicate (cap - vs.length) (zeroCells t)).flatten vs fp' ?_ ?_ hb.room ?_
    · rw [upd_other (by omega), hb.array]
    · rw [List.length_append, flatten_length, hb.elems.length, ← Nat.add_mul, Nat.add_sub_cancel' hb.room]
    · refine hb.elems.frame fun o ho => ?_
      have := hb.apart o ho
      rw [upd_other (by omega)]
  · refine Post.store hp ⟨hn, fun o h _ => ho o h⟩ ?_ ?_
    · rw [List.nodup_cons]
      exact ⟨fun h => (hb.apart a h).2.2.2 rfl, hb.nodup⟩
    · intro o ho
      simp only [List.mem_cons] at ho
      rcases ho with rfl | ho
      · exact ⟨ha.2, .inr ha.1⟩
      · have := hb.apart o ho
        exact ⟨this.2.1, .inr this.1⟩

/-- The empty slice that the construction begins with. -/
theorem building_start (h : Store) (p : Loc) (fs : List Frame) :
    ∃ h', Visible k (.dec (.slice t) p :: fs) h [.opening] (.sliceFirst t p ⟨h.next + 1, 0⟩ :: fs) h' ∧
      Building k h' h.next t (h.next + 1) h.next 0 0 [] [] [] ∧ h'.next = h.next + 2 ∧ ∀ o, o < h.next → h'.obj o = h.obj o := by
  let h1 := ext h ⟨[], []⟩
  let h2 := ext h1 ⟨[k.cell (some ⟨h.next, 0⟩), .num 0, .num 0], []⟩
  have e1 : h1.next = h.next + 1 := rfl
  have e2 : h2.next = h.next + 2 := rfl
  refine ⟨h2, ?_, ?_, rfl, ?_⟩
  · exact .event _ _ [.sliceStart t p] _ _ h _ _ _ (by simp) rfl
      (.silent _ _ [.sliceHeader t p none h.next 0 0] _ _ h1 _ _ rfl (.tau (fs1 := [_]) rfl))
  · refine ⟨ext_new h1 _, ?_, .none t, by simp, by simp, by omega, by omega, by omega, by simp, by simp⟩
    rw [show h2.obj h.next = h1.obj h.next from ext_old (by omega)]
    exact ext_new _ _
  · intro o ho
    rw [show h2.obj o = h1.obj o from ext_old (by omega), show h1.obj o = h.obj o from ext_old ho]

theorem good_sliceEmpty (v : Value) : Good k (.slice t) v [.opening, .closing] (.slice []) := by
  intro h p cs fp fs hp hr
  obtain ⟨h1, v1, b1, n1, o1⟩ := building_start (k := k) (t := t) h p fs
  obtain ⟨h2, v2, r2, p2⟩ := Building.finish hp hr.length (vs := []) b1 (by omega) o1 fs
  exact ⟨h2, _, _, v1.trans ((Visible.one (fs1 := [_]) (by simp) rfl).trans v2), r2, p2⟩

theorem good_slice {vs : List Value} (hg : GoodElems k t es vs) (v : Value) : Good k (.slice t) v (.opening :: es) (.slice vs) := by
  intro h p cs fp fs hp hr
  obtain ⟨h1, v1, b1, n1, o1⟩ := building_start (k := k) (t := t) h p fs
  obtain ⟨h2, hdr, a, cap, cs2, fp2, v2, b2, n2, o2⟩ := hg _ _ _ _ _ [] _ _ p fs b1
  obtain ⟨h3, v3, r3, p3⟩ := Building.finish hp hr.length b2 (by omega) (fun o ho => by rw [o2 o ho, o1 o ho]) fs
  refine ⟨h3, _, _, ?_, r3, p3⟩
  have := (v1.trans ((Visible.tau (fs1 := [.grow t p ⟨h.next + 1, 0⟩ 1]) rfl).trans v2)).trans v3
  simpa using this

/-- The elements of an array. -/
def GoodArr (k : HeaderKind) (t : Typ) (vs : List Value) (es : List Event) (vs' : List Value) : Prop :=
  ∀ h p n i cs fp fs, i + vs.length = n → Pre h ⟨p.obj, p.off + i * size t⟩ cs fp → RepsList h cs t vs fp →
    ∃ h' cs' fp', Visible k (.array n t p i :: fs) h es fs h' ∧ RepsList h' cs' t vs' fp' ∧ vs'.length = vs.length ∧
      Post h ⟨p.obj, p.off + i * size t⟩ fp h' cs' fp'

theorem good_rest (vs : List Value) : GoodArr k t vs [.closing] (vs.map fun _ => zeroVal t) := by
  intro h p n i cs fp fs hn hp hr
  have hl := hr.length
  have hf := hp.fits
  refine ⟨upd h ⟨p.obj, p.off + i * size t⟩ (List.replicate (n - i) (zeroCells t)).flatten, _, [], .one (fs1 := []) (e := .closing) (by simp) ?_, ?_, by simp,
    Post.store hp ⟨Nat.le_refl _, fun _ _ _ => rfl⟩ (by simp) (by simp)⟩
  · simp only [step]
    rw [bind_apply, write_eq]
    · rfl
    · rw [flatten_length, show n - i = vs.length by omega, ← hl]
      exact hf
  · rw [List.map_const', show n - i = vs.length by omega]
    exact reps_zeroes (reps_zero _ t) _

theorem good_over (hg : GoodArr k t [] es []) : GoodArr k t [] (.skip :: es) [] := by
  intro h p n i cs fp fs hn hp hr
  obtain ⟨h', cs', fp', hv, hrest⟩ := hg h p n i cs fp fs hn hp hr
  refine ⟨h', cs', fp', .event _ _ [.array n t p i] _ _ h _ _ _ (by simp) ?_ hv, hrest⟩
  simp only [List.length_nil] at hn
  simp only [step]
  rw [if_neg (by omega)]
  rfl

theorem good_next {v v' : Value} {vs vs' : List Value} {es' : List Event} (hg : Good k t v es v') (hgs : GoodArr k t vs es' vs') :
    GoodArr k t (v :: vs) (es ++ es') (v' :: vs') := by
  intro h p n i cs fp fs hn hp hr
  cases hr with
  | more _ c cs _ _ f fp hc hcs =>
    have hp0 : Pre h ⟨p.obj, p.off + i * size t⟩ ([] ++ c ++ cs) ([] ++ f ++ fp) := hp
    obtain ⟨h1, c1, f1, v1, r1, q1⟩ := hg _ _ _ _ (.array n t p (i + 1) :: fs) hp0.part hc
    have l1 : c1.length = c.length := by rw [r1.length, hc.length]
    have w1 := Post.whole hp0 q1 l1
    have p1 := Post.pre hp0 w1 (by simp [l1])
    have hcs1 : RepsList h1 cs t vs fp := hcs.frame fun o ho => Post.keeps hp0 q1 (.inr ho)
    have p1' : Pre h1 ⟨p.obj, p.off + i * size t⟩ (c1 ++ cs ++ []) (f1 ++ fp ++ []) := by simpa using p1
    have p2 := p1'.part
    have hoff : p.off + i * size t + c1.length = p.off + (i + 1) * size t := by rw [r1.length, Nat.add_mul, Nat.one_mul, Nat.add_assoc]
    simp only [hoff] at p2
    obtain ⟨h2, cs2, fp2, v2, r2, l2, q2⟩ := hgs h1 p n (i + 1) cs fp fs (by simp at hn; omega) p2 hcs1
    have q2' : Post h1 ⟨p.obj, p.off + i * size t + c1.length⟩ fp h2 cs2 fp2 := by rw [hoff]; exact q2
    have l2' : cs2.length = cs.length := by rw [r2.length, hcs.length, l2]
    have w2 := Post.whole p1' q2' l2'
    refine ⟨h2, c1 ++ cs2, f1 ++ fp2, ?_, .more t c1 cs2 v' vs' f1 fp2 ?_ r2, by simp [l2], ?_⟩
    · refine .silent _ _ [.dec t ⟨p.obj, p.off + i * size t⟩, .array n t p (i + 1)] _ _ h _ _ ?_ (v1.trans v2)
      simp only [step]
      rw [if_pos (by simp at hn; omega)]
      rfl
    · exact r1.frame fun o ho => Post.keeps p1' q2' (.inl ho)
    · simp only [List.append_nil] at w2
      exact Post.trans hp w1 (by simp [l1]) w2 (by simp [l2'])

theorem good_array {n : Nat} {vs vs' : List Value} (hg : GoodArr k t vs es vs') : Good k (.array n t) (.array vs) (.opening :: es) (.array vs') := by
  intro h p cs fp fs hp hr
  cases hr with
  | array _ _ _ _ _ hl hr =>
    have hp0 : Pre h ⟨p.obj, p.off + 0 * size t⟩ cs fp := by simpa using hp
    obtain ⟨h', cs', fp', hv, hr', hl', hq⟩ := hg h p n 0 cs fp fs (by omega) hp0 hr
    refine ⟨h', cs', fp', .event _ _ [.array n t p 0] _ _ h _ _ _ (by simp) rfl hv, .array n t cs' vs' fp' (by omega) hr', ?_⟩
    simpa using hq

/-- The fields of a struct. -/
def GoodFields (k : HeaderKind) (a b : Typ) (va vb : Value) (es : List Event) (va' vb' : Value) : Prop :=
  ∀ h p ca cb fa fb fs, Pre h p (ca ++ cb) (fa ++ fb) → Reps h ca a va fa → Reps h cb b vb fb →
    ∃ h' ca' cb' fa' fb', Visible k (.fields a b p :: fs) h es fs h' ∧ Reps h' ca' a va' fa' ∧ Reps h' cb' b vb' fb' ∧
      Post h p (fa ++ fb) h' (ca' ++ cb') (fa' ++ fb')

variable {a b : Typ}

theorem good_finish (va vb : Value) : GoodFields k a b va vb [.closing] va vb := by
  intro h p ca cb fa fb fs hp ha hb
  exact ⟨h, ca, cb, fa, fb, .one (fs1 := []) (by simp) rfl, ha, hb, Post.none hp⟩

theorem good_unknown {va vb va' vb' : Value} (hg : GoodFields k a b va vb es va' vb') : GoodFields k a b va vb (.skip :: es) va' vb' := by
  intro h p ca cb fa fb fs hp ha hb
  obtain ⟨h', ca', cb', fa', fb', hv, hrest⟩ := hg h p ca cb fa fb fs hp ha hb
  exact ⟨h', ca', cb', fa', fb', .event _ _ [.fields a b p] _ _ h _ _ _ (by simp) rfl hv, hrest⟩

theorem good_fst {va vb v va' vb' : Value} {es' : List Event} (hg : Good k a va es v) (hgs : GoodFields k a b v vb es' va' vb') :
    GoodFields k a b va vb (.key 0 :: es ++ es') va' vb' := by
  intro h p ca cb fa fb fs hp ha hb
  have hp0 : Pre h p ([] ++ ca ++ cb) ([] ++ fa ++ fb) := hp
  obtain ⟨h1, c1, f1, v1, r1, q1⟩ := hg h p ca fa (.fields a b p :: fs) hp0.part ha
  have l1 : c1.length = ca.length := by rw [r1.length, ha.length]
  have w1 := Post.whole hp0 q1 l1
  obtain ⟨h2, ca2, cb2, fa2, fb2, v2, ra, rb, q2⟩ := hgs h1 p c1 cb f1 fb fs (Post.pre hp0 w1 (by simp [l1])) r1
    (hb.frame fun o ho => Post.keeps hp0 q1 (.inr ho))
  refine ⟨h2, ca2, cb2, fa2, fb2, .event _ _ [.dec a p, .fields a b p] _ _ h _ _ _ (by simp) rfl (v1.trans v2), ra, rb, ?_⟩
  exact Post.trans hp w1 (by simp [l1]) q2 (by simp [ra.length, rb.length, r1.length, hb.length])

theorem good_snd {va vb v va' vb' : Value} {es' : List Event} (hg : Good k b vb es v) (hgs : GoodFields k a b va v es' va' vb') :
    GoodFields k a b va vb (.key 1 :: es ++ es') va' vb' := by
  intro h p ca cb fa fb fs hp ha hb
  have hp0 : Pre h p (ca ++ cb ++ []) (fa ++ fb ++ []) := by simpa using hp
  obtain ⟨h1, c1, f1, v1, r1, q1⟩ := hg h _ cb fb (.fields a b p :: fs) hp0.part hb
  have l1 : c1.length = cb.length := by rw [r1.length, hb.length]
  have w1 := Post.whole hp0 q1 l1
  have p1 := Post.pre hp0 w1 (by simp [l1])
  simp only [List.append_nil] at w1 p1
  obtain ⟨h2, ca2, cb2, fa2, fb2, v2, ra, rb, q2⟩ := hgs h1 p ca c1 fa f1 fs p1 (ha.frame fun o ho => Post.keeps hp0 q1 (.inl ho)) r1
  refine ⟨h2, ca2, cb2, fa2, fb2, .event _ _ [.dec b ⟨p.obj, p.off + size a⟩, .fields a b p] _ _ h _ _ _ (by simp) rfl ?_, ra, rb, ?_⟩
  · rw [ha.length] at v1
    exact v1.trans v2
  · exact Post.trans hp w1 (by simp [l1]) q2 (by simp [ra.length, rb.length, r1.length, ha.length])

theorem good_pair {va vb va' vb' : Value} (hg : GoodFields k a b va vb es va' vb') :
    Good k (.pair a b) (.pair va vb) (.opening :: es) (.pair va' vb') := by
  intro h p cs fp fs hp hr
  cases hr with
  | pair _ _ ca cb _ _ fa fb ha hb =>
    obtain ⟨h', ca', cb', fa', fb', hv, ra, rb, hq⟩ := hg h p ca cb fa fb fs hp ha hb
    exact ⟨h', _, _, .event _ _ [.fields a b p] _ _ h _ _ _ (by simp) rfl hv, .pair a b _ _ _ _ _ _ ra rb, hq⟩

theorem RepsEntries.set {h : Store} {c : List Cell} {v : Value} {f : List Nat} (hc : Reps h c t v f) (n : Nat) {mes : List (Nat × List Cell)}
    {kvs : List (Nat × Value)} {fp : List Nat} (hr : RepsEntries h mes t kvs fp) (hn : (fp ++ f).Nodup) :
    ∃ fp', RepsEntries h (Mem.setKey n c mes) t (putEntry n v kvs) fp' ∧ fp'.Nodup ∧ ∀ o ∈ fp', o ∈ fp ∨ o ∈ f := by
  induction mes generalizing kvs fp with
  | nil =>
    cases hr
    exact ⟨f ++ [], .entry t n c [] v [] f [] hc (.empty t), by simpa using hn, by simp⟩
  | cons e mes ih =>
    cases hr with
    | entry _ n' c' _ v' kvs f' fp hc' hes =>
      simp only [Mem.setKey, putEntry]
      have h1 : (fp ++ f).Nodup := by
        simp only [List.nodup_append, List.mem_append] at hn ⊢
        grind
      split
      · refine ⟨f ++ fp, .entry t n c mes v kvs f fp hc hes, ?_, by simp; grind⟩
        simp only [List.nodup_append, List.mem_append] at hn ⊢
        grind
      · obtain ⟨fp', hr', hn', hi⟩ := ih hes h1
        refine ⟨f' ++ fp', .entry t n' c' _ v' _ f' fp' hc' hr', ?_, ?_⟩
        · simp only [List.nodup_append, List.mem_append] at hn ⊢
          grind
        · intro o ho
          simp only [List.mem_append] at ho ⊢
          grind

/-- The entries of a map. -/
def GoodEntries (k : HeaderKind) (t : Typ) (kvs : List (Nat × Value)) (es : List Event) (kvs' : List (Nat × Value)) : Prop :=
  ∀ h p m mes fp fs, Pre h p [.ptr (some ⟨m, 0⟩)] (m :: fp) → h.obj m = ⟨[], mes⟩ → RepsEntries h mes t kvs fp →
    ∃ h' mes' fp', Visible k (.mapKey t p :: fs) h es fs h' ∧ h'.obj m = ⟨[], mes'⟩ ∧ RepsEntries h' mes' t kvs' fp' ∧
      Post h p (m :: fp) h' [.ptr (some ⟨m, 0⟩)] (m :: fp')

/-- One entry. -/
theorem Good.entry {v : Value} (hg : Good k t (zeroVal t) es v) {h : Store} {p : Loc} {m n : Nat} {mes : List (Nat × List Cell)} {fp : List Nat}
    {kvs : List (Nat × Value)} (hp : Pre h p [.ptr (some ⟨m, 0⟩)] (m :: fp)) (hm : h.obj m = ⟨[], mes⟩) (hr : RepsEntries h mes t kvs fp)
    (fs : List Frame) :
    ∃ h' mes' fp', Visible k (.mapKey t p :: fs) h (.key n :: es) (.mapNext t p :: fs) h' ∧ h'.obj m = ⟨[], mes'⟩ ∧
      RepsEntries h' mes' t (putEntry n v kvs) fp' ∧ Post h p (m :: fp) h' [.ptr (some ⟨m, 0⟩)] (m :: fp') := by
  obtain ⟨h1, cs, f, hv, hc, ho, hk, hn, hnd, hi⟩ := hg.new h (.mapAssign t p n h.next :: fs)
  have ht := hp.there
  have hmn := hp.old m (by simp)
  have hnd0 := hp.nodup
  have hold := hp.old
  have hot := hp.other
  simp only [List.mem_cons, not_or] at hot hold
  rw [List.nodup_cons] at hnd0 hnd
  have e1 : h1.obj p.obj = h.obj p.obj := hk.2 _ ht (by simp)
  have em : h1.obj m = ⟨[], mes⟩ := by rw [hk.2 _ hmn (by simp), hm]
  have hr1 : RepsEntries h1 mes t kvs fp := hr.frame fun o ho => hk.2 o (hold o (.inr ho)) (by simp)
  obtain ⟨fp', hs, hsn, hsi⟩ := hr1.set hc n (by
    rw [List.nodup_append]
    refine ⟨hnd0.2, hnd.2, fun a ha b hb => ?_⟩
    have := hold a (.inr ha)
    have := hi b hb
    omega)
  have hout : ∀ o ∈ fp', o ≠ m ∧ o < h1.next ∧ (o ∈ fp ∨ h.next ≤ o) := by
    intro o ho
    have := hk.1
    rcases hsi o ho with h | h
    · have := hold o (.inr h)
      exact ⟨fun e => hnd0.1 (e ▸ h), by omega, .inl h⟩
    · have := hi o h
      exact ⟨by omega, this.2, .inr (by omega)⟩
  refine ⟨Mem.put h1 m ⟨[], Mem.setKey n cs mes⟩, Mem.setKey n cs mes, fp', ?_, by simp [Mem.put], ?_, ?_⟩
  · refine .event _ _ [.dec t ⟨h.next, 0⟩, .mapAssign t p n h.next] _ _ (ext h ⟨zeroCells t, []⟩) _ _ _ (by simp) rfl ?_
    have h2 : Visible k (.mapAssign t p n h.next :: fs) h1 [] ([.mapNext t p] ++ fs) (Mem.put h1 m ⟨[], Mem.setKey n cs mes⟩) := by
      refine .tau ?_
      simp only [step]
      rw [bind_apply, deref_eq (by rw [e1]; exact hp.words)]
      simp only [Option.bind_some]
      rw [bind_apply, show Mem.readAll ⟨h.next, 0⟩ (size t) h1 = some (cs, h1) by simp [Mem.readAll, ho, ← hc.length]]
      simp only [Option.bind_some]
      rw [bind_apply]
      simp [Mem.assign, em]
      rfl
    simpa using hv.trans h2
  · refine hs.frame fun o ho => ?_
    simp only [Mem.put]
    rw [if_neg (hout o ho).1]
  · refine ⟨hk.1, ?_, ?_, ?_, ?_⟩
    · simp only [Mem.put]
      rw [if_neg hot.1, e1, patch_win hp.fits hp.words]
    · rw [List.nodup_cons]
      exact ⟨fun h => (hout m h).1 rfl, hsn⟩
    · intro o ho
      simp only [List.mem_cons] at ho ⊢
      have hk1 := hk.1
      rcases ho with rfl | ho
      · exact ⟨by simp only [Mem.put]; omega, .inl (.inl rfl)⟩
      · have := hout o ho
        exact ⟨this.2.1, by grind⟩
    · intro o ho hf hne
      simp only [List.mem_cons, not_or] at hf
      simp only [Mem.put]
      rw [if_neg hf.1, hk.2 o ho (by simp)]

theorem good_lastEntry {v : Value} {kvs : List (Nat × Value)} {n : Nat} (hg : Good k t (zeroVal t) es v) :
    GoodEntries k t kvs (.key n :: es ++ [.closing]) (putEntry n v kvs) := by
  intro h p m mes fp fs hp hm hr
  obtain ⟨h', mes', fp', hv, hm', hr', hq⟩ := hg.entry (n := n) hp hm hr fs
  exact ⟨h', mes', fp', hv.trans (.one (fs1 := []) (by simp) rfl), hm', hr', hq⟩

theorem good_entry {v : Value} {kvs kvs' : List (Nat × Value)} {n : Nat} {es' : List Event} (hg : Good k t (zeroVal t) es v)
    (hgs : GoodEntries k t (putEntry n v kvs) es' kvs') : GoodEntries k t kvs (.key n :: es ++ .comma :: es') kvs' := by
  intro h p m mes fp fs hp hm hr
  obtain ⟨h1, mes1, fp1, v1, hm1, hr1, q1⟩ := hg.entry (n := n) hp hm hr fs
  obtain ⟨h2, mes2, fp2, v2, hm2, hr2, q2⟩ := hgs h1 p m mes1 fp1 fs (Post.pre hp q1 rfl) hm1 hr1
  exact ⟨h2, mes2, fp2, v1.trans (.event _ _ [.mapKey t p] _ _ h1 _ _ _ (by simp) rfl v2), hm2, hr2, Post.trans hp q1 rfl q2 rfl⟩

/-- The map that decoding works on: the old one, or a new one. -/
theorem map_start {v : Value} {h : Store} {p : Loc} {cs : List Cell} {fp : List Nat} (hp : Pre h p cs fp) (hr : Reps h cs (.map t) v fp)
    (fs : List Frame) :
    ∃ h' m mes fp', Visible k (.dec (.map t) p :: fs) h [.opening] (.mapFirst t p :: fs) h' ∧ h'.obj m = ⟨[], mes⟩ ∧
      RepsEntries h' mes t v.entries fp' ∧ Post h p fp h' [.ptr (some ⟨m, 0⟩)] (m :: fp') := by
  cases hr with
  | mapNil =>
    have ht := hp.there
    have hf := hp.fits
    have e1 : (ext h ⟨[], []⟩).obj p.obj = h.obj p.obj := ext_old ht
    refine ⟨upd (ext h ⟨[], []⟩) p [.ptr (some ⟨h.next, 0⟩)], h.next, [], [], ?_, ?_, .empty t, ?_⟩
    · refine .event _ _ [.mapStore t p h.next] _ _ (ext h ⟨[], []⟩) _ _ _ (by simp) ?_ (.tau (fs1 := [_]) ?_)
      · simp only [step]
        rw [bind_apply, deref_eq hp.words]
        rfl
      · simp only [step]
        rw [bind_apply, write_eq (by rw [e1]; simpa using hf)]
        rfl
    · rw [upd_other (by omega), ext_new]
    · exact Post.store hp (kept_ext h _) (by simp) (by simp [ext])
  | map _ m mes kvs fp hm hr =>
    refine ⟨h, m, mes, fp, .one (fs1 := [_]) (by simp) ?_, hm, hr, Post.none hp⟩
    simp only [step]
    rw [bind_apply, deref_eq hp.words]
    rfl

theorem good_mapEmpty (v : Value) : Good k (.map t) v [.opening, .closing] (.map v.entries) := by
  intro h p cs fp fs hp hr
  obtain ⟨h1, m, mes, fp1, v1, hm, hr1, q1⟩ := map_start (k := k) hp hr fs
  exact ⟨h1, _, _, v1.trans (.one (fs1 := []) (by simp) rfl), .map t m mes _ fp1 hm hr1, q1⟩

theorem good_map {v : Value} {kvs : List (Nat × Value)} (hg : GoodEntries k t v.entries es kvs) : Good k (.map t) v (.opening :: es) (.map kvs) := by
  intro h p cs fp fs hp hr
  obtain ⟨h1, m, mes, fp1, v1, hm, hr1, q1⟩ := map_start (k := k) hp hr fs
  have l1 : [Cell.ptr (some ⟨m, 0⟩)].length = cs.length := by rw [hr.length]; rfl
  obtain ⟨h2, mes2, fp2, v2, hm2, hr2, q2⟩ := hg h1 p m mes fp1 fs (Post.pre hp q1 l1) hm hr1
  refine ⟨h2, _, _, v1.trans (.silent _ _ [.mapKey t p] _ _ h1 _ _ rfl v2), .map t m mes2 _ fp2 hm2 hr2, Post.trans hp q1 l1 q2 rfl⟩

/-- Decoding does what it should. -/
theorem decodes_good {v v' : Value} (hd : Decodes t v es v') : Good k t v es v' := by
  induction hd using Decodes.rec (motive_2 := fun t es vs _ => GoodElems k t es vs) (motive_3 := fun t kvs es kvs' _ => GoodEntries k t kvs es kvs')
    (motive_4 := fun t vs es vs' _ => GoodArr k t vs es vs') (motive_5 := fun a b va vb es va' vb' _ => GoodFields k a b va vb es va' vb') with
  | num v n => exact good_num v n
  | numNull v => exact fun h p cs fp fs hp hr => ⟨h, cs, fp, .one (fs1 := []) (by simp) rfl, hr, Post.none hp⟩
  | str v n => exact good_str v n
  | strNull v => exact fun h p cs fp fs hp hr => ⟨h, cs, fp, .one (fs1 := []) (by simp) rfl, hr, Post.none hp⟩
  | ptrNull t v => exact good_ptrNull v
  | ptrNew t es v _ _ ih => exact good_ptrNew ih
  | ptrOld t es v v' _ _ ih => exact good_ptrOld ih
  | embedNew t es v _ ih => exact good_embedNew ih
  | embedOld t es v v' _ ih => exact good_embedOld ih
  | sliceNull t v => exact good_sliceNull v
  | sliceEmpty t v => exact good_sliceEmpty v
  | slice t v es vs _ ih => exact good_slice ih v
  | mapNull t v => exact good_mapNull v
  | mapEmpty t v => exact good_mapEmpty v
  | map t v es kvs _ ih => exact good_map ih
  | arrayNull n t v => exact fun h p cs fp fs hp hr => ⟨h, cs, fp, .one (fs1 := []) (by simp) rfl, hr, Post.none hp⟩
  | array n t vs es vs' _ ih => exact good_array ih
  | pairNull a b v => exact fun h p cs fp fs hp hr => ⟨h, cs, fp, .one (fs1 := []) (by simp) rfl, hr, Post.none hp⟩
  | pair a b va vb es va' vb' _ ih => exact good_pair ih
  | lastElem t es v _ ih => exact good_lastElem ih
  | elem t es v es' vs _ _ ih1 ih2 => exact good_elem ih1 ih2
  | lastEntry t kvs k es v _ ih => exact good_lastEntry ih
  | entry t kvs k es v es' kvs' _ _ ih1 ih2 => exact good_entry ih1 ih2
  | rest t vs => exact good_rest vs
  | next t v vs es v' es' vs' _ _ ih1 ih2 => exact good_next ih1 ih2
  | over t es _ ih => exact good_over ih
  | finish a b va vb => exact good_finish va vb
  | fst a b va vb es v es' va' vb' _ _ ih1 ih2 => exact good_fst ih1 ih2
  | snd a b va vb es v es' va' vb' _ _ ih1 ih2 => exact good_snd ih1 ih2
  | unknown a b va vb es va' vb' _ ih => exact good_unknown ih

end Jzon.Gc
