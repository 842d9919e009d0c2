import Verif.Proof.Decided
import Verif.Spec.Blame

/-!
# What a failing program has looked at

`Prog.runX` is `Prog.runF` with a record of the bytes nobody has looked at.
-/

set_option linter.unusedSimpArgs false

namespace Jzon

open Spec

/-- A result, with the bytes nobody has looked at. -/
abbrev Seen (α : Type) := Except (Err × List Byte) (α × List Byte × List Byte)

def scanX {σ β : Type} (body : σ → Byte → Act σ β) (onEOF : σ → Except Err β) (endErr : Err) : σ → List Byte → Seen β
  | s, [] =>
    if endErr = .eof then
      match onEOF s with
      | .ok b => .ok (b, [], [])
      | .error e => .error (e, [])
    else .error (endErr, [])
  | s, c :: l =>
    match body s c with
    | .cont s' => scanX body onEOF endErr s' l
    | .stop b => .ok (b, c :: l, l)
    | .stopNext b => .ok (b, l, l)
    | .err e => .error (e, l)

def Dec.runX (d : Dec) (c : Byte) (l : List Byte) : Seen Byte :=
  match d with
  | .take => .ok (c, l, l)
  | .leave => .ok (c, c :: l, l)
  | .fail e => .error (e, l)

def Op.runX : {β : Type} → Op β → Env → List Byte → List Byte → Seen β
  | _, .token d, env, l, _ =>
    match dropWs l with
    | [] => .error (env.endErr, [])
    | c :: l' => (d c).runX c l'
  | _, .byte d, env, l, _ =>
    match l with
    | [] => .error (env.endErr, [])
    | c :: l' => (d c).runX c l'
  | _, .scan body onEOF s, env, l, _ => scanX body onEOF env.endErr s l
  | _, .inputOffset, env, l, x => .ok (env.total - l.length, l, x)
  | _, .remaining, _, l, x => .ok (l.length, l, x)

def Prog.runX : {α : Type} → Prog α → Env → List Byte → List Byte → Seen α
  | _, .pure a, _, l, x => .ok (a, l, x)
  | _, .fail e, _, _, x => .error (e, x)
  | _, .op o k, env, l, x =>
    match o.runX env l x with
    | .ok (b, l', x') => (k b).runX env l' x'
    | .error e => .error e
  | _, .captured p k, env, l, x =>
    match p.runX env l x with
    | .ok (b, l', x') => (k (b, l.take (l.length - l'.length))).runX env l' x'
    | .error e => .error e

/-- Without the record. -/
def Seen.forget {α : Type} : Seen α → Except Err (α × List Byte)
  | .ok (a, l, _) => .ok (a, l)
  | .error (e, _) => .error e

theorem scanX_forget {σ β : Type} (body : σ → Byte → Act σ β) (onEOF : σ → Except Err β) (endErr : Err) (s : σ) (l : List Byte) :
    scanF body onEOF endErr s l = (scanX body onEOF endErr s l).forget := by
  induction l generalizing s with
  | nil =>
    simp only [scanF, scanX]
    split
    · cases onEOF s <;> rfl
    · rfl
  | cons c l ih =>
    simp only [scanF, scanX]
    cases body s c <;> simp only [ih] <;> rfl

theorem op_forget {β : Type} (o : Op β) (env : Env) (l x : List Byte) : o.runF env l = (o.runX env l x).forget := by
  cases o with
  | token d =>
    simp only [Op.runF, Op.runX]
    cases dropWs l with
    | nil => rfl
    | cons c l' => simp only [Dec.runF, Dec.runX]; cases d c <;> rfl
  | byte d =>
    simp only [Op.runF, Op.runX]
    cases l with
    | nil => rfl
    | cons c l' => simp only [Dec.runF, Dec.runX]; cases d c <;> rfl
  | scan body onEOF s => exact scanX_forget _ _ _ _ _
  | inputOffset => rfl
  | remaining => rfl

theorem prog_forget {α : Type} (p : Prog α) (env : Env) (l x : List Byte) : p.runF env l = (p.runX env l x).forget := by
  induction p generalizing l x with
  | pure a => rfl
  | fail e => rfl
  | op o k ih =>
    simp only [Prog.runF, Prog.runX]
    rw [op_forget o env l x]
    cases o.runX env l x with
    | ok y => exact ih _ _ _
    | error e => rfl
  | captured p k ihp ih =>
    simp only [Prog.runF, Prog.runX]
    rw [ihp l x]
    cases p.runX env l x with
    | ok y => exact ih _ _ _
    | error e => rfl

/-! ## The record -/

/-- At most one byte that has been looked at is still to be read. -/
def Peeks (l x : List Byte) : Prop := l = x ∨ ∃ c, l = c :: x

/-- The bytes of the record are the last of `x`, and those still to be read the last of `l`. -/
def Seen.Later {α : Type} (l x : List Byte) : Seen α → Prop
  | .ok (_, l', x') => Peeks l' x' ∧ x' <:+ x ∧ l' <:+ l
  | .error (_, x') => x' <:+ x

theorem scanX_length {σ β : Type} (body : σ → Byte → Act σ β) (onEOF : σ → Except Err β) (endErr : Err) (s : σ) (l : List Byte) (x : List Byte)
    (hx : Peeks l x) : (scanX body onEOF endErr s l).Later l x := by
  induction l generalizing s x with
  | nil =>
    simp only [scanX]
    split
    · cases onEOF s
      · exact List.nil_suffix
      · exact ⟨.inl rfl, List.nil_suffix, List.nil_suffix⟩
    · exact List.nil_suffix
  | cons c l ih =>
    have hl : l <:+ x := by
      rcases hx with rfl | ⟨d, h⟩
      · exact List.suffix_cons c l
      · cases h; exact List.suffix_refl _
    simp only [scanX]
    cases body s c with
    | cont s' =>
      have := ih s' l (.inl rfl)
      simp only
      cases hy : scanX body onEOF endErr s' l with
      | ok y =>
        rw [hy] at this
        exact ⟨this.1, this.2.1.trans hl, this.2.2.trans (List.suffix_cons c l)⟩
      | error y =>
        rw [hy] at this
        exact List.IsSuffix.trans this hl
    | stop b => exact ⟨.inr ⟨c, rfl⟩, hl, List.suffix_refl _⟩
    | stopNext b => exact ⟨.inl rfl, hl, List.suffix_cons c l⟩
    | err e => exact hl

theorem peeks_after {l x : List Byte} (hx : Peeks l x) {c : Byte} {l' : List Byte} (h : c :: l' <:+ l) : l' <:+ x := by
  rcases hx with rfl | ⟨d, rfl⟩
  · exact (List.suffix_cons c l').trans h
  · rcases List.suffix_cons_iff.mp h with h | h
    · cases h; exact List.suffix_refl _
    · exact (List.suffix_cons c l').trans h

theorem dec_later (d : Dec) {c : Byte} {l l' x : List Byte} (hx : Peeks l x) (h : c :: l' <:+ l) : (d.runX c l').Later l x := by
  have hl := peeks_after hx h
  cases d with
  | take => exact ⟨.inl rfl, hl, (List.suffix_cons c l').trans h⟩
  | leave => exact ⟨.inr ⟨c, rfl⟩, hl, h⟩
  | fail e => exact hl

theorem op_later {β : Type} (o : Op β) (env : Env) {l x : List Byte} (hx : Peeks l x) : (o.runX env l x).Later l x := by
  cases o with
  | token d =>
    simp only [Op.runX]
    cases h : dropWs l with
    | nil => exact List.nil_suffix
    | cons c l' => exact dec_later _ hx (h ▸ dropWs_suffix l)
  | byte d =>
    simp only [Op.runX]
    cases l with
    | nil => exact List.nil_suffix
    | cons c l' => exact dec_later _ hx (List.suffix_refl _)
  | scan body onEOF s => exact scanX_length _ _ _ _ _ _ hx
  | inputOffset => exact ⟨hx, List.suffix_refl _, List.suffix_refl _⟩
  | remaining => exact ⟨hx, List.suffix_refl _, List.suffix_refl _⟩

theorem Seen.Later.trans {α : Type} {l x l' x' : List Byte} {y : Seen α} (hx : x' <:+ x) (hl : l' <:+ l) (h : y.Later l' x') : y.Later l x := by
  cases y with
  | ok y => exact ⟨h.1, h.2.1.trans hx, h.2.2.trans hl⟩
  | error y => exact List.IsSuffix.trans h hx

theorem prog_later {α : Type} (p : Prog α) (env : Env) {l x : List Byte} (hx : Peeks l x) : (p.runX env l x).Later l x := by
  induction p generalizing l x with
  | pure a => exact ⟨hx, List.suffix_refl _, List.suffix_refl _⟩
  | fail e => exact List.suffix_refl _
  | op o k ih =>
    simp only [Prog.runX]
    have := op_later o env hx
    cases hy : o.runX env l x with
    | ok y =>
      rw [hy] at this
      exact (ih y.1 this.1).trans this.2.1 this.2.2
    | error y =>
      rw [hy] at this
      exact this
  | captured p k ihp ih =>
    simp only [Prog.runX]
    have := ihp hx
    cases hy : p.runX env l x with
    | ok y =>
      rw [hy] at this
      exact (ih _ this.1).trans this.2.1 this.2.2
    | error y =>
      rw [hy] at this
      exact this

/-! ## Only what has been looked at matters -/

/-- The same with more bytes at the end. -/
def Seen.more {α : Type} (r : List Byte) : Seen α → Seen α
  | .ok (a, l, x) => .ok (a, l ++ r, x ++ r)
  | .error (e, x) => .error (e, x ++ r)

/-- The bytes of the record. -/
def Seen.left {α : Type} : Seen α → List Byte
  | .ok (_, _, x) => x
  | .error (_, x) => x

theorem scanX_cut {σ β : Type} {body : σ → Byte → Act σ β} {onEOF : σ → Except Err β} {n : Nat} {s : σ} {v r : List Byte} {y : Seen β}
    (h : scanX body onEOF (.io n) s (v ++ r) = y) (hy : ∀ z, y ≠ .error (.io n, z)) (hr : r <:+ y.left) :
    ∃ y', scanX body onEOF (.io n) s v = y' ∧ y = y'.more r := by
  induction v generalizing s with
  | nil =>
    exfalso
    cases r with
    | nil =>
      simp only [List.nil_append, scanX, reduceCtorEq, if_false] at h
      exact hy _ h.symm
    | cons c r =>
      have key : y.left <:+ r := by
        simp only [List.nil_append, scanX] at h
        cases hb : body s c with
        | cont s' =>
          rw [hb] at h
          have := scanX_length body onEOF (.io n) s' r r (.inl rfl)
          simp only at h
          rw [h] at this
          cases y with
          | ok y => exact this.2.1
          | error y => exact this
        | stop b => rw [hb] at h; subst h; exact List.suffix_refl _
        | stopNext b => rw [hb] at h; subst h; exact List.suffix_refl _
        | err e => rw [hb] at h; subst h; exact List.suffix_refl _
      have := (hr.trans key).length_le
      simp at this
      omega
  | cons c v ih =>
    simp only [List.cons_append, scanX] at h ⊢
    cases hb : body s c with
    | cont s' => rw [hb] at h; exact ih h
    | stop b => rw [hb] at h; subst h; exact ⟨_, rfl, rfl⟩
    | stopNext b => rw [hb] at h; subst h; exact ⟨_, rfl, rfl⟩
    | err e => rw [hb] at h; subst h; exact ⟨_, rfl, rfl⟩

theorem dec_left (d : Dec) (c : Byte) (l : List Byte) : (d.runX c l).left = l := by cases d <;> rfl

theorem dec_more (d : Dec) (c : Byte) (l r : List Byte) : d.runX c (l ++ r) = (d.runX c l).more r := by cases d <;> rfl

theorem dropWs_cut {v : List Byte} (r : List Byte) (h : dropWs v = []) : dropWs (v ++ r) = dropWs r := by
  induction v with
  | nil => rfl
  | cons c v ih =>
    simp only [dropWs, List.dropWhile_cons, List.cons_append] at h ih ⊢
    split at h
    · rename_i hc
      simp only [hc, if_true]
      exact ih h
    · cases h

theorem dropWs_front {v : List Byte} (r : List Byte) {c : Byte} {v' : List Byte} (h : dropWs v = c :: v') : dropWs (v ++ r) = c :: (v' ++ r) := by
  induction v with
  | nil => cases h
  | cons d v ih =>
    simp only [dropWs, List.dropWhile_cons, List.cons_append] at h ih ⊢
    split at h
    · rename_i hc
      simp only [hc, if_true]
      exact ih h
    · rename_i hc
      simp only [hc, if_false]
      cases h
      rfl

theorem short_left {r : List Byte} {c : Byte} {l : List Byte} (h : c :: l <:+ r) (hr : r <:+ l) : False := by
  have h1 := h.length_le
  have h2 := hr.length_le
  simp at h1
  omega

theorem op_cut {β : Type} {o : Op β} (ho : o.Steady) {n T : Nat} {v xv r : List Byte} {y : Seen β}
    (h : o.runX ⟨.io n, T + r.length⟩ (v ++ r) (xv ++ r) = y) (hy : ∀ z, y ≠ .error (.io n, z)) (hr : r <:+ y.left) :
    ∃ y', o.runX ⟨.io n, T⟩ v xv = y' ∧ y = y'.more r := by
  cases o with
  | token d =>
    simp only [Op.runX] at h ⊢
    cases hv : dropWs v with
    | nil =>
      exfalso
      rw [dropWs_cut r hv] at h
      cases hd : dropWs r with
      | nil => rw [hd] at h; exact hy _ h.symm
      | cons c l =>
        rw [hd] at h
        subst h
        simp only [dec_left] at hr
        exact short_left (hd ▸ dropWs_suffix r) hr
    | cons c v' =>
      rw [dropWs_front r hv] at h
      exact ⟨_, rfl, by rw [← h]; exact dec_more _ _ _ _⟩
  | byte d =>
    simp only [Op.runX] at h ⊢
    cases v with
    | nil =>
      exfalso
      cases r with
      | nil => exact hy _ h.symm
      | cons c l =>
        subst h
        simp only [List.nil_append, dec_left] at hr
        exact short_left (List.suffix_refl _) hr
    | cons c v' => exact ⟨_, rfl, by rw [← h]; exact dec_more _ _ _ _⟩
  | scan body onEOF s => exact scanX_cut h hy hr
  | inputOffset =>
    refine ⟨_, rfl, ?_⟩
    rw [← h]
    simp only [Op.runX, Seen.more, List.length_append]
    congr 2
    omega
  | remaining => exact ho.elim

theorem suffix_front {r x y : List Byte} (h : r <:+ x) (hx : x <:+ y ++ r) : ∃ s, x = s ++ r := by
  obtain ⟨s, rfl⟩ := h
  exact ⟨s, rfl⟩

/-- A program that has not looked at `r` gives the same without `r`, unless the bound of a loop is reached. -/
theorem grows_cut {α : Type} {p q : Prog α} (hg : p.Grows q) {n T : Nat} {v xv r : List Byte} (hx : Peeks v xv) {y : Seen α}
    (h : q.runX ⟨.io n, T + r.length⟩ (v ++ r) (xv ++ r) = y) (hy : ∀ z, y ≠ .error (.io n, z)) (hr : r <:+ y.left) :
    (∃ z, p.runX ⟨.io n, T⟩ v xv = .error (.hang, z)) ∨ ∃ y', p.runX ⟨.io n, T⟩ v xv = y' ∧ y = y'.more r := by
  have peeks : ∀ {v xv : List Byte}, Peeks v xv → Peeks (v ++ r) (xv ++ r) := by
    rintro v xv (rfl | ⟨c, rfl⟩)
    · exact .inl rfl
    · exact .inr ⟨c, rfl⟩
  have left_suffix : ∀ {β : Type} {y : Seen β} {l x : List Byte}, y.Later l x → y.left <:+ x := by
    intro β y l x h
    cases y with
    | ok y => exact h.2.1
    | error y => exact h
  induction hg generalizing v xv with
  | pure a => exact .inr ⟨_, rfl, h.symm⟩
  | fail e => exact .inr ⟨_, rfl, h.symm⟩
  | hang q => exact .inl ⟨_, rfl⟩
  | op o k k' ho _ ih =>
    simp only [Prog.runX] at h ⊢
    cases ho' : o.runX ⟨.io n, T + r.length⟩ (v ++ r) (xv ++ r) with
    | error e =>
      rw [ho'] at h
      subst h
      obtain ⟨y', h1, h2⟩ := op_cut ho ho' (fun z hz => hy z (by cases hz; rfl)) hr
      cases y' with
      | ok y' => cases h2
      | error y' => rw [h1]; cases h2; exact .inr ⟨_, rfl, rfl⟩
    | ok z =>
      rw [ho'] at h
      have hl := op_later o ⟨.io n, T + r.length⟩ (peeks hx)
      rw [ho'] at hl
      have hl2 := prog_later (k' z.1) ⟨.io n, T + r.length⟩ hl.1
      simp only at h
      rw [h] at hl2
      obtain ⟨y', h1, h2⟩ := op_cut ho ho' (fun z hz => by cases hz) (hr.trans (left_suffix hl2))
      cases y' with
      | error y' => cases h2
      | ok y' =>
        rw [h1]
        have hl1 := op_later o ⟨.io n, T⟩ hx
        rw [h1] at hl1
        cases h2
        exact ih _ hl1.1 h hy hr
  | remaining k k' _ ih =>
    simp only [Prog.runX, Op.runX] at h ⊢
    exact ih _ _ (by simp) hx h hy hr
  | captured p p' k k' _ _ ihp ih =>
    simp only [Prog.runX] at h ⊢
    cases ho' : p'.runX ⟨.io n, T + r.length⟩ (v ++ r) (xv ++ r) with
    | error e =>
      rw [ho'] at h
      subst h
      rcases ihp hx ho' (fun z hz => hy z (by cases hz; rfl)) hr with ⟨z, h1⟩ | ⟨y', h1, h2⟩
      · rw [h1]; exact .inl ⟨_, rfl⟩
      · cases y' with
        | ok y' => cases h2
        | error y' => rw [h1]; cases h2; exact .inr ⟨_, rfl, rfl⟩
    | ok z =>
      rw [ho'] at h
      have hl := prog_later p' ⟨.io n, T + r.length⟩ (peeks hx)
      rw [ho'] at hl
      simp only at h
      have hl2 := prog_later (k' (z.1, (v ++ r).take ((v ++ r).length - z.2.1.length))) ⟨.io n, T + r.length⟩ hl.1
      rw [h] at hl2
      rcases ihp hx ho' (fun z hz => by cases hz) (hr.trans (left_suffix hl2)) with ⟨z, h1⟩ | ⟨y', h1, h2⟩
      · rw [h1]; exact .inl ⟨_, rfl⟩
      · cases y' with
        | error y' => cases h2
        | ok y' =>
          rw [h1]
          have hl1 := prog_later p ⟨.io n, T⟩ hx
          rw [h1] at hl1
          cases h2
          have ht : (v ++ r).take ((v ++ r).length - (y'.2.1 ++ r).length) = v.take (v.length - y'.2.1.length) := by
            have : (v ++ r).length - (y'.2.1 ++ r).length = v.length - y'.2.1.length := by simp; omega
            rw [this, List.take_append_of_le_length (by omega)]
          simp only [ht] at h
          exact ih _ hl1.1 h hy hr

/-! ## Errors that name the last byte looked at -/

theorem runX_bind {α β : Type} (p : Prog α) (k : α → Prog β) (env : Env) (l x : List Byte) :
    (p >>= k).runX env l x =
      match p.runX env l x with
      | .ok (a, l', x') => (k a).runX env l' x'
      | .error e => .error e := by
  show (Prog.bind p k).runX env l x = _
  induction p generalizing l x with
  | pure a => rfl
  | fail e => rfl
  | op o k' ih =>
    simp only [Prog.bind, Prog.runX]
    cases o.runX env l x with
    | ok y => exact ih _ _ _ _
    | error e => rfl
  | captured p k' _ ih =>
    simp only [Prog.bind, Prog.runX]
    cases p.runX env l x with
    | ok y => exact ih _ _ _ _
    | error e => rfl

/-- Every error of `p`, except the end of the input, names the last byte looked at; that may be `b`, which was looked at before. -/
def Says {α : Type} (b : Option Byte) (p : Prog α) : Prop :=
  ∀ (env : Env) (l x : List Byte) (e : Err) (r : List Byte), Peeks l x → p.runX env l x = .error (e, r) →
    (e = env.endErr ∨ e = .eof ∨ e = .panic ∨ e = .hang) ∨ ∃ c, NamesByte e c ∧ (c :: r <:+ l ∨ r = x ∧ b = some c)

variable {α β : Type} {b : Option Byte}

theorem says_pure (a : α) : Says b (pure a : Prog α) := by intro env l x e r _ h; cases h

theorem says_hang : Says b (Prog.throw .hang : Prog α) := by intro env l x e r _ h; cases h; exact .inl (.inr (.inr (.inr rfl)))

theorem says_throw {e : Err} {c : Byte} (h : NamesByte e c) : Says (some c) (Prog.throw e : Prog α) := by
  intro env l x e r _ h; cases h; exact .inr ⟨c, ‹_›, .inr ⟨rfl, rfl⟩⟩

theorem says_weaken {p : Prog α} (h : Says none p) : Says b p := by
  intro env l x e r hx hr
  rcases h env l x e r hx hr with h | ⟨c, h1, h2⟩
  · exact .inl h
  · exact .inr ⟨c, h1, h2.imp id (fun h => by cases h.2)⟩

theorem says_bind {p : Prog α} {k : α → Prog β} (hp : Says b p) (hk : ∀ a, Says none (k a)) : Says b (p >>= k) := by
  intro env l x e r hx h
  rw [runX_bind] at h
  have hl := prog_later p env hx
  cases hy : p.runX env l x with
  | error y =>
    rw [hy] at h
    cases h
    exact hp env l x _ _ hx hy
  | ok y =>
    rw [hy] at h hl
    rcases hk y.1 env _ _ e r hl.1 h with h | ⟨c, h1, h2⟩
    · exact .inl h
    · exact .inr ⟨c, h1, .inl (h2.elim (fun h => h.trans hl.2.2) (fun h => by cases h.2))⟩

theorem says_dec {d : Dec} {c : Byte} {k : Byte → Prog β} {env : Env} {l l' x : List Byte} {e : Err} {r : List Byte} (hx : Peeks l x)
    (hl : c :: l' <:+ l) (hd : ∀ e, d = .fail e → NamesByte e c) (hk : (∀ e, d ≠ .fail e) → Says (some c) (k c))
    (h : (match d.runX c l' with
      | .ok (a, l', x') => (k a).runX env l' x'
      | .error e => .error e) = .error (e, r)) :
    (e = env.endErr ∨ e = .eof ∨ e = .panic ∨ e = .hang) ∨ ∃ c, NamesByte e c ∧ (c :: r <:+ l ∨ r = x ∧ b = some c) := by
  cases d with
  | take =>
    rcases hk (by simp) env l' l' e r (.inl rfl) h with h | ⟨c', h1, h2⟩
    · exact .inl h
    · refine .inr ⟨c', h1, .inl ?_⟩
      rcases h2 with h2 | ⟨h2, h3⟩
      · exact h2.trans ((List.suffix_cons _ _).trans hl)
      · cases h3; cases h2; exact hl
  | leave =>
    rcases hk (by simp) env (c :: l') l' e r (.inr ⟨c, rfl⟩) h with h | ⟨c', h1, h2⟩
    · exact .inl h
    · refine .inr ⟨c', h1, .inl ?_⟩
      rcases h2 with h2 | ⟨h2, h3⟩
      · exact h2.trans hl
      · cases h3; cases h2; exact hl
  | fail e' => cases h; exact .inr ⟨c, hd _ rfl, .inl hl⟩

theorem says_token {d : Byte → Dec} {k : Byte → Prog β} (hd : ∀ c e, d c = .fail e → NamesByte e c)
    (hk : ∀ c, (∀ e, d c ≠ .fail e) → Says (some c) (k c)) : Says b (token d >>= k) := by
  intro env l x e r hx h
  rw [runX_bind] at h
  simp only [token, Prog.runX, Op.runX] at h
  cases hw : dropWs l with
  | nil => rw [hw] at h; cases h; exact .inl (.inl rfl)
  | cons c l' =>
    rw [hw] at h
    refine says_dec (k := k) hx (hw ▸ dropWs_suffix l) (hd c) (hk c) ?_
    simp only at h
    cases hy : (d c).runX c l' with
    | ok y => rw [hy] at h; exact h
    | error y => rw [hy] at h; exact h

theorem says_byte {d : Byte → Dec} {k : Byte → Prog β} (hd : ∀ c e, d c = .fail e → NamesByte e c)
    (hk : ∀ c, (∀ e, d c ≠ .fail e) → Says (some c) (k c)) : Says b (byte d >>= k) := by
  intro env l x e r hx h
  rw [runX_bind] at h
  simp only [byte, Prog.runX, Op.runX] at h
  cases l with
  | nil => cases h; exact .inl (.inl rfl)
  | cons c l' =>
    refine says_dec (k := k) hx (List.suffix_refl _) (hd c) (hk c) ?_
    simp only at h
    cases hy : (d c).runX c l' with
    | ok y => rw [hy] at h; exact h
    | error y => rw [hy] at h; exact h

theorem says_nextToken {k : Byte → Prog β} (hk : ∀ c, Says (some c) (k c)) : Says b (nextTokenTake >>= k) :=
  says_token (by intro c e h; cases h) fun c _ => hk c

theorem says_nextByte {k : Byte → Prog β} (hk : ∀ c, Says (some c) (k c)) : Says b (nextByteTake >>= k) :=
  says_byte (by intro c e h; cases h) fun c _ => hk c

theorem says_remaining {k : Nat → Prog β} (hk : ∀ n, Says b (k n)) : Says b (remaining >>= k) := by
  intro env l x e r hx h
  rw [runX_bind] at h
  exact hk l.length env l x e r hx h

theorem says_ofExcept {y : Except Err α} {k : α → Prog β} (hy : ∀ e, y = .error e → e = .panic) (hk : ∀ a, Says b (k a)) :
    Says b (Prog.ofExcept y >>= k) := by
  intro env l x e r hx h
  rw [runX_bind] at h
  cases y with
  | ok a => exact hk a env l x e r hx h
  | error e' => cases h; exact .inl (.inr (.inr (.inl (hy _ rfl))))

theorem says_scan {σ : Type} {body : σ → Byte → Act σ β} {onEOF : σ → Except Err β} {s : σ}
    (hb : ∀ s c e, body s c = .err e → NamesByte e c ∨ e = .panic) (ho : ∀ s e, onEOF s = .error e → e = .eof) : Says b (scan body onEOF s) := by
  intro env l x e r hx h
  clear hx
  simp only [scan, Prog.runX, Op.runX] at h
  have h' : scanX body onEOF env.endErr s l = .error (e, r) := by
    cases hy : scanX body onEOF env.endErr s l with
    | ok y => rw [hy] at h; cases h
    | error y => rw [hy] at h; exact h
  clear h
  induction l generalizing s with
  | nil =>
    simp only [scanX] at h'
    split at h'
    · cases hy : onEOF s with
      | ok y => rw [hy] at h'; cases h'
      | error y => rw [hy] at h'; cases h'; exact .inl (.inr (.inl (ho _ _ hy)))
    · cases h'; exact .inl (.inl rfl)
  | cons c l ih =>
    simp only [scanX] at h'
    cases hc : body s c with
    | cont s' =>
      rw [hc] at h'
      rcases ih h' with h | ⟨c', h1, h2⟩
      · exact .inl h
      · exact .inr ⟨c', h1, h2.imp (fun h => h.trans (List.suffix_cons c l)) id⟩
    | stop y => rw [hc] at h'; cases h'
    | stopNext y => rw [hc] at h'; cases h'
    | err e' =>
      rw [hc] at h'
      cases h'
      rcases hb _ _ _ hc with h | h
      · exact .inr ⟨c, h, .inl (List.suffix_refl _)⟩
      · exact .inl (.inr (.inr (.inl h)))

/-! ## `Skip` -/

theorem says_expectBytes (s : List Byte) : Says b (expectBytes s) := by
  refine says_scan ?_ (by intro s e h; cases h; rfl)
  intro s c e h
  unfold expectBody at h
  split at h
  · cases h; exact .inr rfl
  · split at h
    · cases h; exact .inl rfl
    · split at h <;> cases h

theorem says_skipU4 : Says b skipU4 := by
  refine says_scan ?_ (by intro s e h; cases h; rfl)
  intro s c e h
  unfold skipU4Body at h
  split at h
  · cases h; exact .inl rfl
  · split at h <;> cases h

theorem says_skipEscapedChar : Says b skipEscapedChar := by
  unfold skipEscapedChar
  refine says_byte ?_ fun c _ => ?_
  · intro c e h
    split at h
    · cases h
    · split at h <;> cases h
      rfl
  · split
    · exact says_pure _
    · exact says_skipU4

theorem says_skipStringLoop (n : Nat) : Says b (skipStringLoop n) := by
  induction n generalizing b with
  | zero => exact says_hang
  | succ n ih =>
    unfold skipStringLoop
    refine says_bind (says_scan ?_ (by intro s e h; cases h; rfl)) fun st => ?_
    · intro s c e h
      unfold skipStrBody at h
      split at h
      · cases h
      · split at h
        · cases h
        · split at h <;> cases h
          exact .inl rfl
    · cases st with
      | quote => exact says_pure _
      | backslash => exact says_bind says_skipEscapedChar fun _ => ih

theorem says_skipString : Says b skipString := says_remaining fun _ => says_skipStringLoop _

theorem says_exponentDigits (c : Byte) : Says (some c) (skipExponentDigits c) := by
  unfold skipExponentDigits
  split
  · exact says_throw rfl
  · refine says_scan ?_ (by intro s e h; cases h)
    intro s c e h
    unfold expBody at h
    split at h <;> cases h

theorem says_exponentPart : Says b skipExponentPart := by
  unfold skipExponentPart
  refine says_nextByte fun c => ?_
  split
  · exact says_nextByte fun c => says_exponentDigits c
  · exact says_exponentDigits c

theorem names_digit (c : Byte) (e : Err) (h : (if intDigit c = none then Dec.fail (.invalidDigit c) else .take) = .fail e) : NamesByte e c := by
  split at h <;> cases h
  rfl

theorem says_fractionPart : Says b skipFractionPart := by
  unfold skipFractionPart
  refine says_byte names_digit fun c _ => says_bind (says_scan ?_ (by intro s e h; cases h)) fun st => ?_
  · intro s c e h
    unfold fracBody at h
    split at h <;> cases h
  · cases st
    · exact says_pure _
    · exact says_exponentPart
    · exact says_pure _

theorem says_skipUnsigned (c : Byte) : Says b (skipUnsigned c) := by
  unfold skipUnsigned
  split
  · refine says_bind (says_scan ?_ (by intro s e h; cases h)) fun st => ?_
    · intro s c e h
      simp only at h
      split at h <;> cases h
    · cases st with
      | none => exact says_pure _
      | some c =>
        simp only
        split
        · exact says_fractionPart
        · exact says_exponentPart
        · exact says_pure _
  · refine says_bind (says_scan ?_ (by intro s e h; cases h)) fun st => ?_
    · intro s c e h
      unfold intBody at h
      split at h <;> cases h
    · cases st
      · exact says_fractionPart
      · exact says_exponentPart
      · exact says_pure _

theorem says_skipNumber (c : Byte) : Says b (skipNumber c) := by
  unfold skipNumber
  split
  · exact says_byte names_digit fun c _ => says_skipUnsigned c
  · exact says_skipUnsigned c

theorem says_skipScalar (c : Byte) : Says (some c) (skipScalar c) := by
  unfold skipScalar
  repeat' split
  · exact says_skipString
  · exact says_expectBytes _
  · exact says_expectBytes _
  · exact says_expectBytes _
  · exact says_skipNumber c
  · exact says_throw rfl

theorem says_skipObjectField : Says b skipObjectField := by
  unfold skipObjectField
  refine says_bind says_skipString fun _ => says_token ?_ fun _ _ => says_pure _
  intro c e h
  split at h <;> cases h
  rfl

theorem push_panics (s : Stack) (e : Err) : (s.pushObject = .error e → e = .panic) ∧ (s.pushArray = .error e → e = .panic) := by
  constructor <;> intro h
  · unfold Stack.pushObject at h
    simp only at h
    split at h
    · cases h
    · split at h <;> cases h
      rfl
  · unfold Stack.pushArray at h
    simp only at h
    split at h
    · cases h
    · split at h <;> cases h
      rfl

theorem pop_panics (s : Stack) (e : Err) (h : s.pop = .error e) : e = .panic := by
  unfold Stack.pop at h
  simp only at h
  split at h
  · cases h
  · split at h <;> cases h
    rfl

theorem says_skipMember {again : StackElem → Stack → Prog Unit} (h : ∀ t s, Says none (again t s)) (s : Stack) : Says b (skipMember again s) := by
  unfold skipMember
  refine says_bind says_skipObjectField fun _ => says_nextToken fun c => ?_
  split
  · exact says_ofExcept (fun e => (push_panics s e).1) fun _ => says_weaken (h _ _)
  · split
    · exact says_ofExcept (fun e => (push_panics s e).1) fun _ => says_weaken (h _ _)
    · exact says_bind (says_skipScalar c) fun _ => h _ _

theorem says_skipElement {again : StackElem → Stack → Prog Unit} (h : ∀ t s, Says none (again t s)) (s : Stack) (c : Byte) :
    Says (some c) (skipElement again s c) := by
  unfold skipElement
  split
  · exact says_ofExcept (fun e => (push_panics s e).2) fun _ => says_weaken (h _ _)
  · split
    · exact says_ofExcept (fun e => (push_panics s e).2) fun _ => says_weaken (h _ _)
    · exact says_bind (says_skipScalar c) fun _ => h _ _

theorem says_skipWithStack (k : Nat) (t : StackElem) (s : Stack) : Says none (skipWithStack k t s) := by
  induction k generalizing t s with
  | zero => exact says_hang
  | succ k ih =>
    have hpop : ∀ {c : Byte}, Says (some c) (do
        let (top, s) ← Prog.ofExcept s.pop
        if top = .none then pure () else skipWithStack k top s) := by
      intro c
      refine says_ofExcept (pop_panics s) fun x => ?_
      split
      split
      · exact says_pure _
      · exact says_weaken (ih _ _)
    have hx : ∀ a b c : Byte, Says (some a) (Prog.throw (.unexpectedByte a b c) : Prog Unit) := fun _ _ _ => says_throw rfl
    unfold skipWithStack
    refine says_nextToken fun c => ?_
    split
    · split
      · exact hpop
      · split
        · split
          · exact hx _ _ _
          · refine says_nextToken fun c => ?_
            split
            · exact hx _ _ _
            · exact says_skipMember ih s
        · split
          · exact hx _ _ _
          · exact says_skipMember ih s
    · split
      · exact hpop
      · split
        · split
          · exact hx _ _ _
          · exact says_nextToken fun c => says_skipElement ih s c
        · exact says_skipElement ih s c

theorem says_skipArrayLoop (pool : Stack) (k : Nat) (c : Byte) : Says (some c) (skipArrayLoop pool k c) := by
  induction k generalizing c with
  | zero => exact says_hang
  | succ k ih =>
    unfold skipArrayLoop
    split
    · exact says_remaining fun _ => says_weaken (says_skipWithStack _ _ _)
    · split
      · exact says_remaining fun _ => says_weaken (says_skipWithStack _ _ _)
      · refine says_bind (says_skipScalar c) fun _ => says_nextToken fun c => ?_
        split
        · exact says_pure _
        · split
          · exact says_throw rfl
          · exact says_nextToken fun c => ih c

theorem says_skipObjectLoop (pool : Stack) (k : Nat) : Says b (skipObjectLoop pool k) := by
  induction k generalizing b with
  | zero => exact says_hang
  | succ k ih =>
    unfold skipObjectLoop
    refine says_bind says_skipObjectField fun _ => says_nextToken fun c => ?_
    split
    · exact says_remaining fun _ => says_weaken (says_skipWithStack _ _ _)
    · split
      · exact says_remaining fun _ => says_weaken (says_skipWithStack _ _ _)
      · refine says_bind (says_skipScalar c) fun _ => says_nextToken fun c => ?_
        split
        · exact says_pure _
        · split
          · exact says_throw rfl
          · refine says_token ?_ fun _ _ => ih
            intro c e h
            split at h <;> cases h
            rfl

theorem says_skipFunction (pool : Stack) (c : Byte) : Says (some c) (skipFunction pool c) := by
  unfold skipFunction
  split
  · unfold skipArrayWithStack
    refine says_nextToken fun c => ?_
    split
    · exact says_pure _
    · exact says_remaining fun _ => says_skipArrayLoop _ _ _
  · split
    · unfold skipObjectWithStack
      refine says_token ?_ fun c _ => ?_
      · intro c e h
        split at h
        · cases h
        · split at h <;> cases h
          rfl
      · split
        · exact says_pure _
        · exact says_remaining fun _ => says_skipObjectLoop _ _
    · exact says_skipScalar c

theorem says_Skip (pool : Stack) : Says none (Skip pool) := says_nextToken fun c => says_skipFunction pool c

end Jzon
