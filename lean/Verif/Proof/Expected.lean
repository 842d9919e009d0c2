import Verif.Proof.Blame

/-!
# What an error says was expected

Two runs of the same program are compared, on bytes that differ in the last one only: the first fails at it, the second has there a byte that
the error of the first asks for.
-/

set_option linter.unusedSimpArgs false

namespace Jzon

open Spec

/-! ## The last byte does not matter before it is looked at -/

theorem scanX_swap {σ β : Type} {body : σ → Byte → Act σ β} {onEOF : σ → Except Err β} {x : Err} {s : σ} {v : List Byte} {c y : Byte} {R : Seen β}
    (h : scanX body onEOF x s (v ++ [c]) = R) (hr : [c] <:+ R.left) :
    ∃ R' : Seen β, R = R'.more [c] ∧ scanX body onEOF x s (v ++ [y]) = R'.more [y] := by
  induction v generalizing s with
  | nil =>
    exfalso
    have key : R.left <:+ [] := by
      simp only [List.nil_append, scanX] at h
      cases hb : body s c with
      | cont s' =>
        rw [hb] at h
        simp only at h
        split at h
        · split at h <;> (subst h; exact List.suffix_refl _)
        · subst h; exact List.suffix_refl _
      | stop b => rw [hb] at h; subst h; exact List.suffix_refl _
      | stopNext b => rw [hb] at h; subst h; exact List.suffix_refl _
      | err e => rw [hb] at h; subst h; exact List.suffix_refl _
    have := (hr.trans key).length_le
    simp at this
  | cons d v ih =>
    simp only [List.cons_append, scanX] at h ⊢
    cases hb : body s d with
    | cont s' => rw [hb] at h; exact ih h
    | stop b => rw [hb] at h; subst h; exact ⟨.ok (b, d :: v, v), rfl, rfl⟩
    | stopNext b => rw [hb] at h; subst h; exact ⟨.ok (b, v, v), rfl, rfl⟩
    | err e => rw [hb] at h; subst h; exact ⟨.error (e, v), rfl, rfl⟩

theorem op_swap {β : Type} {o : Op β} {env : Env} {v xv : List Byte} {c y : Byte} {R : Seen β}
    (h : o.runX env (v ++ [c]) (xv ++ [c]) = R) (hr : [c] <:+ R.left) :
    ∃ R' : Seen β, R = R'.more [c] ∧ o.runX env (v ++ [y]) (xv ++ [y]) = R'.more [y] := by
  cases o with
  | token d =>
    simp only [Op.runX] at h ⊢
    cases hv : dropWs v with
    | nil =>
      exfalso
      rw [dropWs_cut _ hv] at h
      cases hd : dropWs [c] with
      | nil => rw [hd] at h; subst h; have := hr.length_le; simp [Seen.left] at this
      | cons d l =>
        rw [hd] at h
        subst h
        simp only [dec_left] at hr
        exact short_left (hd ▸ dropWs_suffix [c]) hr
    | cons d' v' =>
      rw [dropWs_front _ hv] at h ⊢
      exact ⟨_, by rw [← h]; exact dec_more _ _ _ _, dec_more _ _ _ _⟩
  | byte d =>
    simp only [Op.runX] at h ⊢
    cases v with
    | nil =>
      exfalso
      subst h
      simp only [List.nil_append, dec_left] at hr
      exact short_left (List.suffix_refl _) hr
    | cons d' v' => exact ⟨_, by rw [← h]; exact dec_more _ _ _ _, dec_more _ _ _ _⟩
  | scan body onEOF s => exact scanX_swap h hr
  | inputOffset => exact ⟨.ok (env.total - (v ++ [c]).length, v, xv), by rw [← h]; rfl, by simp [Op.runX, Seen.more]⟩
  | remaining => exact ⟨.ok ((v ++ [c]).length, v, xv), by rw [← h]; rfl, by simp [Op.runX, Seen.more]⟩

theorem peeks_more {v xv : List Byte} (h : Peeks v xv) (r : List Byte) : Peeks (v ++ r) (xv ++ r) := by
  rcases h with rfl | ⟨c, rfl⟩
  · exact .inl rfl
  · exact .inr ⟨c, rfl⟩

theorem left_later {β : Type} {R : Seen β} {l x : List Byte} (h : R.Later l x) : R.left <:+ x := by
  cases R with
  | ok R => exact h.2.1
  | error R => exact h

theorem peeks_less {v xv r : List Byte} (h : Peeks (v ++ r) (xv ++ r)) : Peeks v xv := by
  rcases h with h | ⟨c, h⟩
  · exact .inl (List.append_cancel_right h)
  · exact .inr ⟨c, List.append_cancel_right (h.trans (List.cons_append ..).symm)⟩

theorem prog_swap {α : Type} {p : Prog α} {env : Env} {v xv : List Byte} {c : Byte} (y : Byte) (hx : Peeks v xv) {R : Seen α}
    (h : p.runX env (v ++ [c]) (xv ++ [c]) = R) (hr : [c] <:+ R.left) :
    ∃ R' : Seen α, R = R'.more [c] ∧ p.runX env (v ++ [y]) (xv ++ [y]) = R'.more [y] := by
  induction p generalizing v xv with
  | pure a => exact ⟨.ok (a, v, xv), h.symm, rfl⟩
  | fail e => exact ⟨.error (e, xv), h.symm, rfl⟩
  | op o k ih =>
    simp only [Prog.runX] at h ⊢
    have hl := op_later o env (peeks_more hx [c])
    cases ho : o.runX env (v ++ [c]) (xv ++ [c]) with
    | error e =>
      rw [ho] at h
      subst h
      obtain ⟨R', h1, h2⟩ := op_swap (y := y) ho hr
      cases R' with
      | ok z => cases h1
      | error z => cases h1; exact ⟨.error z, rfl, by rw [h2]; rfl⟩
    | ok z =>
      rw [ho] at h hl
      simp only at h
      have hl2 := prog_later (k z.1) env hl.1
      rw [h] at hl2
      obtain ⟨R', h1, h2⟩ := op_swap (y := y) ho (hr.trans (left_later hl2))
      cases R' with
      | error z => cases h1
      | ok z' =>
        cases h1
        rw [h2]
        exact ih _ (peeks_less hl.1) h hr
  | captured p k ihp ih =>
    simp only [Prog.runX] at h ⊢
    have hl := prog_later p env (peeks_more hx [c])
    cases ho : p.runX env (v ++ [c]) (xv ++ [c]) with
    | error e =>
      rw [ho] at h
      subst h
      obtain ⟨R', h1, h2⟩ := ihp hx ho hr
      cases R' with
      | ok z => cases h1
      | error z => cases h1; exact ⟨.error z, rfl, by rw [h2]; rfl⟩
    | ok z =>
      rw [ho] at h hl
      simp only at h
      have hl2 := prog_later (k (z.1, (v ++ [c]).take ((v ++ [c]).length - z.2.1.length))) env hl.1
      rw [h] at hl2
      obtain ⟨R', h1, h2⟩ := ihp hx ho (hr.trans (left_later hl2))
      cases R' with
      | error z => cases h1
      | ok z' =>
        cases h1
        rw [h2]
        have ht : ∀ b : Byte, (v ++ [b]).take ((v ++ [b]).length - (z'.2.1 ++ [b]).length) = v.take (v.length - z'.2.1.length) := by
          intro b
          have : (v ++ [b]).length - (z'.2.1 ++ [b]).length = v.length - z'.2.1.length := by simp
          rw [this, List.take_append_of_le_length (by omega)]
        simp only [Seen.more, ht] at h ⊢
        exact ih _ (peeks_less hl.1) h hr

/-! ## The notions -/

/-- Nothing is wrong yet, and nothing is left. -/
def SoFar {α : Type} (n : Nat) (R : Seen α) : Prop := (∃ a x, R = .ok (a, [], x)) ∨ ∃ e z, R = .error (e, z) ∧ (e = .io n ∨ e = .hang ∨ e = .panic)

/-- On no bytes nothing is wrong. -/
def Idle {α : Type} (p : Prog α) : Prop := ∀ n T x, SoFar n (p.runX ⟨.io n, T⟩ [] x)

/-- `y` is a byte that is asked for. -/
def Asked (a b y : Byte) : Prop := (y = a ∨ y = b) ∧ y ≠ 0

/-- When `p` fails at the last byte, it would not have failed at one that its error asks for. -/
def WouldFit {α : Type} (p : Prog α) : Prop :=
  ∀ n T v xv c a b y, Peeks v xv → p.runX ⟨.io n, T⟩ (v ++ [c]) (xv ++ [c]) = .error (.unexpectedByte c a b, []) → Asked a b y →
    SoFar n (p.runX ⟨.io n, T⟩ (v ++ [y]) (xv ++ [y]))

/-- When `p` stops before the last byte, it also stops before the bytes of `E`. -/
def StopsAt {α : Type} (E : Byte → Prop) (p : Prog α) : Prop :=
  ∀ n T v c y a, E y → p.runF ⟨.io n, T⟩ (v ++ [c]) = .ok (a, [c]) → p.runF ⟨.io n, T⟩ (v ++ [y]) = .ok (a, [y])

/-- When `p` fails at the only byte, then one of `E` was asked for, and would have been right. -/
def After {α : Type} (E : Byte → Prop) (p : Prog α) : Prop :=
  ∀ n T c a b y x x' z, p.runX ⟨.io n, T⟩ [c] x = .error (.unexpectedByte c a b, z) → Asked a b y →
    E y ∧ SoFar n (p.runX ⟨.io n, T⟩ [y] x')

/-- `d` and `k` applied to a byte with nothing behind it. -/
def atLast {β : Type} (d : Byte → Dec) (k : Byte → Prog β) (env : Env) (c : Byte) : Seen β :=
  match (d c).runX c [] with
  | .ok (a, l', x') => (k a).runX env l' x'
  | .error e => .error e

/-- The same for a token, of which only the byte itself is looked at. -/
def Asks {β : Type} (E : Byte → Prop) (d : Byte → Dec) (k : Byte → Prog β) : Prop :=
  ∀ n T c a b y z, atLast d k ⟨.io n, T⟩ c = .error (.unexpectedByte c a b, z) → Asked a b y →
    E y ∧ isWs y = false ∧ SoFar n (atLast d k ⟨.io n, T⟩ y)

/-- None of the errors asks for a byte. -/
def Silent {α : Type} (p : Prog α) : Prop :=
  ∀ env l x c a b z, p.runX env l x = .error (.unexpectedByte c a b, z) → env.endErr ≠ .unexpectedByte c a b → a = 0 ∧ b = 0

variable {α β : Type} {E : Byte → Prop}

theorem fits_silent {p : Prog α} (h : Silent p) : WouldFit p := by
  intro n T v xv c a b y _ h1 h2
  obtain ⟨rfl, rfl⟩ := h _ _ _ _ _ _ _ h1 (by simp)
  exact absurd (h2.1.elim id id) h2.2

theorem fits_bind {p : Prog α} {k : α → Prog β} (hp : WouldFit p) (hs : StopsAt E p) (hk : ∀ a, WouldFit (k a)) (hi : ∀ a, Idle (k a))
    (ha : ∀ a, After E (k a)) : WouldFit (p >>= k) := by
  intro n T v xv c a b y hx h hy
  rw [runX_bind] at h ⊢
  have hl := prog_later p ⟨.io n, T⟩ (peeks_more hx [c])
  cases hR : p.runX ⟨.io n, T⟩ (v ++ [c]) (xv ++ [c]) with
  | error z =>
    rw [hR] at h
    cases h
    rcases hp n T v xv c a b y hx hR hy with ⟨z, x, h1⟩ | ⟨e, z, h1, h2⟩
    · rw [h1]; exact hi z n T x
    · rw [h1]; exact .inr ⟨e, z, rfl, h2⟩
  | ok z =>
    rw [hR] at h hl
    obtain ⟨w, l', x'⟩ := z
    simp only at h
    rcases List.eq_nil_or_concat x' with rfl | ⟨xv', c', rfl⟩
    · rcases hl.1 with rfl | ⟨d, rfl⟩
      · rcases hi w n T [] with ⟨z, x, h1⟩ | ⟨e, z, h1, h2⟩
        · rw [h1] at h; cases h
        · rw [h1] at h; cases h; rcases h2 with h2 | h2 | h2 <;> cases h2
      · have hd : d = c := by
          obtain ⟨t, ht⟩ := hl.2.2
          exact (List.cons.inj (List.append_inj' ht rfl).2).1
        subst hd
        have h1 := (ha w n T d a b y [] [] [] h hy).1
        have hf := prog_forget p ⟨.io n, T⟩ (v ++ [d]) (xv ++ [d])
        rw [hR] at hf
        have hg := hs n T v d y w h1 hf
        rw [prog_forget p _ _ (xv ++ [y])] at hg
        cases hq : p.runX ⟨.io n, T⟩ (v ++ [y]) (xv ++ [y]) with
        | ok q =>
          obtain ⟨q1, q2, q3⟩ := q
          rw [hq] at hg
          cases hg
          exact (ha _ n T d a b y [] _ [] h hy).2
        | error q => rw [hq] at hg; cases hg
    · have hc : c' = c ∧ xv' <:+ xv := by
        obtain ⟨t, ht⟩ := hl.2.1
        rw [List.concat_eq_append, ← List.append_assoc] at ht
        have := List.append_inj' ht rfl
        exact ⟨(List.cons.inj this.2).1, ⟨t, this.1⟩⟩
      obtain ⟨rfl, _⟩ := hc
      rw [List.concat_eq_append] at hR h hl
      obtain ⟨R', h1, h2⟩ := prog_swap y hx hR ⟨xv', rfl⟩
      cases R' with
      | error z => cases h1
      | ok z =>
        obtain ⟨w', v', xv''⟩ := z
        simp only [Seen.more, Except.ok.injEq, Prod.mk.injEq] at h1
        obtain ⟨rfl, rfl, h3⟩ := h1
        cases List.append_cancel_right h3
        rw [h2]
        exact hk w n T v' xv' c' a b y (peeks_less hl.1) h hy

theorem runX_token (d : Byte → Dec) (k : Byte → Prog β) (env : Env) (l x : List Byte) : (token d >>= k).runX env l x =
    match dropWs l with
    | [] => .error (env.endErr, [])
    | c :: l' =>
      match (d c).runX c l' with
      | .ok (a, l', x') => (k a).runX env l' x'
      | .error e => .error e := by
  rw [runX_bind]
  simp only [token, Prog.runX, Op.runX]
  cases dropWs l with
  | nil => rfl
  | cons c l' => simp only; cases (d c).runX c l' <;> rfl

theorem dropWs_one {c : Byte} (h : isWs c = false) : dropWs [c] = [c] := by simp [dropWs, h]

theorem dropWs_none {c : Byte} (h : isWs c = true) : dropWs [c] = [] := by simp [dropWs, h]

theorem fits_token {d : Byte → Dec} {k : Byte → Prog β} (h0 : Asks E d k) (hk : ∀ c, WouldFit (k c)) : WouldFit (token d >>= k) := by
  intro n T v xv c a b y hx h hy
  rw [runX_token] at h ⊢
  cases hv : dropWs v with
  | nil =>
    rw [dropWs_cut _ hv] at h ⊢
    cases hw : isWs c with
    | true => rw [dropWs_none hw] at h; cases h
    | false =>
      rw [dropWs_one hw] at h
      obtain ⟨_, h1, h2⟩ := h0 n T c a b y [] h hy
      rw [dropWs_one h1]
      exact h2
  | cons e v' =>
    rw [dropWs_front _ hv] at h ⊢
    simp only at h ⊢
    cases hd : d e with
    | take => rw [hd] at h; exact hk e n T v' v' c a b y (.inl rfl) h hy
    | leave => rw [hd] at h; exact hk e n T (e :: v') v' c a b y (.inr ⟨e, rfl⟩) h hy
    | fail x =>
      rw [hd] at h
      simp only [Dec.runX, Except.error.injEq, Prod.mk.injEq] at h
      have := congrArg List.length h.2
      simp at this

theorem after_token {d : Byte → Dec} {k : Byte → Prog β} (h0 : Asks E d k) : After E (token d >>= k) := by
  intro n T c a b y x x' z h hy
  rw [runX_token] at h ⊢
  cases hw : isWs c with
  | true => rw [dropWs_none hw] at h; cases h
  | false =>
    rw [dropWs_one hw] at h
    obtain ⟨h1, h2, h3⟩ := h0 n T c a b y z h hy
    rw [dropWs_one h2]
    exact ⟨h1, h3⟩

theorem idle_token {d : Byte → Dec} {k : Byte → Prog β} : Idle (token d >>= k) := by
  intro n T x
  rw [runX_token]
  exact .inr ⟨_, _, rfl, .inl rfl⟩

theorem fits_remaining {k : Nat → Prog β} (h : ∀ m, WouldFit (k m)) : WouldFit (remaining >>= k) := by
  intro n T v xv c a b y hx h1 hy
  rw [runX_bind] at h1 ⊢
  have := h (v ++ [c]).length n T v xv c a b y hx h1 hy
  simp only [List.length_append, List.length_singleton] at this
  simpa only [remaining, Prog.runX, Op.runX, List.length_append, List.length_singleton] using this

theorem idle_remaining {k : Nat → Prog β} (h : ∀ m, Idle (k m)) : Idle (remaining >>= k) := by
  intro n T x
  rw [runX_bind]
  exact h 0 n T x

theorem fits_ofExcept {r : Except Err α} {k : α → Prog β} (hr : ∀ e, r = .error e → e = .panic) (h : ∀ a, WouldFit (k a)) :
    WouldFit (Prog.ofExcept r >>= k) := by
  intro n T v xv c a b y hx h1 hy
  rw [runX_bind] at h1 ⊢
  cases r with
  | ok w => exact h w n T v xv c a b y hx h1 hy
  | error e => cases hr e rfl; cases h1

theorem idle_ofExcept {r : Except Err α} {k : α → Prog β} (hr : ∀ e, r = .error e → e = .panic) (h : ∀ a, Idle (k a)) :
    Idle (Prog.ofExcept r >>= k) := by
  intro n T x
  rw [runX_bind]
  cases r with
  | ok w => exact h w n T x
  | error e => cases hr e rfl; exact .inr ⟨_, _, rfl, .inr (.inr rfl)⟩

theorem fits_pure (a : α) : WouldFit (pure a : Prog α) := by intro n T v xv c a b y _ h; cases h
theorem idle_pure (a : α) : Idle (pure a : Prog α) := fun _ _ x => .inl ⟨a, x, rfl⟩
theorem idle_hang : Idle (Prog.throw .hang : Prog α) := fun _ _ x => .inr ⟨_, x, rfl, .inr (.inl rfl)⟩
theorem fits_hang : WouldFit (Prog.throw .hang : Prog α) := by intro n T v xv c a b y _ h; cases h

/-- A byte that was taken before is asked about only in what the caller sees. -/
theorem fits_throw (e : Err) : WouldFit (Prog.throw e : Prog α) := by
  intro n T v xv c a b y _ h
  simp only [Prog.throw, Prog.runX, Except.error.injEq, Prod.mk.injEq] at h
  have := congrArg List.length h.2
  simp at this

theorem runX_assoc {γ : Type} (p : Prog α) (q : α → Prog β) (k : β → Prog γ) (env : Env) (l x : List Byte) :
    ((p >>= q) >>= k).runX env l x = (p >>= fun a => q a >>= k).runX env l x := by
  simp only [runX_bind]
  cases p.runX env l x with
  | ok z => simp only [runX_bind]
  | error z => rfl

theorem fits_assoc {γ : Type} {p : Prog α} {q : α → Prog β} {k : β → Prog γ} (h : WouldFit (p >>= fun a => q a >>= k)) : WouldFit ((p >>= q) >>= k) := by
  intro n T v xv c a b y hx h1 hy
  rw [runX_assoc] at h1 ⊢
  exact h n T v xv c a b y hx h1 hy

theorem idle_assoc {γ : Type} {p : Prog α} {q : α → Prog β} {k : β → Prog γ} (h : Idle (p >>= fun a => q a >>= k)) : Idle ((p >>= q) >>= k) := by
  intro n T x
  rw [runX_assoc]
  exact h n T x

/-! ## Errors that ask for nothing -/

theorem silent_pure (a : α) : Silent (pure a : Prog α) := by intro env l x c a b z h; cases h

theorem silent_throw {e : Err} (h : ∀ c a b, e = .unexpectedByte c a b → a = 0 ∧ b = 0) : Silent (Prog.throw e : Prog α) := by
  intro env l x c a b z h1 _
  cases h1
  exact h _ _ _ rfl

theorem silent_bind {p : Prog α} {k : α → Prog β} (hp : Silent p) (hk : ∀ a, Silent (k a)) : Silent (p >>= k) := by
  intro env l x c a b z h he
  rw [runX_bind] at h
  cases hR : p.runX env l x with
  | ok w => rw [hR] at h; exact hk _ _ _ _ _ _ _ _ h he
  | error w => rw [hR] at h; cases h; exact hp _ _ _ _ _ _ _ hR he

theorem silent_remaining : Silent remaining := by intro env l x c a b z h; cases h

theorem silent_byte {d : Byte → Dec} (h : ∀ e c a b, d e = .fail (.unexpectedByte c a b) → a = 0 ∧ b = 0) : Silent (byte d) := by
  intro env l x c a b z h1 he
  simp only [byte, Prog.runX, Op.runX] at h1
  cases l with
  | nil => simp only [Except.error.injEq, Prod.mk.injEq] at h1; exact absurd h1.1 he
  | cons e l =>
    simp only at h1
    cases hd : d e with
    | take => rw [hd] at h1; cases h1
    | leave => rw [hd] at h1; cases h1
    | fail e' => rw [hd] at h1; cases h1; exact h _ _ _ _ hd

theorem silent_scan {σ : Type} {body : σ → Byte → Act σ β} {onEOF : σ → Except Err β} {s : σ}
    (hb : ∀ s e c a b, body s e = .err (.unexpectedByte c a b) → a = 0 ∧ b = 0) (ho : ∀ s e, onEOF s = .error e → e = .eof) :
    Silent (scan body onEOF s) := by
  intro env l x c a b z h he
  simp only [scan, Prog.runX, Op.runX] at h
  have h' : scanX body onEOF env.endErr s l = .error (.unexpectedByte c a b, z) := by
    cases hy : scanX body onEOF env.endErr s l with
    | ok y => rw [hy] at h; cases h
    | error y => rw [hy] at h; exact h
  clear h
  induction l generalizing s with
  | nil =>
    simp only [scanX] at h'
    split at h'
    · cases hy : onEOF s with
      | ok y => rw [hy] at h'; cases h'
      | error y => rw [hy] at h'; cases h'; cases ho _ _ hy
    · simp only [Except.error.injEq, Prod.mk.injEq] at h'; exact absurd h'.1 he
  | cons e l ih =>
    simp only [scanX] at h'
    cases hc : body s e with
    | cont s' => rw [hc] at h'; exact ih h'
    | stop y => rw [hc] at h'; cases h'
    | stopNext y => rw [hc] at h'; cases h'
    | err e' => rw [hc] at h'; cases h'; exact hb _ _ _ _ _ hc

theorem silent_skipEscapedChar : Silent skipEscapedChar := by
  unfold skipEscapedChar
  refine silent_bind (silent_byte ?_) fun c => ?_
  · intro e c a b h
    split at h
    · cases h
    · split at h <;> cases h
  · split
    · exact silent_pure _
    · refine silent_scan ?_ (by intro s e h; cases h; rfl)
      intro s e c a b h
      unfold skipU4Body at h
      split at h
      · cases h
      · split at h <;> cases h

theorem silent_skipStringLoop (n : Nat) : Silent (skipStringLoop n) := by
  induction n with
  | zero => exact silent_throw (by simp)
  | succ n ih =>
    unfold skipStringLoop
    refine silent_bind (silent_scan ?_ (by intro s e h; cases h; rfl)) fun st => ?_
    · intro s e c a b h
      unfold skipStrBody at h
      split at h
      · cases h
      · split at h
        · cases h
        · split at h <;> cases h
    · cases st with
      | quote => exact silent_pure _
      | backslash => exact silent_bind silent_skipEscapedChar fun _ => ih

theorem silent_skipString : Silent skipString := silent_bind silent_remaining fun _ => silent_skipStringLoop _

theorem silent_exponentDigits (c : Byte) : Silent (skipExponentDigits c) := by
  unfold skipExponentDigits
  split
  · exact silent_throw (by simp)
  · refine silent_scan ?_ (by intro s e h; cases h)
    intro s e c a b h
    unfold expBody at h
    split at h <;> cases h

theorem silent_exponentPart : Silent skipExponentPart := by
  unfold skipExponentPart
  refine silent_bind (silent_byte (by intro e c a b h; cases h)) fun c => ?_
  split
  · exact silent_bind (silent_byte (by intro e c a b h; cases h)) fun c => silent_exponentDigits c
  · exact silent_exponentDigits c

theorem silent_digit : Silent (byte fun c => if intDigit c = none then .fail (.invalidDigit c) else .take) := by
  refine silent_byte ?_
  intro e c a b h
  split at h <;> cases h

theorem silent_fractionPart : Silent skipFractionPart := by
  unfold skipFractionPart
  refine silent_bind silent_digit fun c => silent_bind (silent_scan ?_ (by intro s e h; cases h)) fun st => ?_
  · intro s e c a b h
    unfold fracBody at h
    split at h <;> cases h
  · cases st
    · exact silent_pure _
    · exact silent_exponentPart
    · exact silent_pure _

theorem silent_skipUnsigned (c : Byte) : Silent (skipUnsigned c) := by
  unfold skipUnsigned
  split
  · refine silent_bind (silent_scan ?_ (by intro s e h; cases h)) fun st => ?_
    · intro s e c a b h
      simp only at h
      split at h <;> cases h
    · cases st with
      | none => exact silent_pure _
      | some c =>
        simp only
        split
        · exact silent_fractionPart
        · exact silent_exponentPart
        · exact silent_pure _
  · refine silent_bind (silent_scan ?_ (by intro s e h; cases h)) fun st => ?_
    · intro s e c a b h
      unfold intBody at h
      split at h <;> cases h
    · cases st
      · exact silent_fractionPart
      · exact silent_exponentPart
      · exact silent_pure _

theorem silent_skipNumber (c : Byte) : Silent (skipNumber c) := by
  unfold skipNumber
  split
  · exact silent_bind silent_digit fun c => silent_skipUnsigned c
  · exact silent_skipUnsigned c

/-! ## `Skip` -/

theorem fits_expectBytes (s : List Byte) : WouldFit (expectBytes s) := by
  intro n T v xv c a b y hx h hy
  clear hx
  simp only [expectBytes, scan, Prog.runX, Op.runX] at h ⊢
  have h' : scanX expectBody (fun _ => .error .eof) (.io n) s (v ++ [c]) = .error (.unexpectedByte c a b, []) := by
    cases hq : scanX expectBody (fun _ => .error .eof) (.io n) s (v ++ [c]) with
    | ok q => rw [hq] at h; cases h
    | error q => rw [hq] at h; exact h
  have : SoFar n (scanX expectBody (fun _ => .error .eof) (.io n) s (v ++ [y])) := by
    clear h
    induction v generalizing s with
    | nil =>
      cases s with
      | nil => cases h'
      | cons e s =>
        simp only [List.nil_append, scanX, expectBody] at h' ⊢
        by_cases hc : c = e
        · subst hc
          by_cases hs : s = []
          · simp [hs] at h'
          · simp [hs] at h'
        · simp only [ne_eq, hc, not_false_eq_true, if_true, Except.error.injEq, Prod.mk.injEq, Err.unexpectedByte.injEq] at h'
          obtain ⟨⟨_, rfl, rfl⟩, _⟩ := h'
          obtain rfl : y = e := hy.1.elim id (fun h => absurd h hy.2)
          by_cases hs : s = []
          · simp only [ne_eq, not_true, if_false, hs, if_true]
            exact .inl ⟨_, _, rfl⟩
          · simp only [ne_eq, not_true, if_false, hs, reduceCtorEq]
            exact .inr ⟨_, _, rfl, .inl rfl⟩
    | cons d v ih =>
      cases s with
      | nil => cases h'
      | cons e s =>
        simp only [List.cons_append, scanX, expectBody] at h' ⊢
        by_cases hd : d = e
        · subst hd
          by_cases hs : s = []
          · simp [hs] at h'
          · simp only [ne_eq, not_true, if_false, hs] at h' ⊢
            exact ih s h'
        · simp [hd] at h'
  cases hq : scanX expectBody (fun _ => .error .eof) (.io n) s (v ++ [y]) with
  | ok q => rw [hq] at this; exact this
  | error q => rw [hq] at this; exact this

theorem fits_skipScalar (c : Byte) : WouldFit (skipScalar c) := by
  unfold skipScalar
  repeat' split
  · exact fits_silent silent_skipString
  · exact fits_expectBytes _
  · exact fits_expectBytes _
  · exact fits_expectBytes _
  · exact fits_silent (silent_skipNumber c)
  · exact fits_throw _

/-- What may stand behind a value in an array or object. -/
def Ender (y : Byte) : Prop := y = b! ',' ∨ y = b! ']' ∨ y = b! '}'

theorem stops_skipString : StopsAt E skipString := by
  intro n T v c y a _ h
  obtain ⟨b, s, h1, h2⟩ := runs_skipString'.mp h
  have : v = b ++ [0x22] := by
    have : v ++ [c] = (b ++ [0x22]) ++ [c] := by rw [h2]; simp
    exact List.append_cancel_right this
  subst this
  exact runs_skipString'.mpr ⟨b, s, h1, by simp⟩

theorem stops_expectBytes {s : List Byte} (hs : s ≠ []) : StopsAt E (expectBytes s) := by
  intro n T v c y a _ h
  have := (runs_expectBytes hs).mp h
  cases List.append_cancel_right this
  exact (runs_expectBytes hs).mpr rfl

theorem stops_skipNumber {d : Byte} (hd : isNumberStart d = true) : StopsAt Ender (skipNumber d) := by
  intro n T v c y a hy h
  obtain ⟨t, h1, h2, _, _⟩ := (runs_skipNumber hd).mp h
  cases List.append_cancel_right h1
  refine (runs_skipNumber hd).mpr ⟨v, rfl, h2, final_of_notNext h2 (notNext_cons.mpr ?_), endOk_cons⟩
  rcases hy with rfl | rfl | rfl <;> (unfold NumByte IsExp Digit; decide)

theorem stops_skipScalar (d : Byte) : StopsAt Ender (skipScalar d) := by
  unfold skipScalar
  repeat' split
  · exact stops_skipString
  · exact stops_expectBytes (by decide)
  · exact stops_expectBytes (by decide)
  · exact stops_expectBytes (by decide)
  · exact stops_skipNumber ‹_›
  · intro n T v c y a _ h; cases h

theorem idle_not {p : Prog α} (h : Idle p) {n T : Nat} {x : List Byte} {c a b : Byte} {z : List Byte}
    (h1 : p.runX ⟨.io n, T⟩ [] x = .error (.unexpectedByte c a b, z)) : False := by
  rcases h n T x with ⟨_, _, h2⟩ | ⟨e, z, h2, h3⟩
  · rw [h2] at h1; cases h1
  · rw [h2] at h1; cases h1; rcases h3 with h3 | h3 | h3 <;> cases h3

theorem later_nil {p : Prog α} {env : Env} {a : α} {l' x' : List Byte} (h : p.runX env [] [] = .ok (a, l', x')) : l' = [] ∧ x' = [] := by
  have := prog_later p env (l := []) (x := []) (.inl rfl)
  rw [h] at this
  exact ⟨List.suffix_nil.mp this.2.2, List.suffix_nil.mp this.2.1⟩

theorem idle_scan {σ : Type} {body : σ → Byte → Act σ β} {onEOF : σ → Except Err β} {s : σ} : Idle (scan body onEOF s) := by
  intro n T x
  simp only [scan, Prog.runX, Op.runX, scanX, reduceCtorEq, if_false]
  exact .inr ⟨_, _, rfl, .inl rfl⟩

theorem idle_scan_bind {γ σ : Type} {body : σ → Byte → Act σ β} {onEOF : σ → Except Err β} {s : σ} {k : β → Prog γ} :
    Idle (scan body onEOF s >>= k) := by
  intro n T x
  rw [runX_bind]
  simp only [scan, Prog.runX, Op.runX, scanX, reduceCtorEq, if_false]
  exact .inr ⟨_, _, rfl, .inl rfl⟩

theorem idle_skipStringLoop_bind (m : Nat) {k : Unit → Prog β} : Idle (skipStringLoop m >>= k) := by
  cases m with
  | zero => intro n T x; rw [runX_bind]; exact .inr ⟨_, _, rfl, .inr (.inl rfl)⟩
  | succ m => unfold skipStringLoop; exact idle_assoc idle_scan_bind

theorem idle_skipString_bind {k : Unit → Prog β} : Idle (skipString >>= k) :=
  idle_assoc (idle_remaining fun _ => idle_skipStringLoop_bind _)

/-- A scalar of which only the first byte is there asks for nothing. -/
theorem scalar_last {k : Unit → Prog β} (hk : ∀ u, Idle (k u)) {n T : Nat} {c d a b : Byte} {z : List Byte}
    (h : (skipScalar c >>= k).runX ⟨.io n, T⟩ [] [] = .error (.unexpectedByte d a b, z)) : a = 0 ∧ b = 0 := by
  have hs : ∀ {p : Prog Unit}, Silent p → (p >>= k).runX ⟨.io n, T⟩ [] [] = .error (.unexpectedByte d a b, z) → a = 0 ∧ b = 0 := by
    intro p hp h
    rw [runX_bind] at h
    cases hR : p.runX ⟨.io n, T⟩ [] [] with
    | error w => rw [hR] at h; cases h; exact hp _ _ _ _ _ _ _ hR (by simp)
    | ok w =>
      obtain ⟨w, l', x'⟩ := w
      obtain ⟨rfl, rfl⟩ := later_nil hR
      rw [hR] at h
      exact (idle_not (hk _) h).elim
  unfold skipScalar at h
  repeat' split at h
  · exact hs silent_skipString h
  · exact (idle_not idle_scan_bind h).elim
  · exact (idle_not idle_scan_bind h).elim
  · exact (idle_not idle_scan_bind h).elim
  · exact hs (silent_skipNumber c) h
  · rw [runX_bind] at h
    cases h
    exact ⟨rfl, rfl⟩

theorem asked_zero {y : Byte} (h : Asked 0 0 y) : False := h.2 (h.1.elim id id)

theorem asks_expect {k : Byte → Prog β} (x : Byte) (hE : E x) (hw : isWs x = false) (hk : ∀ c, Idle (k c)) :
    Asks E (fun c => if c ≠ x then .fail (.unexpectedByte c x 0) else .take) k := by
  intro n T c a b y z h hy
  unfold atLast at h ⊢
  by_cases hc : c = x
  · simp only [hc, ne_eq, not_true, if_false, Dec.runX] at h
    exact (idle_not (hk _) h).elim
  · simp only [hc, ne_eq, not_false_eq_true, if_true, Dec.runX, Except.error.injEq, Prod.mk.injEq, Err.unexpectedByte.injEq] at h
    obtain ⟨⟨_, rfl, rfl⟩, _⟩ := h
    obtain rfl : y = x := hy.1.elim id (fun h => absurd h hy.2)
    refine ⟨hE, hw, ?_⟩
    simp only [ne_eq, not_true, if_false, Dec.runX]
    exact hk _ _ _ _

theorem after_assoc {γ : Type} {p : Prog α} {q : α → Prog β} {k : β → Prog γ} (h : After E (p >>= fun a => q a >>= k)) :
    After E ((p >>= q) >>= k) := by
  intro n T c a b y x x' z h1 hy
  rw [runX_assoc] at h1 ⊢
  exact h n T c a b y x x' z h1 hy

theorem fits_field {k : Unit → Prog β} (hk : WouldFit (k ())) (hi : Idle (k ())) : WouldFit (skipObjectField >>= k) := by
  have ask : Asks (fun _ => True) (fun c => if c ≠ b! ':' then .fail (.unexpectedByte c (b! ':') 0) else .take) (fun _ => k ()) :=
    asks_expect _ trivial (by decide) fun _ => hi
  refine fits_assoc (fits_bind (E := fun _ => True) (fits_silent silent_skipString) stops_skipString (fun _ => ?_) (fun _ => ?_) fun _ => ?_)
  · exact fits_assoc (fits_token ask fun _ => hk)
  · exact idle_assoc idle_token
  · exact after_assoc (after_token ask)

theorem idle_field {k : Unit → Prog β} : Idle (skipObjectField >>= k) := idle_assoc idle_skipString_bind

/-- A token behind which a value begins. -/
theorem asks_value {k : Byte → Prog β} (h : ∀ c n T d a b z, (k c).runX ⟨.io n, T⟩ [] [] = .error (.unexpectedByte d a b, z) → a = 0 ∧ b = 0) :
    Asks E (fun _ => .take) k := by
  intro n T c a b y z h1 hy
  obtain ⟨rfl, rfl⟩ := h c n T c a b z h1
  exact (asked_zero hy).elim

theorem member_last {again : StackElem → Stack → Prog Unit} (s : Stack) : Idle (skipMember again s) := idle_field

theorem element_last {again : StackElem → Stack → Prog Unit} (hi : ∀ t s, Idle (again t s)) (s : Stack) (c : Byte) {n T : Nat} {d a b : Byte}
    {z : List Byte} (h : (skipElement again s c).runX ⟨.io n, T⟩ [] [] = .error (.unexpectedByte d a b, z)) : a = 0 ∧ b = 0 := by
  unfold skipElement at h
  split at h
  · exact (idle_not (idle_ofExcept (fun e => (push_panics s e).2) fun _ => hi _ _) h).elim
  · split at h
    · exact (idle_not (idle_ofExcept (fun e => (push_panics s e).2) fun _ => hi _ _) h).elim
    · exact scalar_last (fun _ => hi _ _) h

theorem fits_skipMember {again : StackElem → Stack → Prog Unit} (hf : ∀ t s, WouldFit (again t s)) (hi : ∀ t s, Idle (again t s))
    (ha : ∀ s, After Ender (again .object s)) (s : Stack) : WouldFit (skipMember again s) := by
  unfold skipMember
  refine fits_field (fits_token (E := fun _ => True) (asks_value ?_) fun c => ?_) idle_token
  · intro c n T d a b z h
    split at h
    · exact (idle_not (idle_ofExcept (fun e => (push_panics s e).1) fun _ => hi _ _) h).elim
    · split at h
      · exact (idle_not (idle_ofExcept (fun e => (push_panics s e).1) fun _ => hi _ _) h).elim
      · exact scalar_last (fun _ => hi _ _) h
  · split
    · exact fits_ofExcept (fun e => (push_panics s e).1) fun _ => hf _ _
    · split
      · exact fits_ofExcept (fun e => (push_panics s e).1) fun _ => hf _ _
      · exact fits_bind (fits_skipScalar c) (stops_skipScalar c) (fun _ => hf _ _) (fun _ => hi _ _) fun _ => ha _

theorem fits_skipElement {again : StackElem → Stack → Prog Unit} (hf : ∀ t s, WouldFit (again t s)) (hi : ∀ t s, Idle (again t s))
    (ha : ∀ s, After Ender (again .array s)) (s : Stack) (c : Byte) : WouldFit (skipElement again s c) := by
  unfold skipElement
  split
  · exact fits_ofExcept (fun e => (push_panics s e).2) fun _ => hf _ _
  · split
    · exact fits_ofExcept (fun e => (push_panics s e).2) fun _ => hf _ _
    · exact fits_bind (fits_skipScalar c) (stops_skipScalar c) (fun _ => hf _ _) (fun _ => hi _ _) fun _ => ha _

theorem both_token {d : Byte → Dec} {k : Byte → Prog β} (h0 : Asks E d k) (hk : ∀ c, WouldFit (k c)) :
    WouldFit (token d >>= k) ∧ After E (token d >>= k) := ⟨fits_token h0 hk, after_token h0⟩

theorem idle_skipWithStack (m : Nat) (t : StackElem) (s : Stack) : Idle (skipWithStack m t s) := by
  cases m with
  | zero => exact idle_hang
  | succ m => unfold skipWithStack; exact idle_token

/-- What is asked for behind a value. -/
def StackEnder (t : StackElem) (y : Byte) : Prop := t = .object ∨ t = .array → Ender y

theorem both_skipWithStack (m : Nat) (t : StackElem) (s : Stack) :
    WouldFit (skipWithStack m t s) ∧ After (StackEnder t) (skipWithStack m t s) := by
  induction m generalizing t s with
  | zero => exact ⟨fits_hang, by intro n T c a b y x x' z h; cases h⟩
  | succ m ih =>
    have hi := idle_skipWithStack m
    have hf := fun t s => (ih t s).1
    have ha1 : ∀ s, After Ender (skipWithStack m .object s) := fun s n T c a b y x x' z h hy =>
      ⟨((ih .object s).2 n T c a b y x x' z h hy).1 (.inl rfl), ((ih .object s).2 n T c a b y x x' z h hy).2⟩
    have ha2 : ∀ s, After Ender (skipWithStack m .array s) := fun s n T c a b y x x' z h hy =>
      ⟨((ih .array s).2 n T c a b y x x' z h hy).1 (.inr rfl), ((ih .array s).2 n T c a b y x x' z h hy).2⟩
    have hpop : Idle (do
        let (top, s) ← Prog.ofExcept s.pop
        if top = .none then pure () else skipWithStack m top s) := by
      refine idle_ofExcept (pop_panics s) fun x => ?_
      split
      split
      · exact idle_pure _
      · exact hi _ _
    have fpop : WouldFit (do
        let (top, s) ← Prog.ofExcept s.pop
        if top = .none then pure () else skipWithStack m top s) := by
      refine fits_ofExcept (pop_panics s) fun x => ?_
      split
      split
      · exact fits_pure _
      · exact hf _ _
    unfold skipWithStack
    refine both_token ?_ fun c => ?_
    · intro n T c a b y z h hy
      simp only [atLast, Dec.runX] at h ⊢
      have thr : ∀ {w : Byte}, (Prog.throw (.unexpectedByte c w 0) : Prog Unit).runX ⟨.io n, T⟩ [] [] = .error (.unexpectedByte c a b, z) → y = w := by
        intro w h
        cases h
        exact hy.1.elim id (fun h => absurd h hy.2)
      by_cases ho : t.isObject = true
      · rw [if_pos ho] at h ⊢
        split at h
        · exact (idle_not hpop h).elim
        · split at h
          · rename_i ht
            split at h
            · cases thr h
              refine ⟨fun _ => .inl rfl, by decide, ?_⟩
              rw [if_neg (by decide), if_pos ht, if_neg (by decide)]
              exact idle_token _ _ _
            · exact (idle_not idle_token h).elim
          · rename_i ht
            split at h
            · cases thr h
              refine ⟨fun h => ?_, by decide, ?_⟩
              · rcases h with rfl | rfl
                · exact absurd rfl ht
                · cases ho
              · rw [if_neg (by decide), if_neg ht, if_neg (by decide)]
                exact member_last s _ _ _
            · exact (idle_not (member_last s) h).elim
      · rw [if_neg ho] at h ⊢
        split at h
        · exact (idle_not hpop h).elim
        · split at h
          · rename_i ht
            split at h
            · cases thr h
              refine ⟨fun _ => .inl rfl, by decide, ?_⟩
              rw [if_neg (by decide), if_pos ht, if_neg (by decide)]
              exact idle_token _ _ _
            · exact (idle_not idle_token h).elim
          · obtain ⟨rfl, rfl⟩ := element_last hi s c h
            exact (asked_zero hy).elim
    · split
      · split
        · exact fpop
        · split
          · split
            · exact fits_throw _
            · refine fits_token (E := fun _ => True) ?_ fun c => ?_
              · intro n T c a b y z h hy
                simp only [atLast, Dec.runX] at h ⊢
                split at h
                · cases h
                  obtain rfl : y = b! '"' := hy.1.elim id (fun h => absurd h hy.2)
                  refine ⟨trivial, by decide, ?_⟩
                  rw [if_neg (by decide)]
                  exact member_last s _ _ _
                · exact (idle_not (member_last s) h).elim
              · split
                · exact fits_throw _
                · exact fits_skipMember hf hi ha1 s
          · split
            · exact fits_throw _
            · exact fits_skipMember hf hi ha1 s
      · split
        · exact fpop
        · split
          · split
            · exact fits_throw _
            · exact fits_token (E := fun _ => True) (asks_value fun c n T d a b z h => element_last hi s c h) fun c => fits_skipElement hf hi ha2 s c
          · exact fits_skipElement hf hi ha2 s c

theorem fits_skipWithStack (m : Nat) (t : StackElem) (s : Stack) : WouldFit (skipWithStack m t s) := (both_skipWithStack m t s).1

/-- The loop over the elements of an array that begin with `c` asks for nothing when there is only `c`. -/
theorem arrayLoop_last (pool : Stack) (m : Nat) (c : Byte) {n T : Nat} {d a b : Byte} {z : List Byte}
    (h : (skipArrayLoop pool m c).runX ⟨.io n, T⟩ [] [] = .error (.unexpectedByte d a b, z)) : a = 0 ∧ b = 0 := by
  cases m with
  | zero => cases h
  | succ m =>
    unfold skipArrayLoop at h
    split at h
    · exact (idle_not (idle_remaining fun _ => idle_skipWithStack _ _ _) h).elim
    · split at h
      · exact (idle_not (idle_remaining fun _ => idle_skipWithStack _ _ _) h).elim
      · exact scalar_last (fun _ => idle_token) h

theorem fits_skipArrayLoop (pool : Stack) (m : Nat) (c : Byte) : WouldFit (skipArrayLoop pool m c) := by
  induction m generalizing c with
  | zero => exact fits_hang
  | succ m ih =>
    unfold skipArrayLoop
    split
    · exact fits_remaining fun _ => fits_skipWithStack _ _ _
    · split
      · exact fits_remaining fun _ => fits_skipWithStack _ _ _
      · have both : WouldFit (do
            let c ← nextTokenTake
            if c = b! ']' then pure ()
            else if c ≠ b! ',' then Prog.throw (.unexpectedByte c (b! ']') (b! ','))
            else
              let c ← nextTokenTake
              skipArrayLoop pool m c) ∧ After Ender (do
            let c ← nextTokenTake
            if c = b! ']' then pure ()
            else if c ≠ b! ',' then Prog.throw (.unexpectedByte c (b! ']') (b! ','))
            else
              let c ← nextTokenTake
              skipArrayLoop pool m c) := by
          refine both_token ?_ fun c => ?_
          · intro n T c a b y z h hy
            simp only [atLast, Dec.runX] at h ⊢
            split at h
            · exact (idle_not (idle_pure ()) h).elim
            · split at h
              · cases h
                rcases hy.1 with rfl | rfl
                · exact ⟨.inr (.inl rfl), by decide, by rw [if_pos rfl]; exact idle_pure () _ _ _⟩
                · exact ⟨.inl rfl, by decide, by rw [if_neg (by decide), if_neg (by decide)]; exact idle_token _ _ _⟩
              · exact (idle_not idle_token h).elim
          · split
            · exact fits_pure _
            · split
              · exact fits_throw _
              · exact fits_token (E := fun _ => True) (asks_value fun c n T d a b z h => arrayLoop_last pool m c h) fun c => ih c
        exact fits_bind (fits_skipScalar c) (stops_skipScalar c) (fun _ => both.1) (fun _ => idle_token) fun _ => both.2

theorem idle_skipObjectLoop (pool : Stack) (m : Nat) : Idle (skipObjectLoop pool m) := by
  cases m with
  | zero => exact idle_hang
  | succ m => unfold skipObjectLoop; exact idle_field

theorem fits_skipObjectLoop (pool : Stack) (m : Nat) : WouldFit (skipObjectLoop pool m) := by
  induction m with
  | zero => exact fits_hang
  | succ m ih =>
    have both : WouldFit (do
        let c ← nextTokenTake
        if c = b! '}' then pure ()
        else if c ≠ b! ',' then Prog.throw (.unexpectedByte c (b! '}') (b! ','))
        else
          let _ ← token fun c => if c ≠ b! '"' then .fail (.unexpectedByte c (b! '"') 0) else .take
          skipObjectLoop pool m) ∧ After Ender (do
        let c ← nextTokenTake
        if c = b! '}' then pure ()
        else if c ≠ b! ',' then Prog.throw (.unexpectedByte c (b! '}') (b! ','))
        else
          let _ ← token fun c => if c ≠ b! '"' then .fail (.unexpectedByte c (b! '"') 0) else .take
          skipObjectLoop pool m) := by
      refine both_token ?_ fun c => ?_
      · intro n T c a b y z h hy
        simp only [atLast, Dec.runX] at h ⊢
        split at h
        · exact (idle_not (idle_pure ()) h).elim
        · split at h
          · cases h
            rcases hy.1 with rfl | rfl
            · exact ⟨.inr (.inr rfl), by decide, by rw [if_pos rfl]; exact idle_pure () _ _ _⟩
            · exact ⟨.inl rfl, by decide, by rw [if_neg (by decide), if_neg (by decide)]; exact idle_token _ _ _⟩
          · exact (idle_not idle_token h).elim
      · split
        · exact fits_pure _
        · split
          · exact fits_throw _
          · exact fits_token (asks_expect (E := fun _ => True) _ trivial (by decide) fun _ => idle_skipObjectLoop pool m) fun _ => ih
    unfold skipObjectLoop
    refine fits_field (fits_token (E := fun _ => True) (asks_value ?_) fun c => ?_) idle_token
    · intro c n T d a b z h
      split at h
      · exact (idle_not (idle_remaining fun _ => idle_skipWithStack _ _ _) h).elim
      · split at h
        · exact (idle_not (idle_remaining fun _ => idle_skipWithStack _ _ _) h).elim
        · exact scalar_last (fun _ => idle_token) h
    · split
      · exact fits_remaining fun _ => fits_skipWithStack _ _ _
      · split
        · exact fits_remaining fun _ => fits_skipWithStack _ _ _
        · exact fits_bind (fits_skipScalar c) (stops_skipScalar c) (fun _ => both.1) (fun _ => idle_token) fun _ => both.2

theorem fits_skipArrayWithStack (pool : Stack) : WouldFit (skipArrayWithStack pool) := by
  unfold skipArrayWithStack
  refine fits_token (E := fun _ => True) (asks_value ?_) fun c => ?_
  · intro c n T d a b z h
    split at h
    · exact (idle_not (idle_pure ()) h).elim
    · rw [runX_bind] at h
      exact arrayLoop_last pool _ c h
  · split
    · exact fits_pure _
    · exact fits_remaining fun _ => fits_skipArrayLoop _ _ _

theorem fits_skipObjectWithStack (pool : Stack) : WouldFit (skipObjectWithStack pool) := by
  unfold skipObjectWithStack
  refine fits_token (E := fun _ => True) ?_ fun c => ?_
  · intro n T c a b y z h hy
    have hi : ∀ c : Byte, Idle (if c = b! '}' then pure () else do
        let n ← remaining
        skipObjectLoop pool (n + 1) : Prog Unit) := by
      intro c
      split
      · exact idle_pure _
      · exact idle_remaining fun _ => idle_skipObjectLoop _ _
    unfold atLast at h ⊢
    by_cases h1 : c = b! '}'
    · simp only [h1, if_true, Dec.runX] at h
      exact (idle_not (idle_pure ()) h).elim
    · by_cases h2 : c = b! '"'
      · subst h2
        exact (idle_not (hi _) h).elim
      · simp only [h1, h2, if_false, if_true, ne_eq, not_false_eq_true, Dec.runX, Except.error.injEq, Prod.mk.injEq, Err.unexpectedByte.injEq] at h
        obtain ⟨⟨_, rfl, rfl⟩, _⟩ := h
        obtain rfl : y = b! '"' := hy.1.elim id (fun h => absurd h hy.2)
        exact ⟨trivial, by decide, hi (b! '"') _ _ _⟩
  · split
    · exact fits_pure _
    · exact fits_remaining fun _ => fits_skipObjectLoop _ _

theorem fits_Skip (pool : Stack) : WouldFit (Skip pool) := by
  unfold Skip
  refine fits_token (E := fun _ => True) (asks_value ?_) fun c => ?_
  · intro c n T d a b z h
    unfold skipFunction at h
    split at h
    · exact (idle_not (p := skipArrayWithStack pool) idle_token h).elim
    · split at h
      · exact (idle_not (p := skipObjectWithStack pool) idle_token h).elim
      · have h' : (skipScalar c >>= fun u => pure u).runX ⟨.io n, T⟩ [] [] = .error (.unexpectedByte d a b, z) := by
          rw [runX_bind, h]
        exact scalar_last (fun _ => idle_pure _) h'
  · unfold skipFunction
    split
    · exact fits_skipArrayWithStack pool
    · split
      · exact fits_skipObjectWithStack pool
      · exact fits_skipScalar c

end Jzon
