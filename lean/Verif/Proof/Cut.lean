import Verif.Proof.Viable

/-!
# Skipping at the end of the input

`Calm p`: on bytes behind which a reader fails, `p` reports `io.EOF` never; where it reports the failure of the reader it reports `io.EOF`
on the same bytes with nothing behind them, or has taken them all.
-/

set_option linter.unusedSimpArgs false

namespace Jzon

open Spec

/-- A program gave up because the bytes came to an end, or has used them up. -/
def Spent {α : Type} (x : Except Err (α × List Byte)) : Prop := x = .error .eof ∨ x = .error .hang ∨ ∃ a, x = .ok (a, [])

/-- What the program does on no bytes. -/
def Dry (T : Nat) {α : Type} (p : Prog α) : Prop := Spent (p.runF ⟨.eof, T⟩ [])

def Calm (n T : Nat) {α : Type} (p : Prog α) : Prop :=
  ∀ l e, p.runF ⟨.io n, T⟩ l = .error e → e ≠ .eof ∧ (e = .io n → Spent (p.runF ⟨.eof, T⟩ l))

section
variable {n T : Nat}

theorem op_same {β : Type} {o : Op β} {l : List Byte} {x : Except Err (β × List Byte)} (h : o.runF ⟨.io n, T⟩ l = x) (hx : x ≠ .error (.io n)) :
    o.runF ⟨.eof, T⟩ l = x := by
  cases o with
  | token d =>
    rw [Op.runF] at h ⊢
    cases hd : dropWs l with
    | nil => rw [hd] at h; exact absurd h.symm hx
    | cons c l' => rw [hd] at h; exact h
  | byte d =>
    cases l with
    | nil => exact absurd h.symm hx
    | cons c l' => exact h
  | @scan σ β body onEOF s =>
    rw [Op.runF] at h ⊢
    simp only at h ⊢
    induction l generalizing s with
    | nil => exact absurd (by simpa [scanF] using h.symm) hx
    | cons c l ih =>
      rw [scanF] at h ⊢
      cases hb : body s c with
      | cont s' => rw [hb] at h; exact ih _ h
      | stop b => rw [hb] at h; exact h
      | stopNext b => rw [hb] at h; exact h
      | err e => rw [hb] at h; exact h
  | inputOffset => exact h
  | remaining => exact h

theorem end_same {α : Type} (p : Prog α) {l : List Byte} {x : Except Err (α × List Byte)} (h : p.runF ⟨.io n, T⟩ l = x) (hx : x ≠ .error (.io n)) :
    p.runF ⟨.eof, T⟩ l = x := by
  induction p generalizing l with
  | pure a => exact h
  | fail e => exact h
  | op o k ih =>
    rw [Prog.runF] at h ⊢
    cases ho : o.runF ⟨.io n, T⟩ l with
    | error e =>
      rw [ho] at h
      simp only at h
      rw [op_same ho (by rintro ⟨⟩; exact hx h.symm)]
      exact h
    | ok y =>
      rw [ho] at h
      rw [op_same ho (by simp)]
      exact ih _ h hx
  | captured p k ihp ih =>
    rw [Prog.runF] at h ⊢
    cases ho : p.runF ⟨.io n, T⟩ l with
    | error e =>
      rw [ho] at h
      simp only at h
      rw [ihp ho (by rintro ⟨⟩; exact hx h.symm)]
      exact h
    | ok y =>
      rw [ho] at h
      rw [ihp ho (by simp)]
      exact ih _ h hx

theorem calm_pure {α : Type} (a : α) : Calm n T (pure a : Prog α) := by intro l e h; cases h

theorem calm_throw {α : Type} {e : Err} (h1 : e ≠ .eof) (h2 : ∀ n, e ≠ .io n) : Calm n T (Prog.throw e : Prog α) := by
  intro l x h
  simp only [Prog.throw, runF_fail, Except.error.injEq] at h
  subst h
  exact ⟨h1, fun h => absurd h (h2 n)⟩

theorem calm_bind {α β : Type} {p : Prog α} {k : α → Prog β} (h1 : Calm n T p) (h2 : ∀ a, Calm n T (k a)) (h3 : ∀ a, Dry T (k a)) :
    Calm n T (p >>= k) := by
  intro l e h
  rw [runF_bind] at h ⊢
  cases hp : p.runF ⟨.io n, T⟩ l with
  | ok x =>
    rw [hp] at h
    rw [end_same p hp (by simp)]
    exact h2 x.1 x.2 e h
  | error x =>
    rw [hp] at h
    simp only [Except.error.injEq] at h
    subst h
    refine ⟨(h1 l x hp).1, fun hx => ?_⟩
    rcases (h1 l x hp).2 hx with h4 | h4 | ⟨a, h4⟩
    · rw [h4]; exact .inl rfl
    · rw [h4]; exact .inr (.inl rfl)
    · rw [h4]; exact h3 a

/-- Programs that report `io.EOF` at the end of the bytes. -/
theorem calm_hard {α β : Type} {p : Prog α} {k : α → Prog β} (h1 : Calm n T p) (h2 : ∀ a, Calm n T (k a))
    (h3 : ∀ l, p.runF ⟨.io n, T⟩ l = .error (.io n) → p.runF ⟨.eof, T⟩ l = .error .eof) : Calm n T (p >>= k) := by
  intro l e h
  rw [runF_bind] at h ⊢
  cases hp : p.runF ⟨.io n, T⟩ l with
  | ok x =>
    rw [hp] at h
    rw [end_same p hp (by simp)]
    exact h2 x.1 x.2 e h
  | error x =>
    rw [hp] at h
    simp only [Except.error.injEq] at h
    subst h
    refine ⟨(h1 l x hp).1, fun hx => ?_⟩
    rw [h3 l (by rw [hp, hx])]
    exact .inl rfl

def Mild (e : Err) : Prop := e ≠ .eof ∧ ∀ n, e ≠ .io n

theorem token_hard {d : Byte → Dec} (hd : ∀ c e, d c = .fail e → Mild e) {l : List Byte} (h : (token d).runF ⟨.io n, T⟩ l = .error (.io n)) :
    (token d).runF ⟨.eof, T⟩ l = .error .eof := by
  have := stuck_token (env := ⟨.io n, T⟩) (fun c e h => (hd c e h).2) ⟨rfl, h⟩
  unfold token
  rw [runF_op, Op.runF, dropWs_eq_nil.mpr this]

theorem byte_hard {d : Byte → Dec} (hd : ∀ c e, d c = .fail e → Mild e) {l : List Byte} (h : (byte d).runF ⟨.io n, T⟩ l = .error (.io n)) :
    (byte d).runF ⟨.eof, T⟩ l = .error .eof := by
  have := stuck_byte (env := ⟨.io n, T⟩) (fun c e h => (hd c e h).2) ⟨rfl, h⟩
  subst this
  rfl

theorem calm_token1 {d : Byte → Dec} (hd : ∀ c e, d c = .fail e → Mild e) : Calm n T (token d) := by
  intro l e h
  refine ⟨?_, fun hx => .inl (token_hard hd (by rw [h, hx]))⟩
  unfold token at h
  rw [runF_op, Op.runF] at h
  cases hl : dropWs l with
  | nil => rw [hl] at h; cases h; simp
  | cons c l' =>
    rw [hl] at h
    cases hc : d c with
    | take => simp only [hc] at h; cases h
    | leave => simp only [hc] at h; cases h
    | fail x => simp only [hc] at h; cases h; exact (hd c e hc).1

theorem calm_byte1 {d : Byte → Dec} (hd : ∀ c e, d c = .fail e → Mild e) : Calm n T (byte d) := by
  intro l e h
  refine ⟨?_, fun hx => .inl (byte_hard hd (by rw [h, hx]))⟩
  unfold byte at h
  rw [runF_op] at h
  cases l with
  | nil => cases h; simp
  | cons c l' =>
    rw [Op.runF] at h
    cases hc : d c with
    | take => simp only [hc] at h; cases h
    | leave => simp only [hc] at h; cases h
    | fail x => simp only [hc] at h; cases h; exact (hd c e hc).1

theorem calm_token {β : Type} {d : Byte → Dec} {k : Byte → Prog β} (hd : ∀ c e, d c = .fail e → Mild e) (h : ∀ c, Calm n T (k c)) :
    Calm n T (token d >>= k) := calm_hard (calm_token1 hd) h fun _ => token_hard hd

theorem calm_byte {β : Type} {d : Byte → Dec} {k : Byte → Prog β} (hd : ∀ c e, d c = .fail e → Mild e) (h : ∀ c, Calm n T (k c)) :
    Calm n T (byte d >>= k) := calm_hard (calm_byte1 hd) h fun _ => byte_hard hd

theorem calm_nextToken {β : Type} {k : Byte → Prog β} (h : ∀ c, Calm n T (k c)) : Calm n T (nextTokenTake >>= k) :=
  calm_token (by intro c e h; cases h) h

theorem calm_nextByte {β : Type} {k : Byte → Prog β} (h : ∀ c, Calm n T (k c)) : Calm n T (nextByteTake >>= k) :=
  calm_byte (by intro c e h; cases h) h

theorem calm_remaining {β : Type} {k : Nat → Prog β} (h : ∀ c, Calm n T (k c)) : Calm n T (remaining >>= k) :=
  calm_hard (by intro l e h; unfold remaining at h; rw [runF_op, Op.runF] at h; cases h) h
    (by intro l h; unfold remaining at h; rw [runF_op, Op.runF] at h; cases h)

theorem calm_ofExcept {α β : Type} {r : Except Err α} {k : α → Prog β} (hr : ∀ e, r = .error e → Mild e) (h : ∀ c, Calm n T (k c)) :
    Calm n T (Prog.ofExcept r >>= k) := by
  cases r with
  | ok a => exact h a
  | error e => exact calm_throw (hr e rfl).1 (hr e rfl).2

theorem calm_scan {σ β : Type} {body : σ → Byte → Act σ β} (hb : ∀ s c e, body s c = .err e → Mild e) {onEOF : σ → Except Err β}
    (ho : ∀ s e, onEOF s = .error e → e = .eof) {s : σ} : Calm n T (scan body onEOF s) := by
  intro l e h
  unfold scan at h ⊢
  rw [runF_op, Op.runF] at h ⊢
  simp only at h ⊢
  induction l generalizing s with
  | nil =>
    simp only [scanF] at h ⊢
    cases h
    refine ⟨by simp, fun _ => ?_⟩
    cases hs : onEOF s with
    | ok b => exact .inr (.inr ⟨b, rfl⟩)
    | error x => rw [ho s x hs]; exact .inl rfl
  | cons c l ih =>
    rw [scanF] at h ⊢
    cases hc : body s c with
    | cont s1 => rw [hc] at h; exact ih h
    | stop b => rw [hc] at h; cases h
    | stopNext b => rw [hc] at h; cases h
    | err x =>
      rw [hc] at h
      cases h
      exact ⟨(hb s c _ hc).1, fun hx => absurd hx ((hb s c _ hc).2 n)⟩

theorem scan_hard {σ β : Type} {body : σ → Byte → Act σ β} (hb : ∀ s c e, body s c = .err e → Mild e) {onEOF : σ → Except Err β}
    (ho : ∀ s, onEOF s = .error .eof) {s : σ} {l : List Byte} (h : (scan body onEOF s).runF ⟨.io n, T⟩ l = .error (.io n)) :
    (scan body onEOF s).runF ⟨.eof, T⟩ l = .error .eof := by
  obtain ⟨s', hs⟩ := stuck_scan (env := ⟨.io n, T⟩) (fun s c e h => (hb s c e h).2) ⟨rfl, h⟩
  unfold scan
  rw [runF_op, Op.runF]
  simp only
  clear h
  induction l generalizing s with
  | nil => simp only [scanF, ho]; rfl
  | cons c l ih =>
    obtain ⟨s1, h1, h2⟩ := hs
    rw [scanF, h1]
    exact ih h2

theorem dry_pure {α : Type} (a : α) : Dry T (pure a : Prog α) := .inr (.inr ⟨a, rfl⟩)

theorem dry_throw_hang {α : Type} : Dry T (Prog.throw .hang : Prog α) := .inr (.inl rfl)

theorem dry_token {β : Type} {d : Byte → Dec} {k : Byte → Prog β} : Dry T (token d >>= k) := .inl rfl

theorem dry_byte {β : Type} {d : Byte → Dec} {k : Byte → Prog β} : Dry T (byte d >>= k) := .inl rfl

/-! ## The functions -/

theorem mild_unexpectedByte (a b c : Byte) : Mild (.unexpectedByte a b c) := ⟨by simp, by simp⟩
theorem mild_invalidDigit (a : Byte) : Mild (.invalidDigit a) := ⟨by simp, by simp⟩

macro "mild" : tactic => `(tactic| (intros; (repeat (split at *)) <;> simp_all [Mild]))

theorem calm_expectBytes (s : List Byte) : Calm n T (expectBytes s) := by
  unfold expectBytes
  refine calm_scan ?_ (by intro s e h; cases h; rfl)
  intro s c e h
  unfold expectBody at h
  split at h
  · cases h; simp [Mild]
  · split at h
    · cases h; simp [Mild]
    · split at h <;> cases h

theorem mild_u4 (s : Nat) (c : Byte) (e : Err) (h : skipU4Body s c = .err e) : Mild e := by
  unfold skipU4Body at h
  split at h
  · cases h; simp [Mild]
  · split at h <;> cases h

theorem calm_skipU4 : Calm n T skipU4 := calm_scan mild_u4 (by intro s e h; cases h; rfl)

theorem calm_skipEscapedChar : Calm n T skipEscapedChar := by
  unfold skipEscapedChar
  refine calm_byte ?_ fun c => ?_
  · intro c e h
    split at h
    · cases h
    · split at h
      · cases h; simp [Mild]
      · cases h
  · split
    · exact calm_pure _
    · exact calm_skipU4

theorem mild_str (s : Unit) (c : Byte) (e : Err) (h : skipStrBody s c = .err e) : Mild e := by
  unfold skipStrBody at h
  split at h
  · cases h
  · split at h
    · cases h
    · split at h
      · cases h; simp [Mild]
      · cases h

theorem dry_skipStringLoop (k : Nat) : Dry T (skipStringLoop k) := by
  cases k with
  | zero => exact dry_throw_hang
  | succ k => exact .inl rfl

theorem calm_skipStringLoop (k : Nat) : Calm n T (skipStringLoop k) := by
  induction k with
  | zero => exact calm_throw (by simp) (by simp)
  | succ k ih =>
    unfold skipStringLoop
    refine calm_hard (calm_scan mild_str (by intro s e h; cases h; rfl)) (fun st => ?_) fun _ => scan_hard mild_str fun _ => rfl
    cases st with
    | quote => exact calm_pure _
    | backslash => exact calm_bind calm_skipEscapedChar (fun _ => ih) fun _ => dry_skipStringLoop k

theorem calm_skipString : Calm n T skipString := calm_remaining fun _ => calm_skipStringLoop _

theorem calm_exponentDigits (c : Byte) : Calm n T (skipExponentDigits c) := by
  unfold skipExponentDigits
  split
  · exact calm_throw (by simp) (by simp)
  · refine calm_scan ?_ (by intro s e h; cases h)
    intro s c e h
    unfold expBody at h
    split at h <;> cases h

theorem calm_exponentPart : Calm n T skipExponentPart := by
  unfold skipExponentPart
  refine calm_nextByte fun c => ?_
  split
  · exact calm_nextByte fun c => calm_exponentDigits c
  · exact calm_exponentDigits c

theorem dry_exponentPart : Dry T skipExponentPart := .inl rfl

theorem mild_digit (c : Byte) (e : Err) (h : (if intDigit c = none then Dec.fail (.invalidDigit c) else .take) = .fail e) : Mild e := by
  split at h
  · cases h; simp [Mild]
  · cases h

theorem calm_fractionPart : Calm n T skipFractionPart := by
  unfold skipFractionPart
  refine calm_byte mild_digit fun _ => calm_bind (calm_scan ?_ (by intro s e h; cases h)) (fun st => ?_) fun st => ?_
  · intro s c e h
    unfold fracBody at h
    split at h <;> cases h
  · cases st
    · exact calm_pure _
    · exact calm_exponentPart
    · exact calm_pure _
  · cases st
    · exact dry_pure _
    · exact dry_exponentPart
    · exact dry_pure _

theorem dry_fractionPart : Dry T skipFractionPart := .inl rfl

theorem calm_skipUnsigned (c : Byte) : Calm n T (skipUnsigned c) := by
  unfold skipUnsigned
  split
  · refine calm_bind (calm_scan ?_ (by intro s e h; cases h)) (fun st => ?_) fun st => ?_
    · intro s c e h
      split at h <;> cases h
    · cases st with
      | none => exact calm_pure _
      | some c =>
        simp only
        cases floatDigit c
        · exact calm_pure _
        · exact calm_fractionPart
        · exact calm_exponentPart
        · exact calm_pure _
    · cases st with
      | none => exact dry_pure _
      | some c =>
        simp only
        cases floatDigit c
        · exact dry_pure _
        · exact dry_fractionPart
        · exact dry_exponentPart
        · exact dry_pure _
  · refine calm_bind (calm_scan ?_ (by intro s e h; cases h)) (fun st => ?_) fun st => ?_
    · intro s c e h
      unfold intBody at h
      split at h <;> cases h
    · cases st
      · exact calm_fractionPart
      · exact calm_exponentPart
      · exact calm_pure _
    · cases st
      · exact dry_fractionPart
      · exact dry_exponentPart
      · exact dry_pure _

theorem calm_skipNumber (c : Byte) : Calm n T (skipNumber c) := by
  unfold skipNumber
  split
  · exact calm_byte mild_digit fun c => calm_skipUnsigned c
  · exact calm_skipUnsigned c

theorem calm_skipScalar (c : Byte) : Calm n T (skipScalar c) := by
  unfold skipScalar
  repeat' split
  · exact calm_skipString
  · exact calm_expectBytes _
  · exact calm_expectBytes _
  · exact calm_expectBytes _
  · exact calm_skipNumber c
  · exact calm_throw (by simp) (by simp)

theorem calm_skipObjectField : Calm n T skipObjectField := by
  unfold skipObjectField
  refine calm_bind calm_skipString (fun _ => calm_token ?_ fun _ => calm_pure _) fun _ => dry_token
  intro c e h
  split at h
  · cases h; simp [Mild]
  · cases h

theorem mild_pushObject (s : Stack) (e : Err) (h : s.pushObject = .error e) : Mild e := by
  unfold Stack.pushObject at h
  simp only at h
  split at h
  · cases h
  · split at h <;> cases h
    simp [Mild]

theorem mild_pushArray (s : Stack) (e : Err) (h : s.pushArray = .error e) : Mild e := by
  unfold Stack.pushArray at h
  simp only at h
  split at h
  · cases h
  · split at h <;> cases h
    simp [Mild]

theorem mild_pop (s : Stack) (e : Err) (h : s.pop = .error e) : Mild e := by
  unfold Stack.pop at h
  simp only at h
  split at h
  · cases h
  · split at h <;> cases h
    simp [Mild]

theorem calm_skipMember {again : StackElem → Stack → Prog Unit} (h1 : ∀ t s, Calm n T (again t s)) (h2 : ∀ t s, Dry T (again t s)) (s : Stack) :
    Calm n T (skipMember again s) := by
  unfold skipMember
  refine calm_bind calm_skipObjectField (fun _ => calm_nextToken fun c => ?_) fun _ => dry_token
  split
  · exact calm_ofExcept (mild_pushObject s) fun _ => h1 _ _
  · split
    · exact calm_ofExcept (mild_pushObject s) fun _ => h1 _ _
    · exact calm_bind (calm_skipScalar c) (fun _ => h1 _ _) fun _ => h2 _ _

theorem calm_skipElement {again : StackElem → Stack → Prog Unit} (h1 : ∀ t s, Calm n T (again t s)) (h2 : ∀ t s, Dry T (again t s)) (s : Stack)
    (c : Byte) : Calm n T (skipElement again s c) := by
  unfold skipElement
  split
  · exact calm_ofExcept (mild_pushArray s) fun _ => h1 _ _
  · split
    · exact calm_ofExcept (mild_pushArray s) fun _ => h1 _ _
    · exact calm_bind (calm_skipScalar c) (fun _ => h1 _ _) fun _ => h2 _ _

theorem dry_skipWithStack (k : Nat) (t : StackElem) (s : Stack) : Dry T (skipWithStack k t s) := by
  cases k with
  | zero => exact dry_throw_hang
  | succ k => exact .inl rfl

theorem calm_skipWithStack (k : Nat) (t : StackElem) (s : Stack) : Calm n T (skipWithStack k t s) := by
  induction k generalizing t s with
  | zero => exact calm_throw (by simp) (by simp)
  | succ k ih =>
    have hpop : Calm n T (do
        let (top, s) ← Prog.ofExcept s.pop
        if top = .none then pure () else skipWithStack k top s) := by
      refine calm_ofExcept (mild_pop s) fun x => ?_
      split
      split
      · exact calm_pure _
      · exact ih _ _
    have hx : ∀ a b c : Byte, Calm n T (Prog.throw (.unexpectedByte a b c) : Prog Unit) := fun _ _ _ => calm_throw (by simp) (by simp)
    unfold skipWithStack
    refine calm_nextToken fun c => ?_
    split
    · split
      · exact hpop
      · split
        · split
          · exact hx _ _ _
          · refine calm_nextToken fun c => ?_
            split
            · exact hx _ _ _
            · exact calm_skipMember ih (dry_skipWithStack k) s
        · split
          · exact hx _ _ _
          · exact calm_skipMember ih (dry_skipWithStack k) s
    · split
      · exact hpop
      · split
        · split
          · exact hx _ _ _
          · exact calm_nextToken fun c => calm_skipElement ih (dry_skipWithStack k) s c
        · exact calm_skipElement ih (dry_skipWithStack k) s c

theorem calm_skipArrayLoop (pool : Stack) (k : Nat) (c : Byte) : Calm n T (skipArrayLoop pool k c) := by
  induction k generalizing c with
  | zero => exact calm_throw (by simp) (by simp)
  | succ k ih =>
    unfold skipArrayLoop
    split
    · exact calm_remaining fun _ => calm_skipWithStack _ _ _
    · split
      · exact calm_remaining fun _ => calm_skipWithStack _ _ _
      · refine calm_bind (calm_skipScalar c) (fun _ => calm_nextToken fun c => ?_) fun _ => dry_token
        split
        · exact calm_pure _
        · split
          · exact calm_throw (by simp) (by simp)
          · exact calm_nextToken fun c => ih c

theorem mild_quote (c : Byte) (e : Err) (h : (if c ≠ b! '"' then Dec.fail (.unexpectedByte c (b! '"') 0) else .take) = .fail e) : Mild e := by
  split at h
  · cases h; simp [Mild]
  · cases h

theorem calm_skipObjectLoop (pool : Stack) (k : Nat) : Calm n T (skipObjectLoop pool k) := by
  induction k with
  | zero => exact calm_throw (by simp) (by simp)
  | succ k ih =>
    unfold skipObjectLoop
    refine calm_bind calm_skipObjectField (fun _ => calm_nextToken fun c => ?_) fun _ => dry_token
    split
    · exact calm_remaining fun _ => calm_skipWithStack _ _ _
    · split
      · exact calm_remaining fun _ => calm_skipWithStack _ _ _
      · refine calm_bind (calm_skipScalar c) (fun _ => calm_nextToken fun c => ?_) fun _ => dry_token
        split
        · exact calm_pure _
        · split
          · exact calm_throw (by simp) (by simp)
          · exact calm_token mild_quote fun _ => ih

theorem calm_skipFunction (pool : Stack) (c : Byte) : Calm n T (skipFunction pool c) := by
  unfold skipFunction
  split
  · unfold skipArrayWithStack
    refine calm_nextToken fun c => ?_
    split
    · exact calm_pure _
    · exact calm_remaining fun _ => calm_skipArrayLoop _ _ _
  · split
    · unfold skipObjectWithStack
      refine calm_token ?_ fun c => ?_
      · intro c e h
        split at h
        · cases h
        · split at h
          · cases h; simp [Mild]
          · cases h
      · split
        · exact calm_pure _
        · exact calm_remaining fun _ => calm_skipObjectLoop _ _
    · exact calm_skipScalar c

theorem calm_Skip (pool : Stack) : Calm n T (Skip pool) := calm_nextToken fun c => calm_skipFunction pool c

end

end Jzon
