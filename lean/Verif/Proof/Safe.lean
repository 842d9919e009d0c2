import Verif.Proof.Machine
import Verif.Proof.Float
import Verif.Spec.ErrText

/-!
# No panic, no endless loop

A program is safe on an input if it does not end with one of the two pseudo errors.
-/

set_option linter.unusedSimpArgs false

namespace Jzon

/-- Which errors beside the pseudo errors must not occur: no others, those for unknown fields, or those with fields that the
package does not fill in. -/
inductive Watch where
  | safe
  | known
  | filled

attribute [simp] Spec.FromPackage

/-- The pseudo errors, a run time panic or an endless loop, and the errors that are watched. -/
def Bad (uf : Watch) (e : Err) : Prop :=
  e = .panic ∨ e = .hang ∨ (uf = .known ∧ ∃ n, e = .unknownField n) ∨ (uf = .filled ∧ ¬ Spec.FromPackage e)

def Safe (uf : Watch) {α : Type} (p : Prog α) (env : Env) (l : List Byte) : Prop :=
  ∀ e, p.runF env l = .error e → ¬ Bad uf e

section
variable {uf : Watch} {env : Env} {l : List Byte}

theorem safe_bind {α β : Type} {p : Prog α} {k : α → Prog β} (hp : Safe uf p env l)
    (hk : ∀ a l', Runs p env l a l' → Safe uf (k a) env l') : Safe uf (p >>= k) env l := by
  intro e he
  rw [runF_bind] at he
  split at he
  · rename_i h; exact hk _ _ h e he
  · rename_i h; cases he; exact hp _ h

theorem safe_pure {α : Type} (a : α) : Safe uf (pure a : Prog α) env l := by intro e he; cases he
theorem safe_pure' {α : Type} (a : α) : Safe uf (Prog.pure a : Prog α) env l := by intro e he; cases he
theorem safe_fail {α : Type} {e : Err} (h : ¬ Bad uf e) : Safe uf (Prog.fail e : Prog α) env l := by
  intro e' he; cases he; exact h

theorem safe_dec {d : Dec} {c : Byte} {e : Err} (hd : ∀ e, d = .fail e → ¬ Bad uf e) (h : d.runF c l = .error e) : ¬ Bad uf e := by
  cases d with
  | take => cases h
  | leave => cases h
  | fail e' => cases h; exact hd _ rfl

theorem safe_token {d : Byte → Dec} (henv : ¬ Bad uf env.endErr) (hd : ∀ c e, d c = .fail e → ¬ Bad uf e) :
    Safe uf (token d) env l := by
  intro e he
  rw [runF_op] at he
  simp only [Op.runF] at he
  split at he
  · cases he; exact henv
  · exact safe_dec (hd _) he

theorem safe_byte {d : Byte → Dec} (henv : ¬ Bad uf env.endErr) (hd : ∀ c e, d c = .fail e → ¬ Bad uf e) :
    Safe uf (byte d) env l := by
  intro e he
  rw [runF_op] at he
  simp only [Op.runF] at he
  split at he
  · cases he; exact henv
  · exact safe_dec (hd _) he

theorem scanF_safe {σ β : Type} {body : σ → Byte → Act σ β} {onEOF : σ → Except Err β} (P : σ → Prop) {s : σ} {end' : Err}
    (henv : ¬ Bad uf end') (hs : P s) (hP : ∀ s c s', P s → body s c = .cont s' → P s')
    (hb : ∀ s c e, P s → body s c = .err e → ¬ Bad uf e) (ho : ∀ s e, P s → onEOF s = .error e → ¬ Bad uf e) {e : Err}
    (he : scanF body onEOF end' s l = .error e) : ¬ Bad uf e := by
  induction l generalizing s with
  | nil =>
    simp only [scanF] at he
    split at he
    · split at he
      · cases he
      · rename_i h; cases he; exact ho _ _ hs h
    · cases he; exact henv
  | cons c l ih =>
    simp only [scanF] at he
    split at he
    · rename_i h; exact ih (hP _ _ _ hs h) he
    · cases he
    · cases he
    · rename_i h; cases he; exact hb _ _ _ hs h

theorem safe_scanP {σ β : Type} {body : σ → Byte → Act σ β} {onEOF : σ → Except Err β} (P : σ → Prop) {s : σ}
    (henv : ¬ Bad uf env.endErr) (hs : P s) (hP : ∀ s c s', P s → body s c = .cont s' → P s')
    (hb : ∀ s c e, P s → body s c = .err e → ¬ Bad uf e) (ho : ∀ s e, P s → onEOF s = .error e → ¬ Bad uf e) :
    Safe uf (scan body onEOF s) env l := by
  intro e he
  rw [runF_op] at he
  exact scanF_safe P henv hs hP hb ho he

theorem safe_scan {σ β : Type} {body : σ → Byte → Act σ β} {onEOF : σ → Except Err β} {s : σ}
    (henv : ¬ Bad uf env.endErr)
    (hb : ∀ s c e, body s c = .err e → ¬ Bad uf e) (ho : ∀ s e, onEOF s = .error e → ¬ Bad uf e) :
    Safe uf (scan body onEOF s) env l :=
  safe_scanP (fun _ => True) henv trivial (fun _ _ _ _ _ => trivial) (fun s c e _ => hb s c e) (fun s e _ => ho s e)

theorem safe_remaining : Safe uf remaining env l := by
  intro e he; rw [runF_op] at he; cases he

theorem safe_inputOffset : Safe uf inputOffset env l := by
  intro e he; rw [runF_op] at he; cases he

theorem safe_captured {β : Type} {p : Prog β} (h : Safe uf p env l) : Safe uf (captured p) env l := by
  intro e he
  simp only [Prog.runF] at he
  split at he
  · cases he
  · rename_i h'; cases he; exact h _ h'

theorem safe_ofExcept_ok {α : Type} {x : Except Err α} {a : α} (h : x = .ok a) : Safe uf (Prog.ofExcept x) env l := by
  subst h; exact safe_pure' a

variable (henv : ¬ Bad uf env.endErr)
include henv

theorem safe_nextToken : Safe uf nextTokenTake env l := safe_token henv (by intro c e h; cases h)
theorem safe_nextByte : Safe uf nextByteTake env l := safe_byte henv (by intro c e h; cases h)

theorem safe_tokenEOF : Safe uf tokenEOF env l := by
  unfold tokenEOF
  refine safe_scan henv ?_ (by intro _ _ h; cases h)
  intro s c e h
  split at h
  · split at h <;> cases h
  · cases h

theorem safe_byteEOF {p : Byte → Bool} : Safe uf (byteEOF p) env l := by
  unfold byteEOF
  refine safe_scan henv ?_ (by intro _ _ h; cases h)
  intro s c e h
  split at h <;> cases h

theorem safe_expectBytes {s : List Byte} (hs : s ≠ []) : Safe uf (expectBytes s) env l := by
  unfold expectBytes
  refine safe_scanP (fun s => s ≠ []) henv hs ?_ ?_ (by intro _ _ _ h; cases h; simp [Bad])
  · intro s c s' _ h
    unfold expectBody at h
    split at h
    · cases h
    · split at h
      · cases h
      · split at h
        · cases h
        · rename_i hne; cases h; exact hne
  · intro s c e hne h
    unfold expectBody at h
    split at h
    · exact absurd rfl hne
    · split at h
      · cases h; simp [Bad]
      · split at h <;> cases h

/-! ## Strings -/

theorem safe_skipU4 : Safe uf skipU4 env l := by
  unfold skipU4
  refine safe_scan henv ?_ (by intro _ _ h; cases h; simp [Bad])
  intro s c e h
  unfold skipU4Body at h
  split at h
  · cases h; simp [Bad]
  · split at h <;> cases h

theorem safe_skipEscapedChar : Safe uf skipEscapedChar env l := by
  unfold skipEscapedChar
  refine safe_bind (safe_byte henv ?_) ?_
  · intro c e h
    split at h
    · cases h
    · split at h <;> cases h; simp [Bad]
  · intro c l' _
    split
    · exact safe_pure _
    · exact safe_skipU4 henv

theorem safe_skipStringLoop {n : Nat} (hn : l.length < n) : Safe uf (skipStringLoop n) env l := by
  induction n generalizing l with
  | zero => omega
  | succ n ih =>
    unfold skipStringLoop
    refine safe_bind (safe_scan henv ?_ (by intro _ _ h; cases h; simp [Bad])) ?_
    · intro s c e h
      unfold skipStrBody at h
      split at h
      · cases h
      · split at h
        · cases h
        · split at h <;> cases h; simp [Bad]
    · intro a l' h
      cases a with
      | quote => exact safe_pure _
      | backslash =>
        have hlen : l'.length < l.length := by
          replace h := scanF_iff.mp (runs_scan.mp h)
          obtain ⟨pre, _, _, ⟨c, t, rfl, h⟩ | ⟨_, _, h, _⟩⟩ := h
          · rcases h with ⟨h, _⟩ | ⟨_, rfl⟩
            · unfold skipStrBody at h
              split at h
              · cases h
              · split at h
                · cases h
                · split at h <;> cases h
            · simp; omega
          · cases h
        refine safe_bind (safe_skipEscapedChar henv) ?_
        intro _ l'' h2
        have := Runs.length_le h2
        exact ih (by omega)

theorem safe_skipString : Safe uf skipString env l := by
  unfold skipString
  refine safe_bind safe_remaining ?_
  intro n l' h
  obtain ⟨rfl, rfl⟩ := runs_remaining.mp h
  exact safe_skipStringLoop henv (by omega)

theorem safe_readU4 : Safe uf readU4 env l := by
  unfold readU4
  refine safe_scan henv ?_ (by intro _ _ h; cases h; simp [Bad])
  intro s c e h
  unfold readU4Body at h
  split at h
  · cases h; simp [Bad]
  · simp only [] at h
    split at h <;> cases h

theorem safe_readEscapedRetry {n : Nat} {b : List Byte} {v : Nat} (hn : l.length < n) :
    Safe uf (readEscapedRetry n b v) env l := by
  induction n generalizing l b v with
  | zero => omega
  | succ n ih =>
    unfold readEscapedRetry
    split
    · refine safe_bind (safe_byte henv ?_) ?_
      · intro c e h; split at h <;> cases h
      · intro c l1 h1
        have e1 := Runs.length_le h1
        split
        · exact safe_pure _
        · refine safe_bind (safe_byte henv ?_) ?_
          · intro c e h
            split at h
            · split at h <;> cases h; simp [Bad]
            · cases h
          · intro c2 l2 h2
            have e2 : l2.length < l1.length := by
              obtain ⟨l', rfl, ⟨_, rfl⟩ | ⟨h, _⟩⟩ := runs_byte.mp h2
              · simp
              · split at h
                · split at h <;> cases h
                · cases h
            split
            · split
              · exact safe_fail (by simp [Bad])
              · exact safe_pure _
            · refine safe_bind (safe_readU4 henv) ?_
              intro r2 l3 h3
              have := Runs.length_le h3
              simp only []
              split
              · exact ih (by omega)
              · exact safe_pure _
    · exact safe_pure _

theorem safe_readEscapedChar {b : List Byte} : Safe uf (readEscapedChar b) env l := by
  unfold readEscapedChar
  refine safe_bind (safe_byte henv ?_) ?_
  · intro c e h
    split at h
    · cases h
    · split at h <;> cases h; simp [Bad]
  · intro c l' _
    split
    · exact safe_pure _
    · refine safe_bind (safe_readU4 henv) ?_
      intro r l1 _
      refine safe_bind safe_remaining ?_
      intro n l2 h
      obtain ⟨rfl, rfl⟩ := runs_remaining.mp h
      exact safe_readEscapedRetry henv (by omega)

theorem safe_readStringLoop {n : Nat} {buf : List Byte} (hn : l.length < n) : Safe uf (readStringLoop n buf) env l := by
  induction n generalizing l buf with
  | zero => omega
  | succ n ih =>
    unfold readStringLoop
    refine safe_bind (safe_scan henv ?_ (by intro _ _ h; cases h; simp [Bad])) ?_
    · intro s c e h
      unfold readStrBody at h
      split at h
      · cases h; simp [Bad]
      · split at h
        · cases h
        · split at h <;> cases h
    · rintro ⟨buf', a⟩ l' h
      cases a with
      | quote => exact safe_pure _
      | backslash =>
        have hlen : l'.length < l.length := by
          replace h := scanF_iff.mp (runs_scan.mp h)
          obtain ⟨pre, _, _, ⟨c, t, rfl, h⟩ | ⟨_, _, h, _⟩⟩ := h
          · rcases h with ⟨h, _⟩ | ⟨_, rfl⟩
            · unfold readStrBody at h
              split at h
              · cases h
              · split at h
                · cases h
                · split at h <;> cases h
            · simp; omega
          · cases h
        refine safe_bind (safe_readEscapedChar henv) ?_
        intro _ l'' h2
        have := Runs.length_le h2
        exact ih (by omega)

theorem safe_readString : Safe uf readStringAsSlice env l := by
  unfold readStringAsSlice readStringAsSliceSlow
  refine safe_bind safe_remaining ?_
  intro n l' h
  obtain ⟨rfl, rfl⟩ := runs_remaining.mp h
  exact safe_readStringLoop henv (by omega)

/-! ## Numbers -/

theorem safe_skipExponentDigits {c : Byte} : Safe uf (skipExponentDigits c) env l := by
  unfold skipExponentDigits
  split
  · exact safe_fail (by simp [Bad])
  · refine safe_scan henv ?_ (by intro _ _ h; cases h)
    intro s c e h
    unfold expBody at h
    split at h <;> cases h

theorem safe_skipExponentPart : Safe uf skipExponentPart env l := by
  unfold skipExponentPart
  refine safe_bind (safe_nextByte henv) ?_
  intro c l' _
  split
  · exact safe_bind (safe_nextByte henv) fun _ _ _ => safe_skipExponentDigits henv
  · exact safe_skipExponentDigits henv

theorem safe_skipFractionPart : Safe uf skipFractionPart env l := by
  unfold skipFractionPart
  refine safe_bind (safe_byte henv ?_) ?_
  · intro c e h; split at h <;> cases h; simp [Bad]
  · intro c l' _
    refine safe_bind (safe_scan henv ?_ (by intro _ _ h; cases h)) ?_
    · intro s c e h; unfold fracBody at h; split at h <;> cases h
    · intro a l'' _
      split
      · exact safe_skipExponentPart henv
      · exact safe_pure _

theorem safe_skipUnsigned {c : Byte} : Safe uf (skipUnsigned c) env l := by
  unfold skipUnsigned
  split
  · refine safe_bind (safe_byteEOF henv) ?_
    intro a l' _
    split
    · exact safe_pure _
    · split
      · exact safe_skipFractionPart henv
      · exact safe_skipExponentPart henv
      · exact safe_pure _
  · refine safe_bind (safe_scan henv ?_ (by intro _ _ h; cases h)) ?_
    · intro s c e h; unfold intBody at h; split at h <;> cases h
    · intro a l' _
      split
      · exact safe_skipFractionPart henv
      · exact safe_skipExponentPart henv
      · exact safe_pure _

theorem safe_skipNumber {c : Byte} : Safe uf (skipNumber c) env l := by
  unfold skipNumber
  split
  · refine safe_bind (safe_byte henv ?_) fun _ _ _ => safe_skipUnsigned henv
    intro c e h; split at h <;> cases h; simp [Bad]
  · exact safe_skipUnsigned henv

theorem safe_readNumberAsString {c : Byte} : Safe uf (readNumberAsString c) env l := by
  unfold readNumberAsString
  exact safe_bind (safe_captured (safe_skipNumber henv)) fun _ _ _ => safe_pure _

section
variable {F : Type} {ops : FloatOps F} (hops : ∀ t e, ops.parse t = .error e → ¬ Bad uf e)
include hops

omit henv in
theorem safe_parseFloat {buf : List Byte} : Safe uf (parseFloat ops buf) env l := by
  unfold parseFloat
  split
  · exact safe_pure _
  · rename_i h; exact safe_fail (hops _ _ h)

theorem safe_readFloatExponentDigits {buf : List Byte} {c : Byte} : Safe uf (readFloatExponentDigits ops buf c) env l := by
  unfold readFloatExponentDigits
  split
  · exact safe_fail (by simp [Bad])
  · refine safe_bind (safe_scan henv ?_ (by intro _ _ h; cases h)) fun _ _ _ => safe_parseFloat hops
    intro s c e h
    unfold fexpBody at h
    split at h <;> cases h

theorem safe_readFloatExponentPart {buf : List Byte} : Safe uf (readFloatExponentPart ops buf) env l := by
  unfold readFloatExponentPart
  refine safe_bind (safe_nextByte henv) ?_
  intro c l' _
  split
  · exact safe_bind (safe_nextByte henv) fun _ _ _ => safe_readFloatExponentDigits henv hops
  · exact safe_readFloatExponentDigits henv hops

theorem safe_readFloatFractionPart {buf : List Byte} : Safe uf (readFloatFractionPart ops buf) env l := by
  unfold readFloatFractionPart
  refine safe_bind (safe_byte henv ?_) ?_
  · intro c e h; split at h <;> cases h; simp [Bad]
  · intro c l' _
    refine safe_bind (safe_scan henv ?_ (by intro _ _ h; cases h)) ?_
    · intro s c e h; unfold ffracBody at h; split at h <;> cases h
    · rintro ⟨b, a⟩ l'' _
      cases a
      · exact safe_parseFloat hops
      · exact safe_readFloatExponentPart henv hops
      · exact safe_parseFloat hops

theorem safe_readPositiveFloat {c : Byte} : Safe uf (readPositiveFloat ops c) env l := by
  unfold readPositiveFloat
  split
  · exact safe_fail (by simp [Bad])
  · refine safe_bind (safe_byteEOF henv) ?_
    intro a l' _
    split
    · exact safe_pure _
    · split
      · exact safe_readFloatFractionPart henv hops
      · exact safe_readFloatExponentPart henv hops
      · exact safe_pure _
  · refine safe_bind (safe_scan henv ?_ (by intro _ _ h; cases h)) ?_
    · intro s c e h; unfold fintBody at h; split at h <;> cases h
    · rintro ⟨b, a⟩ l' _
      cases a
      · exact safe_readFloatFractionPart henv hops
      · exact safe_readFloatExponentPart henv hops
      · exact safe_parseFloat hops

theorem safe_readFloat {c : Byte} : Safe uf (readFloat ops c) env l := by
  unfold readFloat
  split
  · exact safe_bind (safe_nextByte henv) fun _ _ _ => safe_bind (safe_readPositiveFloat henv hops) fun _ _ _ => safe_pure _
  · exact safe_readPositiveFloat henv hops

end

/-! ## Skip -/

theorem safe_skipScalar {c : Byte} : Safe uf (skipScalar c) env l := by
  unfold skipScalar
  split
  · exact safe_skipString henv
  · split
    · exact safe_expectBytes henv (by decide)
    · split
      · exact safe_expectBytes henv (by decide)
      · split
        · exact safe_expectBytes henv (by decide)
        · split
          · exact safe_skipNumber henv
          · exact safe_fail (by simp [Bad])

theorem safe_colon : Safe uf (token fun c => if c ≠ b! ':' then .fail (.unexpectedByte c (b! ':') 0) else .take) env l := by
  refine safe_token henv ?_
  intro c e h; split at h <;> cases h; simp [Bad]

theorem safe_quote : Safe uf (token fun c => if c ≠ b! '"' then .fail (.unexpectedByte c (b! '"') 0) else .take) env l := by
  refine safe_token henv ?_
  intro c e h; split at h <;> cases h; simp [Bad]

theorem safe_skipObjectField : Safe uf skipObjectField env l := by
  unfold skipObjectField
  exact safe_bind (safe_skipString henv) fun _ _ _ => safe_bind (safe_colon henv) fun _ _ _ => safe_pure _

theorem safe_skipElement {again : StackElem → Stack → Prog Unit} {s : Stack} {bits : List Bool} {c : Byte}
    (hs : s.Abs bits)
    (hag : ∀ top s bits l', top ≠ .none → s.Abs bits → l'.length ≤ l.length → Safe uf (again top s) env l') :
    Safe uf (skipElement again s c) env l := by
  obtain ⟨s', hp, ha⟩ := pushArray_abs hs
  unfold skipElement
  rw [hp]
  split
  · refine safe_bind (safe_ofExcept_ok rfl) ?_
    rintro a l' h
    obtain ⟨h, rfl⟩ := runs_ofExcept.mp h
    cases h
    exact hag _ _ _ _ (by decide) ha (Nat.le_refl _)
  · split
    · refine safe_bind (safe_ofExcept_ok rfl) ?_
      rintro a l' h
      obtain ⟨h, rfl⟩ := runs_ofExcept.mp h
      cases h
      exact hag _ _ _ _ (by decide) ha (Nat.le_refl _)
    · exact safe_bind (safe_skipScalar henv) fun _ _ h => hag _ _ _ _ (by decide) hs (Runs.length_le h)

theorem safe_skipMember {again : StackElem → Stack → Prog Unit} {s : Stack} {bits : List Bool} (hs : s.Abs bits)
    (hag : ∀ top s bits l', top ≠ .none → s.Abs bits → l'.length ≤ l.length → Safe uf (again top s) env l') :
    Safe uf (skipMember again s) env l := by
  obtain ⟨s', hp, ha⟩ := pushObject_abs hs
  unfold skipMember
  rw [hp]
  refine safe_bind (safe_skipObjectField henv) fun _ l1 h1 => safe_bind (safe_nextToken henv) fun c l2 h2 => ?_
  have e1 := Runs.length_le h1
  have e2 := Runs.length_le h2
  split
  · refine safe_bind (safe_ofExcept_ok rfl) ?_
    rintro a l' h
    obtain ⟨h, rfl⟩ := runs_ofExcept.mp h
    cases h
    exact hag _ _ _ _ (by decide) ha (by omega)
  · split
    · refine safe_bind (safe_ofExcept_ok rfl) ?_
      rintro a l' h
      obtain ⟨h, rfl⟩ := runs_ofExcept.mp h
      cases h
      exact hag _ _ _ _ (by decide) ha (by omega)
    · refine safe_bind (safe_skipScalar henv) fun _ _ h => ?_
      have := Runs.length_le h
      exact hag _ _ _ _ (by decide) hs (by omega)

theorem safe_skipWithStack {n : Nat} {top : StackElem} {s : Stack} {bits : List Bool} (htop : top ≠ .none) (hs : s.Abs bits)
    (hn : l.length < n) : Safe uf (skipWithStack n top s) env l := by
  induction n generalizing l top s bits with
  | zero => omega
  | succ n ih =>
    have hclose : ∀ l' : List Byte, l'.length < n → Safe uf (do
        let (top, s) ← Prog.ofExcept s.pop
        if top = .none then pure () else skipWithStack n top s) env l' := by
      intro l' hl'
      cases bits with
      | nil =>
        rw [pop_nil hs]
        refine safe_bind (safe_ofExcept_ok rfl) ?_
        rintro ⟨t, s1⟩ l1 h
        obtain ⟨h, rfl⟩ := runs_ofExcept.mp h
        cases h
        simp only [if_true]
        exact safe_pure _
      | cons b bits =>
        obtain ⟨s', hp, ha⟩ := pop_cons hs
        rw [hp]
        refine safe_bind (safe_ofExcept_ok rfl) ?_
        rintro ⟨t, s1⟩ l1 h
        obtain ⟨h, rfl⟩ := runs_ofExcept.mp h
        cases h
        have hne : elemOf b ≠ .none := by cases b <;> simp [elemOf]
        simp only [if_neg hne]
        exact ih hne ha hl'
    unfold skipWithStack
    refine safe_bind (safe_nextToken henv) fun c l1 h1 => ?_
    have e1 := dropWs_length (runs_nextToken.mp h1)
    have again : ∀ l2 : List Byte, l2.length ≤ l1.length → ∀ top s bits l', top ≠ .none → s.Abs bits → l'.length ≤ l2.length →
        Safe uf (skipWithStack n top s) env l' := fun l2 h2 top s bits l' ht ha hl => ih ht ha (by omega)
    split
    · split
      · exact hclose _ (by omega)
      · split
        · split
          · exact safe_fail (by simp [Bad])
          · refine safe_bind (safe_nextToken henv) fun c2 l2 h2 => ?_
            have e2 := dropWs_length (runs_nextToken.mp h2)
            split
            · exact safe_fail (by simp [Bad])
            · exact safe_skipMember henv hs (again l2 (by omega))
        · split
          · exact safe_fail (by simp [Bad])
          · exact safe_skipMember henv hs (again l1 (by omega))
    · split
      · exact hclose _ (by omega)
      · split
        · split
          · exact safe_fail (by simp [Bad])
          · refine safe_bind (safe_nextToken henv) fun c2 l2 h2 => ?_
            have e2 := dropWs_length (runs_nextToken.mp h2)
            exact safe_skipElement henv hs (again l2 (by omega))
        · exact safe_skipElement henv hs (again l1 (by omega))

theorem safe_skipArrayLoop (pool : Stack) {n : Nat} {c : Byte} (hn : l.length < n) :
    Safe uf (skipArrayLoop pool n c) env l := by
  induction n generalizing l c with
  | zero => omega
  | succ n ih =>
    unfold skipArrayLoop
    split
    · refine safe_bind safe_remaining fun m l1 h => ?_
      obtain ⟨rfl, rfl⟩ := runs_remaining.mp h
      exact safe_skipWithStack henv (by decide) (initArray_abs pool) (by omega)
    · split
      · refine safe_bind safe_remaining fun m l1 h => ?_
        obtain ⟨rfl, rfl⟩ := runs_remaining.mp h
        exact safe_skipWithStack henv (by decide) (initArray_abs pool) (by omega)
      · refine safe_bind (safe_skipScalar henv) fun _ l1 h1 => safe_bind (safe_nextToken henv) fun c1 l2 h2 => ?_
        have e1 := Runs.length_le h1
        have e2 := dropWs_length (runs_nextToken.mp h2)
        split
        · exact safe_pure _
        · split
          · exact safe_fail (by simp [Bad])
          · refine safe_bind (safe_nextToken henv) fun c2 l3 h3 => ?_
            have e3 := dropWs_length (runs_nextToken.mp h3)
            exact ih (by omega)

theorem safe_skipArrayWithStack (pool : Stack) : Safe uf (skipArrayWithStack pool) env l := by
  unfold skipArrayWithStack
  refine safe_bind (safe_nextToken henv) fun c l1 _ => ?_
  split
  · exact safe_pure _
  · refine safe_bind safe_remaining fun m l1 h => ?_
    obtain ⟨rfl, rfl⟩ := runs_remaining.mp h
    exact safe_skipArrayLoop henv pool (by omega)

theorem safe_skipObjectLoop (pool : Stack) {n : Nat} (hn : l.length < n) :
    Safe uf (skipObjectLoop pool n) env l := by
  induction n generalizing l with
  | zero => omega
  | succ n ih =>
    unfold skipObjectLoop
    refine safe_bind (safe_skipObjectField henv) fun _ l0 h0 => safe_bind (safe_nextToken henv) fun c l1 h1 => ?_
    have e0 := Runs.length_le h0
    have e1 := dropWs_length (runs_nextToken.mp h1)
    split
    · refine safe_bind safe_remaining fun m l1 h => ?_
      obtain ⟨rfl, rfl⟩ := runs_remaining.mp h
      exact safe_skipWithStack henv (by decide) (initObject_abs pool) (by omega)
    · split
      · refine safe_bind safe_remaining fun m l1 h => ?_
        obtain ⟨rfl, rfl⟩ := runs_remaining.mp h
        exact safe_skipWithStack henv (by decide) (initObject_abs pool) (by omega)
      · refine safe_bind (safe_skipScalar henv) fun _ l1 h1 => safe_bind (safe_nextToken henv) fun c1 l2 h2 => ?_
        have e1 := Runs.length_le h1
        have e2 := dropWs_length (runs_nextToken.mp h2)
        split
        · exact safe_pure _
        · split
          · exact safe_fail (by simp [Bad])
          · refine safe_bind (safe_quote henv) fun c2 l3 h3 => ?_
            have e3 := Runs.length_le h3
            exact ih (by omega)

theorem safe_objectOpen : Safe uf (token fun c =>
    if c = b! '}' then .take
    else if c ≠ b! '"' then .fail (.unexpectedByte c (b! '"') 0) else .take) env l := by
  refine safe_token henv ?_
  intro c e h
  split at h
  · cases h
  · split at h <;> cases h; simp [Bad]

theorem safe_skipObjectWithStack (pool : Stack) : Safe uf (skipObjectWithStack pool) env l := by
  unfold skipObjectWithStack
  refine safe_bind (safe_objectOpen henv) fun c l1 _ => ?_
  split
  · exact safe_pure _
  · refine safe_bind safe_remaining fun m l1 h => ?_
    obtain ⟨rfl, rfl⟩ := runs_remaining.mp h
    exact safe_skipObjectLoop henv pool (by omega)

theorem safe_skipFunction (pool : Stack) {c : Byte} : Safe uf (skipFunction pool c) env l := by
  unfold skipFunction
  split
  · exact safe_skipArrayWithStack henv pool
  · split
    · exact safe_skipObjectWithStack henv pool
    · exact safe_skipScalar henv

theorem safe_Skip (pool : Stack) : Safe uf (Skip pool) env l := by
  unfold Skip
  exact safe_bind (safe_nextToken henv) fun _ _ _ => safe_skipFunction henv pool

theorem safe_SkipRaw (pool : Stack) : Safe uf (SkipRaw pool) env l := by
  unfold SkipRaw
  refine safe_bind (safe_token henv (by intro c e h; cases h)) fun c l1 _ => ?_
  exact safe_bind (safe_captured (safe_bind (safe_nextByte henv) fun _ _ _ => safe_skipFunction henv pool))
    fun _ _ _ => safe_pure _

theorem safe_validProg (pool : Stack) : Safe uf (validProg pool) env l := by
  unfold validProg
  refine safe_bind (safe_Skip henv pool) fun _ _ _ => safe_bind (safe_tokenEOF henv) fun a _ _ => ?_
  split <;> exact safe_pure _

/-! ## Read -/

section
variable {F : Type} {cfg : ReadCfg F} (hops : ∀ t e, cfg.ops.parse t = .error e → ¬ Bad uf e)
include hops

theorem safe_readScalar {c : Byte} : Safe uf (readScalar cfg c) env l := by
  unfold readScalar
  split
  · exact safe_bind (safe_readString henv) fun _ _ _ => safe_pure _
  · split
    · exact safe_bind (safe_expectBytes henv (by decide)) fun _ _ _ => safe_pure _
    · split
      · exact safe_bind (safe_expectBytes henv (by decide)) fun _ _ _ => safe_pure _
      · split
        · exact safe_bind (safe_expectBytes henv (by decide)) fun _ _ _ => safe_pure _
        · split
          · unfold readNumberVal
            split
            · exact safe_bind (safe_readNumberAsString henv) fun _ _ _ => safe_pure _
            · exact safe_bind (safe_readFloat henv hops) fun _ _ _ => safe_pure _
          · exact safe_fail (by simp [Bad])

omit hops in
theorem safe_readObjectField : Safe uf readObjectField env l := by
  unfold readObjectField
  exact safe_bind (safe_readString henv) fun _ _ _ => safe_bind (safe_colon henv) fun _ _ _ => safe_pure _

/-- What the loop of `readWithStack` keeps true of its two stacks. -/
def StacksOk (top : StackElem) (s : Stack) (ns : NodeStack F) : Prop :=
  ∃ n rest, ns = n :: rest ∧ s.Abs (kinds rest) ∧ top ≠ .none ∧ (top.isObject = true ↔ n.m.isSome = true)

theorem safe_readElement {again : StackElem → Stack → NodeStack F → Prog (GoVal F)} {top : StackElem} {s : Stack}
    {ns : NodeStack F} {c : Byte} (hok : StacksOk top s ns) (htop : top.isObject = false)
    (hag : ∀ top s ns l', StacksOk top s ns → l'.length ≤ l.length → Safe uf (again top s ns) env l') :
    Safe uf (readElement cfg again s ns c) env l := by
  obtain ⟨n, rest, rfl, hs, _, hm⟩ := hok
  have hnone : n.m = none := by
    cases h : n.m with
    | none => rfl
    | some m => rw [h, htop] at hm; simp at hm
  have hk : kinds (n :: rest) = true :: kinds rest := by simp [kinds, hnone]
  obtain ⟨s', hp, ha⟩ := pushArray_abs hs
  rw [← hk] at ha
  unfold readElement
  rw [hp]
  split
  · refine safe_bind (safe_ofExcept_ok rfl) ?_
    rintro a l' h
    obtain ⟨h, rfl⟩ := runs_ofExcept.mp h
    cases h
    exact hag _ _ _ _ ⟨_, _, rfl, ha, by decide, by simp [StackElem.isObject]⟩ (Nat.le_refl _)
  · split
    · refine safe_bind (safe_ofExcept_ok rfl) ?_
      rintro a l' h
      obtain ⟨h, rfl⟩ := runs_ofExcept.mp h
      cases h
      exact hag _ _ _ _ ⟨_, _, rfl, ha, by decide, by simp [StackElem.isObject]⟩ (Nat.le_refl _)
    · refine safe_bind (safe_readScalar henv hops) fun o l1 h1 => safe_bind (safe_ofExcept_ok rfl) fun ns1 l2 h2 => ?_
      obtain ⟨h2, rfl⟩ := runs_ofExcept.mp h2
      cases h2
      exact hag _ _ _ _ ⟨_, _, rfl, hs, by decide, by simp [StackElem.isObject, hnone]⟩ (Runs.length_le h1)

theorem safe_readMember {again : StackElem → Stack → NodeStack F → Prog (GoVal F)} {top : StackElem} {s : Stack}
    {ns : NodeStack F} (hok : StacksOk top s ns) (htop : top.isObject = true)
    (hag : ∀ top s ns l', StacksOk top s ns → l'.length ≤ l.length → Safe uf (again top s ns) env l') :
    Safe uf (readMember cfg again s ns) env l := by
  obtain ⟨n, rest, rfl, hs, _, hm⟩ := hok
  obtain ⟨m, hsome⟩ : ∃ m, n.m = some m := by
    cases h : n.m with
    | none => rw [h, htop] at hm; simp at hm
    | some m => exact ⟨m, rfl⟩
  have hk : kinds (n :: rest) = false :: kinds rest := by simp [kinds, hsome]
  obtain ⟨s', hp, ha⟩ := pushObject_abs hs
  rw [← hk] at ha
  unfold readMember
  rw [hp]
  refine safe_bind (safe_readObjectField henv) fun _ l1 h1 => safe_bind (safe_nextToken henv) fun c l2 h2 => ?_
  have e1 := Runs.length_le h1
  have e2 := Runs.length_le h2
  split
  · refine safe_bind (safe_ofExcept_ok rfl) ?_
    rintro a l' h
    obtain ⟨h, rfl⟩ := runs_ofExcept.mp h
    cases h
    exact hag _ _ _ _ ⟨_, _, rfl, ha, by decide, by simp [StackElem.isObject]⟩ (by omega)
  · split
    · refine safe_bind (safe_ofExcept_ok rfl) ?_
      rintro a l' h
      obtain ⟨h, rfl⟩ := runs_ofExcept.mp h
      cases h
      exact hag _ _ _ _ ⟨_, _, rfl, ha, by decide, by simp [StackElem.isObject]⟩ (by omega)
    · refine safe_bind (safe_readScalar henv hops) fun o l1 h1 => ?_
      have e3 := Runs.length_le h1
      simp only [NodeStack.setTopObject, hsome]
      refine safe_bind (safe_ofExcept_ok rfl) fun ns1 l2 h2 => ?_
      obtain ⟨h2, rfl⟩ := runs_ofExcept.mp h2
      cases h2
      exact hag _ _ _ _ ⟨_, _, rfl, hs, by decide, by simp [StackElem.isObject]⟩ (by omega)

theorem safe_readWithStack {n : Nat} {top : StackElem} {s : Stack} {ns : NodeStack F} (hok : StacksOk top s ns)
    (hn : l.length < n) : Safe uf (readWithStack cfg n top s ns) env l := by
  induction n generalizing l top s ns with
  | zero => omega
  | succ n ih =>
    have hclose : ∀ (fin : Except Err (GoVal F)) (pop : Except Err (NodeStack F)) (l' : List Byte),
        (∃ g, fin = .ok g) → (∀ x rest n0, ns = n0 :: x :: rest → ∃ x', pop = .ok (x' :: rest) ∧ x'.m.isNone = x.m.isNone) →
        l'.length < n → Safe uf (do
        let (top, s) ← Prog.ofExcept s.pop
        if top = .none then Prog.ofExcept fin
        else do
          let ns ← Prog.ofExcept pop
          readWithStack cfg n top s ns) env l' := by
      intro fin pop l' hfin hpop hl'
      obtain ⟨n0, rest, rfl, hs, _, hm⟩ := hok
      cases rest with
      | nil =>
        rw [pop_nil hs]
        refine safe_bind (safe_ofExcept_ok rfl) ?_
        rintro ⟨t, s1⟩ l1 h
        obtain ⟨h, rfl⟩ := runs_ofExcept.mp h
        cases h
        simp only [if_true]
        obtain ⟨g, rfl⟩ := hfin
        exact safe_ofExcept_ok rfl
      | cons x rest =>
        have hk : kinds (x :: rest) = x.m.isNone :: kinds rest := by simp [kinds]
        rw [hk] at hs
        obtain ⟨s', hp, ha⟩ := pop_cons hs
        rw [hp]
        refine safe_bind (safe_ofExcept_ok rfl) ?_
        rintro ⟨t, s1⟩ l1 h
        obtain ⟨h, rfl⟩ := runs_ofExcept.mp h
        cases h
        have hne : elemOf x.m.isNone ≠ .none := by cases x.m <;> simp [elemOf]
        simp only [if_neg hne]
        obtain ⟨x', rfl, hx'⟩ := hpop x rest n0 rfl
        refine safe_bind (safe_ofExcept_ok rfl) fun ns1 l2 h2 => ?_
        obtain ⟨h2, rfl⟩ := runs_ofExcept.mp h2
        cases h2
        refine ih ⟨x', rest, rfl, ha, hne, ?_⟩ hl'
        rw [← hx']
        cases x'.m <;> simp [elemOf, StackElem.isObject]
    have hattach : ∀ field g (x : Node F) rest, ∃ x', NodeStack.attach field g (x :: rest) = .ok (x' :: rest) ∧
        x'.m.isNone = x.m.isNone := by
      intro field g x rest
      cases h : x.m with
      | none => exact ⟨{ x with s := x.s ++ [g] }, by simp [NodeStack.attach, h], by simp [h]⟩
      | some m => exact ⟨{ x with m := some (m.set field g) }, by simp [NodeStack.attach, h], by simp⟩
    have hok' := hok
    obtain ⟨n0, rest0, hns, _⟩ := hok'
    unfold readWithStack
    refine safe_bind (safe_nextToken henv) fun c l1 h1 => ?_
    have e1 := dropWs_length (runs_nextToken.mp h1)
    have again : ∀ l2 : List Byte, l2.length ≤ l1.length → ∀ top s ns l', StacksOk top s ns → l'.length ≤ l2.length →
        Safe uf (readWithStack cfg n top s ns) env l' := fun l2 h2 top s bits l' ha hl => ih ha (by omega)
    split
    · rename_i hobj
      split
      · refine hclose _ _ _ ?_ ?_ (by omega)
        · subst hns; exact ⟨_, rfl⟩
        · rintro x rest n1 rfl
          exact hattach _ _ _ _
      · split
        · split
          · exact safe_fail (by simp [Bad])
          · refine safe_bind (safe_nextToken henv) fun c2 l2 h2 => ?_
            have e2 := dropWs_length (runs_nextToken.mp h2)
            split
            · exact safe_fail (by simp [Bad])
            · exact safe_readMember henv hops hok hobj (again l2 (by omega))
        · split
          · exact safe_fail (by simp [Bad])
          · exact safe_readMember henv hops hok hobj (again l1 (by omega))
    · rename_i hobj
      have hobj : top.isObject = false := by simpa using hobj
      split
      · refine hclose _ _ _ ?_ ?_ (by omega)
        · subst hns; exact ⟨_, rfl⟩
        · rintro x rest n1 rfl
          exact hattach _ _ _ _
      · split
        · split
          · exact safe_fail (by simp [Bad])
          · refine safe_bind (safe_nextToken henv) fun c2 l2 h2 => ?_
            have e2 := dropWs_length (runs_nextToken.mp h2)
            exact safe_readElement henv hops hok hobj (again l2 (by omega))
        · exact safe_readElement henv hops hok hobj (again l1 (by omega))

theorem safe_readArrayLoop (pool : Stack) {n : Nat} {acc : List (GoVal F)} {c : Byte} (hn : l.length < n) :
    Safe uf (readArrayLoop cfg pool n acc c) env l := by
  induction n generalizing l c acc with
  | zero => omega
  | succ n ih =>
    have ha : pool.initArray.Abs (kinds (NodeStack.initArray acc)) := by
      simpa [kinds, NodeStack.initArray] using initArray_abs pool
    unfold readArrayLoop
    split
    · refine safe_bind safe_remaining fun m l1 h => ?_
      obtain ⟨rfl, rfl⟩ := runs_remaining.mp h
      exact safe_readWithStack henv hops ⟨_, _, rfl, ha, by decide, by simp [StackElem.isObject]⟩ (by omega)
    · split
      · refine safe_bind safe_remaining fun m l1 h => ?_
        obtain ⟨rfl, rfl⟩ := runs_remaining.mp h
        exact safe_readWithStack henv hops ⟨_, _, rfl, ha, by decide, by simp [StackElem.isObject]⟩ (by omega)
      · refine safe_bind (safe_readScalar henv hops) fun _ l1 h1 => safe_bind (safe_nextToken henv) fun c1 l2 h2 => ?_
        have e1 := Runs.length_le h1
        have e2 := dropWs_length (runs_nextToken.mp h2)
        split
        · exact safe_pure _
        · split
          · exact safe_fail (by simp [Bad])
          · refine safe_bind (safe_nextToken henv) fun c2 l3 h3 => ?_
            have e3 := dropWs_length (runs_nextToken.mp h3)
            exact ih (by omega)

theorem safe_readObjectLoop (pool : Stack) {n : Nat} {m : GoMap F} (hn : l.length < n) :
    Safe uf (readObjectLoop cfg pool n m) env l := by
  induction n generalizing l m with
  | zero => omega
  | succ n ih =>
    have ha : pool.initObject.Abs (kinds (NodeStack.initObject m)) := by
      simpa [kinds, NodeStack.initObject] using initObject_abs pool
    unfold readObjectLoop
    refine safe_bind (safe_readObjectField henv) fun _ l0 h0 => safe_bind (safe_nextToken henv) fun c l1 h1 => ?_
    have e0 := Runs.length_le h0
    have e1 := dropWs_length (runs_nextToken.mp h1)
    split
    · refine safe_bind safe_remaining fun m l1 h => ?_
      obtain ⟨rfl, rfl⟩ := runs_remaining.mp h
      exact safe_readWithStack henv hops ⟨_, _, rfl, ha, by decide, by simp [StackElem.isObject]⟩ (by omega)
    · split
      · refine safe_bind safe_remaining fun m l1 h => ?_
        obtain ⟨rfl, rfl⟩ := runs_remaining.mp h
        exact safe_readWithStack henv hops ⟨_, _, rfl, ha, by decide, by simp [StackElem.isObject]⟩ (by omega)
      · refine safe_bind (safe_readScalar henv hops) fun _ l1 h1 => safe_bind (safe_nextToken henv) fun c1 l2 h2 => ?_
        have e1 := Runs.length_le h1
        have e2 := dropWs_length (runs_nextToken.mp h2)
        split
        · exact safe_pure _
        · split
          · exact safe_fail (by simp [Bad])
          · refine safe_bind (safe_quote henv) fun c2 l3 h3 => ?_
            have e3 := Runs.length_le h3
            exact ih (by omega)

theorem safe_readFunction (pool : Stack) {c : Byte} : Safe uf (readFunction cfg pool c) env l := by
  unfold readFunction
  split
  · unfold readArrayWithStack
    refine safe_bind (safe_nextToken henv) fun c l1 _ => ?_
    split
    · exact safe_pure _
    · refine safe_bind safe_remaining fun m l1 h => ?_
      obtain ⟨rfl, rfl⟩ := runs_remaining.mp h
      exact safe_readArrayLoop henv hops pool (by omega)
  · split
    · unfold readObjectWithStack
      refine safe_bind (safe_objectOpen henv) fun c l1 _ => ?_
      split
      · exact safe_pure _
      · refine safe_bind safe_remaining fun m l1 h => ?_
        obtain ⟨rfl, rfl⟩ := runs_remaining.mp h
        exact safe_readObjectLoop henv hops pool (by omega)
    · exact safe_readScalar henv hops

theorem safe_Read (pool : Stack) : Safe uf (Read cfg pool) env l := by
  unfold Read
  exact safe_bind (safe_nextToken henv) fun _ _ _ => safe_readFunction henv hops pool

end

end

end Jzon
