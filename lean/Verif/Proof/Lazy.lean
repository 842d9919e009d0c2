import Verif.Proof.Storage
import Verif.Proof.Sim

/-!
# When the reader is asked for more
-/

set_option linter.unusedSimpArgs false

namespace Jzon

/-! ## Programs that end with the byte they take -/

/-- What is known about the position of a program: at the start of a value that is not a number, anything, or just behind a byte that
was taken. -/
inductive Pos where
  | first
  | loose
  | tight
  deriving DecidableEq

/-- The position after a byte was seen and left. -/
def Pos.left : Pos → Pos
  | .first => .first
  | _ => .loose

/-- The scan can only end by taking a byte. -/
def Op.Takes : {β : Type} → Op β → Prop
  | _, .scan body onEOF _ => (∀ s c b, body s c ≠ .stop b) ∧ ∀ s b, onEOF s ≠ .ok b
  | _, _ => False

/-- At the start of a value that is not a number this cannot be the result. -/
def Op.Fits : {β : Type} → Pos → Op β → β → Prop
  | _, .first, .token _, c => isNumberStart c = false
  | _, _, _, _ => True

open Classical in
/-- The position after the operation. -/
noncomputable def Op.next : {β : Type} → Pos → Op β → β → Pos
  | _, s, .token d, c => if d c = .leave then s.left else .tight
  | _, _, .byte d, c => if d c = .leave then .loose else .tight
  | _, _, .scan body onEOF s, _ => if (Op.scan body onEOF s).Takes then .tight else .loose
  | _, s, _, _ => s

/-- Every run that succeeds ends just behind a byte it took. -/
inductive Prog.Tight : Pos → {α : Type} → Prog α → Prop
  | pure {α : Type} (a : α) : Prog.Tight .tight (.pure a)
  | fail {α : Type} (s : Pos) (e : Err) : Prog.Tight s (.fail e : Prog α)
  | op {α β : Type} (s : Pos) (o : Op β) (k : β → Prog α) :
      (∀ b, o.Gives b → o.Fits s b → Prog.Tight (o.next s b) (k b)) → Prog.Tight s (.op o k)
  | captured {α β : Type} (s : Pos) (p : Prog β) (k : β × List Byte → Prog α) : Prog.Tight s p →
      (∀ x, Prog.Tight .tight (k x)) → Prog.Tight s (.captured p k)
  | capturedThen {α β : Type} (s : Pos) (p : Prog β) (k : β × List Byte → Prog α) :
      (∀ x, Prog.Tight .loose (k x)) → Prog.Tight s (.captured p k)

namespace Prog.Tight

theorem fits_loose {β : Type} (o : Op β) (b : β) : o.Fits .loose b := by cases o <;> trivial

theorem weaken {α : Type} {p : Prog α} (h : Prog.Tight .loose p) (s : Pos) : Prog.Tight s p := by
  generalize hs : Pos.loose = s0 at h
  induction h generalizing s with
  | pure a => cases hs
  | fail s0 e => exact .fail _ _
  | op s0 o k h ih =>
    subst hs
    refine .op s o k fun b hg _ => ?_
    have h1 := h b hg (fits_loose o b)
    have h2 := fun hl s => ih b hg (fits_loose o b) s hl
    cases o with
    | token d =>
      simp only [Op.next] at h1 h2 ⊢
      by_cases hd : d b = .leave
      · simp only [hd, if_true] at h2 ⊢
        exact h2 rfl _
      · simp only [hd, if_false] at h1 ⊢
        exact h1
    | byte d => exact h1
    | scan body onEOF s => exact h1
    | inputOffset => exact h2 rfl _
    | remaining => exact h2 rfl _
  | captured s0 p k hp hk ihp _ =>
    subst hs
    exact .captured s p k (ihp s rfl) hk
  | capturedThen s0 p k hk _ => exact .capturedThen s p k hk

theorem bind {α β : Type} {p : Prog α} {f : α → Prog β} {s : Pos} (hp : Prog.Tight s p) (hf : ∀ a, Prog.Tight .tight (f a)) :
    Prog.Tight s (p >>= f) := by
  change Prog.Tight s (p.bind f)
  induction hp with
  | pure a => exact hf a
  | fail s e => exact .fail _ _
  | op s o k _ ih => exact .op s o _ fun b hg hs => ih b hg hs hf
  | captured s p k hp _ _ ih => exact .captured s p _ hp fun x => ih x hf
  | capturedThen s p k _ ih =>
    exact .capturedThen s p _ fun x => ih x hf

theorem bindThen {α β : Type} (p : Prog α) {f : α → Prog β} {s : Pos} (hf : ∀ a, Prog.Tight .loose (f a)) :
    Prog.Tight s (p >>= f) := by
  change Prog.Tight s (p.bind f)
  induction p generalizing s with
  | pure a => exact (hf a).weaken s
  | fail e => exact .fail _ _
  | op o k ih => exact .op s o _ fun b _ _ => ih b hf
  | captured p k _ ih => exact .capturedThen s p _ fun x => ih x hf

theorem ofExcept {α : Type} (r : Except Err α) : Prog.Tight .tight (Prog.ofExcept r) := by
  cases r
  · exact .fail _ _
  · exact .pure _

theorem scan {σ β : Type} {body : σ → Byte → Act σ β} {onEOF : σ → Except Err β} {s : σ} (p : Pos)
    (h : (Op.scan body onEOF s).Takes) : Prog.Tight p (.op (.scan body onEOF s) .pure) := by
  refine .op _ _ _ fun b _ _ => ?_
  simp only [Op.next, h, if_true]
  exact .pure _

theorem scanBind {σ β α : Type} {body : σ → Byte → Act σ β} {onEOF : σ → Except Err β} {s : σ} {f : β → Prog α} (p : Pos)
    (h : (Op.scan body onEOF s).Takes) (hf : ∀ b, Prog.Tight .tight (f b)) : Prog.Tight p (Jzon.scan body onEOF s >>= f) := by
  refine .op _ _ _ fun b _ _ => ?_
  simp only [Op.next, h, if_true]
  exact hf b

theorem tokenBind {α : Type} {d : Byte → Dec} {f : Byte → Prog α} (s : Pos)
    (ht : ∀ c, d c = .take → (s = .first → isNumberStart c = false) → Prog.Tight .tight (f c))
    (hl : ∀ c, d c = .leave → (s = .first → isNumberStart c = false) → Prog.Tight s.left (f c)) :
    Prog.Tight s (Jzon.token d >>= f) := by
  refine .op _ _ _ fun c hg hc => ?_
  have hc' : s = .first → isNumberStart c = false := by
    rintro rfl
    exact hc
  change Prog.Tight _ (f c)
  simp only [Op.next]
  cases hd : d c with
  | take => simpa using ht c hd hc'
  | leave => simpa using hl c hd hc'
  | fail e => exact absurd hd (hg e)

theorem byteBind {α : Type} {d : Byte → Dec} {f : Byte → Prog α} (s : Pos) (ht : ∀ c, d c = .take → Prog.Tight .tight (f c))
    (hl : ∀ c, d c = .leave → Prog.Tight .loose (f c)) : Prog.Tight s (Jzon.byte d >>= f) := by
  refine .op _ _ _ fun c hg _ => ?_
  change Prog.Tight _ (f c)
  simp only [Op.next]
  cases hd : d c with
  | take => simpa using ht c hd
  | leave => simpa using hl c hd
  | fail e => exact absurd hd (hg e)

theorem remainingBind {α : Type} {f : Nat → Prog α} {s : Pos} (h : ∀ n, Prog.Tight s (f n)) : Prog.Tight s (Jzon.remaining >>= f) :=
  .op _ _ _ fun n _ _ => h n

end Prog.Tight

/-- Look through the program, taking the last part of it. -/
macro "tight" : tactic =>
  `(tactic| repeat' first
    | exact Prog.Tight.pure _
    | exact Prog.Tight.fail _ _
    | exact Prog.Tight.ofExcept _
    | assumption
    | solve_by_elim
    | split
    | with_reducible apply Prog.Tight.remainingBind
    | (with_reducible refine Prog.Tight.tokenBind _ (fun _ hd hc => ?_) (fun _ hd hc => ?_) <;> try (exfalso; simp at hd; done))
    | (with_reducible refine Prog.Tight.byteBind _ (fun _ hd => ?_) (fun _ hd => ?_) <;> try (exfalso; simp at hd; done))
    | dsimp only
    | intro _
    | (exfalso; simp_all; done))

section
open Prog

theorem tight_expectBytes (s : Pos) (l : List Byte) : (expectBytes l).Tight s := by
  refine .scan s ⟨fun l c b => ?_, nofun⟩
  cases l with
  | nil => simp [expectBody]
  | cons e l =>
    simp only [expectBody]
    split
    · nofun
    · split <;> nofun

theorem tight_skipStringLoop (n : Nat) (s : Pos) : (skipStringLoop n).Tight s := by
  induction n generalizing s with
  | zero => exact .fail _ _
  | succ n ih =>
    unfold skipStringLoop
    refine .scanBind s ⟨fun _ c b => ?_, nofun⟩ fun b => ?_
    · simp only [skipStrBody]
      split
      · nofun
      · split
        · nofun
        · split <;> nofun
    · cases b with
      | quote => exact .pure _
      | backslash => exact .bindThen _ fun _ => ih _

theorem tight_skipString (s : Pos) : skipString.Tight s := .remainingBind fun n => tight_skipStringLoop (n + 1) s

theorem tight_readStringLoop (n : Nat) (l : List Byte) (s : Pos) : (readStringLoop n l).Tight s := by
  induction n generalizing s l with
  | zero => exact .fail _ _
  | succ n ih =>
    unfold readStringLoop
    refine .scanBind s ⟨fun _ c b => ?_, nofun⟩ fun b => ?_
    · simp only [readStrBody]
      split
      · nofun
      · split
        · nofun
        · split <;> nofun
    · obtain ⟨l, b⟩ := b
      cases b with
      | quote => exact .pure _
      | backslash => exact .bindThen _ fun _ => ih _ _

theorem tight_readStringAsSlice (s : Pos) : readStringAsSlice.Tight s := .remainingBind fun n => tight_readStringLoop (n + 1) [] s

theorem tight_skipScalar (c : Byte) (hc : isNumberStart c = false) (s : Pos) : (skipScalar c).Tight s := by
  have h1 := tight_skipString
  have h2 := tight_expectBytes
  unfold skipScalar
  simp only [hc]
  tight

theorem tight_skipWithStack (n : Nat) (top : StackElem) (st : Stack) (s : Pos) : (skipWithStack n top st).Tight s := by
  induction n generalizing top st s with
  | zero => exact .fail _ _
  | succ n ih =>
    have hm : ∀ st s, (skipMember (skipWithStack n) st).Tight s := by
      intro st s
      unfold skipMember
      refine .bindThen _ fun _ => ?_
      tight
      all_goals exact .bindThen _ fun _ => ih _ _ _
    have he : ∀ st c s, (skipElement (skipWithStack n) st c).Tight s := by
      intro st c s
      unfold skipElement
      tight
      all_goals exact .bindThen _ fun _ => ih _ _ _
    unfold skipWithStack
    tight
    all_goals
      refine .bind (.ofExcept _) fun x => ?_
      tight

theorem tight_skipArrayLoop (pool : Stack) (n : Nat) (c : Byte) (s : Pos) : (skipArrayLoop pool n c).Tight s := by
  have := tight_skipWithStack
  induction n generalizing c s with
  | zero => exact .fail _ _
  | succ n ih =>
    unfold skipArrayLoop
    split
    · tight
    split
    · tight
    refine .bindThen _ fun _ => ?_
    tight

theorem tight_skipObjectLoop (pool : Stack) (n : Nat) (s : Pos) : (skipObjectLoop pool n).Tight s := by
  have := tight_skipWithStack
  induction n generalizing s with
  | zero => exact .fail _ _
  | succ n ih =>
    unfold skipObjectLoop
    refine .bindThen _ fun _ => ?_
    refine .tokenBind _ (fun c _ _ => ?_) nofun
    split
    · tight
    split
    · tight
    refine .bindThen _ fun _ => ?_
    tight

theorem tight_skipFunction (pool : Stack) (c : Byte) (hc : isNumberStart c = false) (s : Pos) : (skipFunction pool c).Tight s := by
  have := tight_skipArrayLoop
  have := tight_skipObjectLoop
  have := tight_skipScalar c hc
  unfold skipFunction skipArrayWithStack skipObjectWithStack
  tight

theorem tight_Skip (pool : Stack) : (Skip pool).Tight .first := by
  refine .tokenBind _ (fun c _ hc => ?_) nofun
  exact tight_skipFunction pool c (hc rfl) _

theorem tight_SkipRaw (pool : Stack) : (SkipRaw pool).Tight .first := by
  refine .tokenBind _ nofun (fun c _ hc => ?_)
  refine .captured _ _ _ ?_ fun x => .pure _
  refine .byteBind _ (fun _ _ => ?_) nofun
  exact tight_skipFunction pool c (hc rfl) _

/-! ### `Read` -/

variable {F : Type}

theorem tight_readScalar (cfg : ReadCfg F) (c : Byte) (hc : isNumberStart c = false) (s : Pos) : (readScalar cfg c).Tight s := by
  unfold readScalar
  simp only [hc]
  split
  · exact .bind (tight_readStringAsSlice _) fun _ => .pure _
  split
  · exact .bind (tight_expectBytes _ _) fun _ => .pure _
  split
  · exact .bind (tight_expectBytes _ _) fun _ => .pure _
  split
  · exact .bind (tight_expectBytes _ _) fun _ => .pure _
  exact .fail _ _

theorem tight_readWithStack (cfg : ReadCfg F) (n : Nat) (top : StackElem) (st : Stack) (ns : NodeStack F) (s : Pos) :
    (readWithStack cfg n top st ns).Tight s := by
  induction n generalizing top st ns s with
  | zero => exact .fail _ _
  | succ n ih =>
    have hm : ∀ st ns s, (readMember cfg (readWithStack cfg n) st ns).Tight s := by
      intro st ns s
      unfold readMember
      refine .bindThen _ fun _ => ?_
      refine .tokenBind _ (fun c _ _ => ?_) nofun
      split
      · exact .bindThen _ fun _ => ih _ _ _ _
      split
      · exact .bindThen _ fun _ => ih _ _ _ _
      refine .bindThen _ fun _ => ?_
      exact .bindThen _ fun _ => ih _ _ _ _
    have he : ∀ st ns c s, (readElement cfg (readWithStack cfg n) st ns c).Tight s := by
      intro st ns c s
      unfold readElement
      split
      · exact .bindThen _ fun _ => ih _ _ _ _
      split
      · exact .bindThen _ fun _ => ih _ _ _ _
      refine .bindThen _ fun _ => ?_
      exact .bindThen _ fun _ => ih _ _ _ _
    unfold readWithStack
    tight
    all_goals
      refine .bind (.ofExcept _) fun x => ?_
      tight
    all_goals exact .bindThen _ fun _ => ih _ _ _ _

theorem tight_readArrayLoop (cfg : ReadCfg F) (pool : Stack) (n : Nat) (vs : List (GoVal F)) (c : Byte) (s : Pos) :
    (readArrayLoop cfg pool n vs c).Tight s := by
  have := tight_readWithStack cfg
  induction n generalizing vs c s with
  | zero => exact .fail _ _
  | succ n ih =>
    unfold readArrayLoop
    split
    · tight
    split
    · tight
    refine .bindThen _ fun _ => ?_
    tight

theorem tight_readObjectLoop (cfg : ReadCfg F) (pool : Stack) (n : Nat) (m : GoMap F) (s : Pos) :
    (readObjectLoop cfg pool n m).Tight s := by
  have := tight_readWithStack cfg
  induction n generalizing m s with
  | zero => exact .fail _ _
  | succ n ih =>
    unfold readObjectLoop
    refine .bindThen _ fun _ => ?_
    refine .tokenBind _ (fun c _ _ => ?_) nofun
    split
    · tight
    split
    · tight
    refine .bindThen _ fun _ => ?_
    tight

theorem tight_Read (cfg : ReadCfg F) (pool : Stack) : (Read cfg pool).Tight .first := by
  have := tight_readArrayLoop cfg
  have := tight_readObjectLoop cfg
  have := tight_readScalar cfg
  refine .tokenBind _ (fun c _ hc => ?_) nofun
  unfold readFunction readArrayWithStack readObjectWithStack
  tight

/-! ### Typed decoders -/

theorem tight_nullThen {V : Type} (v : V) (s : Pos) : (nullThen v).Tight s := .bind (tight_expectBytes _ _) fun _ => .pure _

theorem notStart {c : Byte} (h : isNumberStart c = false) : intDigit c = none ∧ c ≠ b! '-' := by
  revert h; revert c; apply forall_byte; decide +kernel

theorem tight_bool (o : DecOpts) (old : Val F) (s : Pos) : (boolDecoder o old).Tight s := by
  have h1 := tight_nullThen old
  have h2 : ∀ (l : List Byte) (v : Val F) (s : Pos), (expectBytes l >>= fun _ => Pure.pure v).Tight s :=
    fun l v s => .bind (tight_expectBytes _ _) fun _ => .pure _
  unfold boolDecoder
  tight

theorem tight_string (pools : Pools) (o : DecOpts) (old : Val F) (s : Pos) : (stringDecoder pools o old).Tight s := by
  have h1 := tight_nullThen old
  unfold stringDecoder
  refine .tokenBind _ (fun c _ _ => ?_) (fun c hd _ => ?_)
  · split
    · refine .bind (tight_readStringAsSlice _) fun b => ?_
      tight
      all_goals exact .bind (.ofExcept _) fun _ => .pure _
    · exact h1 _
  · exfalso
    split at hd <;> cases hd

theorem tight_int (read : Byte → Prog Int) (hr : ∀ c, isNumberStart c = false → (read c).Tight .tight) (o : DecOpts) (old : Val F) :
    (intDecoder read o old).Tight .first := by
  have h1 := tight_nullThen old
  unfold intDecoder
  refine .tokenBind _ (fun c _ hc => ?_) (fun c hd _ => ?_)
  · split
    · exact h1 _
    split
    · refine .bindThen _ fun _ => ?_
      refine .bindThen _ fun _ => ?_
      refine .byteBind _ (fun _ _ => .pure _) (fun c hd => ?_)
      exfalso
      split at hd <;> cases hd
    · exact .bind (hr c (hc rfl)) fun _ => .pure _
  · exfalso
    repeat' split at hd
    all_goals cases hd

theorem tight_readUint (w k : Nat) (c : Byte) (hc : isNumberStart c = false) (s : Pos) : (readUint w k c).Tight s := by
  unfold readUint
  rw [(notStart hc).1]
  exact .fail _ _

theorem tight_readUint8 (c : Byte) (hc : isNumberStart c = false) (s : Pos) : (readUint8 c).Tight s := by
  unfold readUint8
  rw [(notStart hc).1]
  exact .fail _ _

theorem tight_readInt (w : Nat) (typ : List Byte) (u : Byte → Prog (BitVec w)) (hu : ∀ c, isNumberStart c = false → (u c).Tight .tight)
    (c : Byte) (hc : isNumberStart c = false) : (readInt w typ u c).Tight .tight := by
  unfold readInt
  rw [if_neg (notStart hc).2]
  refine .bind (hu c hc) fun _ => ?_
  split
  · exact .fail _ _
  · exact .pure _

theorem tight_readIntOf (w : Width) (c : Byte) (hc : isNumberStart c = false) : (readIntOf w c).Tight .tight := by
  cases w <;> refine .bind (tight_readInt _ _ _ (fun c hc => ?_) c hc) fun _ => .pure _
  · exact tight_readUint8 c hc _
  all_goals exact tight_readUint _ _ c hc _

theorem tight_readUintOf (w : Width) (c : Byte) (hc : isNumberStart c = false) : (readUintOf w c).Tight .tight := by
  cases w
  · exact .bind (tight_readUint8 c hc _) fun _ => .pure _
  all_goals exact .bind (tight_readUint _ _ c hc _) fun _ => .pure _

theorem tight_float (ops : FloatOps F) (o : DecOpts) (old : Val F) : (floatDecoder ops o old).Tight .first := by
  have h1 := tight_nullThen old
  have hf : ∀ c, isNumberStart c = false → ∀ s, (readFloat ops c).Tight s := by
    intro c hc s
    unfold readFloat readPositiveFloat
    rw [if_neg (notStart hc).2, (notStart hc).1]
    exact .fail _ _
  unfold floatDecoder
  refine .tokenBind _ (fun c hd _ => ?_) (fun c hd hc => ?_)
  · split
    · exact h1 _
    · rename_i h
      simp only [h, if_false] at hd
      cases hd
  · split
    · exact h1 _
    · refine .tokenBind _ (fun c _ hc => ?_) nofun
      exact .bind (hf c (hc rfl) _) fun _ => .pure _

theorem tight_number (o : DecOpts) (old : Val F) : (jsonNumberDecoder o old).Tight .first := by
  have h1 := tight_nullThen old
  unfold jsonNumberDecoder
  refine .tokenBind _ (fun c hd hc => ?_) (fun c hd _ => ?_)
  · split
    · refine .bindThen _ fun _ => ?_
      refine .bindThen _ fun _ => ?_
      refine .byteBind _ (fun _ _ => .pure _) (fun c hd => ?_)
      exfalso
      split at hd <;> cases hd
    split
    · exact h1 _
    · exfalso
      have : valueTypeOf c ≠ .number := by
        have := hc rfl
        revert this
        clear hd hc
        rename_i h2 h3
        clear h2 h3
        revert c
        apply forall_byte
        decide +kernel
      simp_all
  · exfalso
    split at hd <;> cases hd

theorem tight_text (f : Val F → List Byte → Except Err (Val F)) (o : DecOpts) (old : Val F) (s : Pos) :
    (textUnmarshalerDecoder f o old).Tight s := by
  have h1 := tight_nullThen old
  unfold textUnmarshalerDecoder
  refine .tokenBind _ (fun c _ _ => ?_) (fun c hd _ => ?_)
  · split
    · exact .bind (tight_readStringAsSlice _) fun b => .ofExcept _
    · exact h1 _
  · exfalso
    split at hd <;> cases hd

theorem tight_ptr (zero : Val F) (elem : ValDecoder (Val F)) (he : ∀ o v, (elem o v).Tight .first) (o : DecOpts) (old : Val F) :
    (ptrDecoder zero elem o old).Tight .first := by
  have h1 := tight_nullThen (Val.nilPtr : Val F)
  unfold ptrDecoder
  refine .tokenBind _ (fun c hd _ => ?_) (fun c hd hc => ?_)
  · split
    · exact h1 _
    · rename_i h
      simp only [h, if_false] at hd
      cases hd
  · split
    · exact h1 _
    · exact .bind (he _ _) fun _ => .pure _

theorem tight_sliceLoop (zero : Val F) (elem : ValDecoder (Val F)) (n k : Nat) (sh : SliceHeader (Val F)) (s : Pos) :
    (sliceLoop zero elem n k sh).Tight s := by
  induction n generalizing k sh s with
  | zero => exact .fail _ _
  | succ n ih =>
    unfold sliceLoop
    dsimp only
    split
    · exact .fail _ _
    · refine .bindThen _ fun _ => ?_
      tight

theorem tight_slice (cfg : DecCfg F) (b : Bool) (zero : Val F) (elem : ValDecoder (Val F)) (o : DecOpts) (old : Val F) (s : Pos) :
    (sliceDecoder cfg b zero elem o old).Tight s := by
  have h1 := tight_nullThen (Val.nilSlice : Val F)
  unfold sliceDecoder
  refine .tokenBind _ (fun c _ _ => ?_) (fun c hd _ => ?_)
  · split
    · exact h1 _
    split
    · exact .bind (.captured _ _ _ (tight_skipString _) fun _ => .pure _) fun _ => .bind (.ofExcept _) fun _ => .pure _
    · refine .tokenBind _ (fun c hd _ => ?_) (fun c hd _ => ?_) <;> dsimp only
      all_goals split
      · exact .pure _
      · exact .remainingBind fun _ => .bind (tight_sliceLoop _ _ _ _ _ _) fun _ => .pure _
      · rename_i h
        simp [h] at hd
      · exact .remainingBind fun _ => .bind (tight_sliceLoop _ _ _ _ _ _) fun _ => .pure _
  · exfalso
    split at hd <;> cases hd

theorem tight_arrayLoop (pools : Pools) (length : Nat) (zero : Val F) (elem : ValDecoder (Val F)) (n k : Nat) (vs : List (Val F))
    (s : Pos) : (arrayLoop pools length zero elem n k vs).Tight s := by
  induction n generalizing k vs s with
  | zero => exact .fail _ _
  | succ n ih =>
    unfold arrayLoop
    refine .bindThen _ fun x => ?_
    tight

theorem tight_array (pools : Pools) (length : Nat) (zero : Val F) (elem : ValDecoder (Val F)) (o : DecOpts) (old : Val F) (s : Pos) :
    (arrayDecoder pools length zero elem o old).Tight s := by
  have h1 := tight_nullThen old
  unfold arrayDecoder
  refine .tokenBind _ (fun c _ _ => ?_) (fun c hd _ => ?_)
  · split
    · exact h1 _
    · refine .tokenBind _ (fun c hd _ => ?_) (fun c hd _ => ?_)
      all_goals split
      · exact .pure _
      · exact .remainingBind fun _ => .bind (tight_arrayLoop _ _ _ _ _ _ _ _) fun _ => .pure _
      · rename_i h
        simp [h] at hd
      · exact .remainingBind fun _ => .bind (tight_arrayLoop _ _ _ _ _ _ _ _) fun _ => .pure _
  · exfalso
    split at hd <;> cases hd

theorem tight_mapLoop (kz zero : Val F) (kd elem : ValDecoder (Val F)) (n : Nat) (m : Key → Option (Val F)) (s : Pos) :
    (mapLoop kz zero kd elem n m).Tight s := by
  induction n generalizing m s with
  | zero => exact .fail _ _
  | succ n ih =>
    unfold mapLoop
    refine .bindThen _ fun x => ?_
    refine .bindThen _ fun x => ?_
    refine .bindThen _ fun x => ?_
    tight

theorem tight_map (kz zero : Val F) (kd elem : ValDecoder (Val F)) (o : DecOpts) (old : Val F) (s : Pos) :
    (mapDecoder kz zero kd elem o old).Tight s := by
  have h1 := tight_nullThen (Val.nilMap : Val F)
  unfold mapDecoder
  refine .tokenBind _ (fun c _ _ => ?_) (fun c hd _ => ?_)
  · split
    · exact h1 _
    · refine .tokenBind _ (fun c hd _ => ?_) (fun c hd _ => ?_)
      all_goals split
      · exact .pure _
      · exact .remainingBind fun _ => .bind (tight_mapLoop _ _ _ _ _ _ _) fun _ => .pure _
      · rename_i h
        simp [h] at hd
      · exact .remainingBind fun _ => .bind (tight_mapLoop _ _ _ _ _ _ _) fun _ => .pure _
  · exfalso
    split at hd <;> cases hd

theorem tight_structLoop (member : List Byte → Val F → Prog (Val F)) (n : Nat) (v : Val F) (s : Pos) :
    (structLoop member n v).Tight s := by
  induction n generalizing v s with
  | zero => exact .fail _ _
  | succ n ih =>
    unfold structLoop
    refine .bindThen _ fun x => ?_
    refine .bindThen _ fun x => ?_
    tight

theorem tight_struct (member : List Byte → Val F → Prog (Val F)) (o : DecOpts) (v : Val F) (s : Pos) :
    (structDecoder member o v).Tight s := by
  have h1 := tight_nullThen v
  have h2 := tight_structLoop member
  unfold structDecoder
  tight

theorem tight_empty (cfg : DecCfg F) (pools : Pools) (o : DecOpts) (v : Val F) (s : Pos) : (emptyObjectDecoder cfg pools o v).Tight s := by
  have h1 := tight_nullThen v
  unfold emptyObjectDecoder
  refine .tokenBind _ (fun c _ _ => ?_) nofun
  split
  · exact h1 _
  split
  · rename_i h
    subst h
    split
    · tight
    · exact .bind (tight_skipFunction _ _ (by decide) _) fun _ => .pure _
  · exact .fail _ _

theorem tight_step (Γ : TyEnv F) (cfg : DecCfg F) (pools : Pools) (named : Nat → ValDecoder (Val F))
    (hn : ∀ i o v, (named i o v).Tight .first) (t : Ty) (o : DecOpts) (v : Val F) :
    (decoderStep Γ cfg pools named t o v).Tight .first := by
  induction t generalizing o v with
  | bool => exact tight_bool _ _ _
  | str => exact tight_string _ _ _ _
  | int w => exact tight_int _ (tight_readIntOf w) _ _
  | uint w => exact tight_int _ (tight_readUintOf w) _ _
  | float32 => exact tight_float _ _ _
  | float64 => exact tight_float _ _ _
  | number => exact tight_number _ _
  | raw => exact .bind (.bind (tight_SkipRaw _) fun _ => .pure _) fun _ => .pure _
  | any => exact .bind (tight_Read _ _) fun _ => .pure _
  | ptr t ih => exact tight_ptr _ _ ih _ _
  | slice t ih => exact tight_slice _ _ _ _ _ _ _
  | array k t ih => exact tight_array _ _ _ _ _ _ _
  | map k t ih => exact tight_map _ _ _ _ _ _ _
  | named i => exact hn i _ _
  | textUnmarshaler i => exact tight_text _ _ _ _
  | jsonUnmarshaler i => exact .bind (tight_SkipRaw _) fun _ => .ofExcept _
  | unsupported => exact .fail _ _

theorem tight_named (Γ : TyEnv F) (cfg : DecCfg F) (pools : Pools) (n i : Nat) (o : DecOpts) (v : Val F) :
    (namedDecoder Γ cfg pools n i o v).Tight .first := by
  cases n with
  | zero => exact .fail _ _
  | succ n =>
    unfold namedDecoder
    cases Γ.defn i with
    | slice t => exact tight_slice _ _ _ _ _ _ _
    | array k t => exact tight_array _ _ _ _ _ _ _
    | map k t => exact tight_map _ _ _ _ _ _ _
    | struct fs =>
      cases fs with
      | nil => exact tight_empty _ _ _ _ _
      | cons f fs => exact tight_struct _ _ _ _

theorem tight_ReadVal (Γ : TyEnv F) (cfg : DecCfg F) (pools : Pools) (t : Ty) (old : Val F) : (ReadVal Γ cfg pools t old).Tight .first :=
  .remainingBind fun n => tight_step Γ cfg pools _ (tight_named Γ cfg pools (n + 1)) t _ _

end

/-! ## How far the reader was asked -/

/-- The bytes of some chunks. -/
def chunkBytes (s : List RdRes) : List Byte := s.flatMap RdRes.data

/-- The reader was not yet asked for `later`, which follows the first `n` bytes of the input. -/
def Near (later : List RdRes) (n : Nat) (it : It) : Prop :=
  ∃ s, it.reader = some (s ++ later) ∧ (∀ r ∈ s, r.err = none) ∧ it.offset + it.buf.length + (chunkBytes s).length = n

/-- If it was, all of these bytes have been read. -/
def Zone (later : List RdRes) (n : Nat) (it : It) : Prop := Near later n it ∨ n ≤ it.offset + it.head

theorem fill_position {it : It} (hh : it.head = it.buf.length) (d : List Byte) (rest : List RdRes) :
    (it.fill d rest).offset + (it.fill d rest).head = it.offset + it.head := by
  unfold It.fill
  split
  · rfl
  · simp [hh]

theorem fill_empty {it : It} (hh : it.head = it.buf.length) (rest : List RdRes) :
    (it.fill [] rest).head = (it.fill [] rest).buf.length := by
  unfold It.fill
  split <;> simp [hh]

theorem fill_end (it : It) (d : List Byte) (rest : List RdRes) :
    (it.fill d rest).offset + (it.fill d rest).buf.length = it.offset + it.buf.length + d.length := by
  unfold It.fill
  split <;> simp [Nat.add_assoc]

theorem fill_reader (it : It) (d : List Byte) (rest : List RdRes) : (it.fill d rest).reader = some rest := by
  unfold It.fill
  split <;> rfl

theorem readLoop_position (script : List RdRes) (it : It) (hh : it.head = it.buf.length) :
    (It.readLoop script it).2.offset + (It.readLoop script it).2.head = it.offset + it.head := by
  induction script generalizing it with
  | nil => exact fill_position hh _ _
  | cons r rest ih =>
    simp only [It.readLoop]
    cases r.err with
    | some e =>
      dsimp only
      split <;> exact fill_position hh _ _
    | none =>
      dsimp only
      split
      · exact fill_position hh _ _
      · rename_i h
        have hd : r.data = [] := List.eq_nil_of_length_eq_zero (by omega)
        rw [hd, ih _ (fill_empty hh _), fill_position hh]

theorem readLoop_zone (s later : List RdRes) (n : Nat) (it : It) (hs : ∀ r ∈ s, r.err = none) (hh : it.head = it.buf.length)
    (hn : it.offset + it.buf.length + (chunkBytes s).length = n) : Zone later n (It.readLoop (s ++ later) it).2 := by
  induction s generalizing it with
  | nil =>
    right
    rw [List.nil_append, readLoop_position _ _ hh]
    simp only [chunkBytes, List.flatMap_nil, List.length_nil] at hn
    omega
  | cons r s ih =>
    have hr := hs r (by simp)
    have hn' : (it.fill r.data (s ++ later)).offset + (it.fill r.data (s ++ later)).buf.length + (chunkBytes s).length = n := by
      rw [fill_end]
      simp only [chunkBytes, List.flatMap_cons, List.length_append] at hn ⊢
      omega
    simp only [List.cons_append, It.readLoop, hr]
    split
    · exact .inl ⟨s, fill_reader _ _ _, fun r hr => hs r (by simp [hr]), hn'⟩
    · rename_i h
      have hd : r.data = [] := List.eq_nil_of_length_eq_zero (by omega)
      rw [hd] at hn' ⊢
      exact ih _ (fun r hr => hs r (by simp [hr])) (fill_empty hh _) hn'

theorem readMore_zone {later : List RdRes} {n : Nat} {it : It} (hz : Zone later n it) (hh : it.head = it.buf.length) :
    Zone later n it.readMore.2 := by
  obtain ⟨s, hr, hs, hn⟩ | h := hz
  · simp only [It.readMore, hr]
    exact readLoop_zone s later n it hs hh hn
  · right
    unfold It.readMore
    cases it.reader with
    | none => exact h
    | some script =>
      dsimp only
      rw [readLoop_position _ _ hh]
      exact h

theorem Zone.move {later : List RdRes} {n : Nat} {it : It} (hz : Zone later n it) {i : Nat} (hi : it.head ≤ i) :
    Zone later n { it with head := i } := by
  obtain ⟨s, hr, hs, hn⟩ | h := hz
  · exact .inl ⟨s, hr, hs, hn⟩
  · right
    dsimp only
    omega

/-- Having taken a byte. -/
theorem Zone.taken {later : List RdRes} {n : Nat} {it : It} (hz : Zone later n it) {i : Nat} (hi : it.head < i) :
    Near later n { it with head := i } ∨ n < it.offset + i := by
  obtain ⟨s, hr, hs, hn⟩ | h := hz
  · exact .inl ⟨s, hr, hs, hn⟩
  · right
    omega

theorem scanBuf_taken {σ β : Type} {body : σ → Byte → Act σ β} (hb : ∀ s c b, body s c ≠ .stop b) (s : σ) (i : Nat) (l : List Byte)
    {b : β} {j : Nat} (h : scanBuf body s i l = .stop b j) : i < j := by
  induction l generalizing s i with
  | nil => cases h
  | cons c l ih =>
    simp only [scanBuf] at h
    cases hc : body s c with
    | cont s' =>
      rw [hc] at h
      have := ih _ _ h
      omega
    | stop b' => exact absurd hc (hb _ _ _)
    | stopNext b' =>
      rw [hc] at h
      cases h
      omega
    | err e =>
      rw [hc] at h
      cases h

theorem scanLoop_zone {σ β : Type} (body : σ → Byte → Act σ β) (onEOF : σ → Except Err β) (fuel : Nat) (s : σ) (it it' : It) (b : β)
    {later : List RdRes} {n : Nat} (hi : it.head ≤ it.buf.length) (hz : Zone later n it)
    (h : scanLoop body onEOF fuel s it = (.ok b, it')) :
    Zone later n it' ∧ (((∀ s c b, body s c ≠ .stop b) ∧ ∀ s b, onEOF s ≠ .ok b) → Near later n it' ∨ n < it'.offset + it'.head) := by
  induction fuel generalizing s it with
  | zero => cases h
  | succ fuel ih =>
    simp only [scanLoop] at h
    have hb := scanBuf_bounds body s it.head (it.buf.drop it.head)
    cases hr : scanBuf body s it.head (it.buf.drop it.head) with
    | stop b' j =>
      rw [hr] at h hb
      cases h
      exact ⟨hz.move hb.1, fun ht => hz.taken (scanBuf_taken ht.1 _ _ _ hr)⟩
    | err e =>
      rw [hr] at h
      cases h
    | exhausted s' j =>
      rw [hr] at h hb
      dsimp only at h hb
      have hj : j = it.buf.length := by
        rw [hb]
        simp
        omega
      have hz' := readMore_zone (hz.move (i := j) (by omega)) hj
      have hl : ∀ e it1, ({ it with head := j } : It).readMore = (e, it1) → it1.head ≤ it1.buf.length := by
        intro e it1 h
        unfold It.readMore at h
        cases hre : it.reader with
        | none =>
          simp only [hre] at h
          cases h
          exact Nat.le_of_eq hj
        | some script =>
          simp only [hre] at h
          exact readLoop_head_le script _ _ _ (Nat.le_of_eq hj) h
      cases hm : ({ it with head := j } : It).readMore with
      | mk e it1 =>
        rw [hm] at h hz'
        have hl1 := hl _ _ hm
        cases e with
        | none => exact ih s' it1 hl1 hz' h
        | some e =>
          dsimp only at h
          split at h
          · obtain ⟨h1, rfl⟩ := Prod.mk.inj h
            exact ⟨hz', fun ht => absurd h1 (ht.2 _ _)⟩
          · cases h

theorem nextByte_zone {it it' : It} {c : Byte} {later : List RdRes} {n : Nat} (hz : Zone later n it) (h : it.nextByte = (.ok c, it')) :
    Zone later n it' := by
  unfold It.nextByte at h
  by_cases hh : it.head = it.buf.length
  · rw [if_pos hh] at h
    have hz' := readMore_zone hz hh
    cases hm : it.readMore with
    | mk e it1 =>
      rw [hm] at h hz'
      cases e with
      | some e => cases h
      | none =>
        dsimp only at h hz'
        split at h
        · cases h
          exact hz'
        · cases h
  · rw [if_neg hh] at h
    dsimp only at h
    split at h
    · cases h
      exact hz
    · cases h

/-- What holds of the iterator at a position. -/
def Pos.At (later : List RdRes) (n : Nat) (it : It) : Pos → Prop
  | .loose => Zone later n it
  | .tight => Near later n it ∨ n < it.offset + it.head
  | .first => Zone later n it ∧ ∀ c l, dropWs it.rem = c :: l → isNumberStart c = false

theorem Pos.At.zone {later : List RdRes} {n : Nat} {it : It} {s : Pos} (h : s.At later n it) : Zone later n it := by
  cases s with
  | loose => exact h
  | tight => exact h.imp_right Nat.le_of_lt
  | first => exact h.1

theorem dec_zone {d : Dec} {c c' : Byte} {it it' : It} {later : List RdRes} {n : Nat} (hz : Zone later n it)
    (h : d.runM c it = (.ok c', it')) :
    c' = c ∧ (d = .leave ∧ it' = it ∨ d = .take ∧ (Near later n it' ∨ n < it'.offset + it'.head)) := by
  cases d with
  | take =>
    cases h
    exact ⟨rfl, .inr ⟨rfl, hz.taken (Nat.lt_succ_self _)⟩⟩
  | leave =>
    cases h
    exact ⟨rfl, .inl ⟨rfl, rfl⟩⟩
  | fail e => cases h

theorem dropWs_idem (l : List Byte) : dropWs (dropWs l) = dropWs l := by
  unfold dropWs
  induction l with
  | nil => rfl
  | cons c l ih =>
    cases hc : isWs c with
    | true => simpa only [List.dropWhile_cons, hc, if_true] using ih
    | false => simp only [List.dropWhile_cons, hc, Bool.false_eq_true, if_false]

theorem op_zone {β : Type} (o : Op β) {it it' : It} {b : β} {later : List RdRes} {n : Nat} {s : Pos} (hi : it.Inv)
    (hs : s.At later n it) (h : o.runM it = (.ok b, it')) : o.Gives b ∧ o.Fits s b ∧ (o.next s b).At later n it' := by
  have hz := hs.zone
  have ha := Op.agree o it hi
  rw [h] at ha
  cases o with
  | token d =>
    simp only [Op.runM] at h
    cases hm : it.scan tokenBody (fun _ => (.error .eof : Except Err Byte)) () with
    | mk r it1 =>
      rw [hm] at h
      cases r with
      | error e => cases h
      | ok c =>
        dsimp only at h
        have hz1 := (scanLoop_zone _ _ _ _ it it1 c hi.head_le hz hm).1
        obtain ⟨rfl, h1⟩ := dec_zone hz1 h
        have hag := scan_agree tokenBody (fun _ => (.error .eof : Except Err Byte)) () it hi
        rw [hm, scanF_token] at hag
        cases hw : dropWs it.rem with
        | nil =>
          rw [hw] at hag
          exact hag.elim
        | cons c l =>
          rw [hw] at hag
          obtain ⟨rfl, hrem, _⟩ := hag
          have hfit : (Op.token d).Fits s b := by
            cases s with
            | first => exact hs.2 _ _ hw
            | loose => trivial
            | tight => trivial
          refine ⟨fun e he => ?_, hfit, ?_⟩
          · rcases h1 with ⟨h1, _⟩ | ⟨h1, _⟩ <;> rw [h1] at he <;> cases he
          rcases h1 with ⟨h1, rfl⟩ | ⟨h1, h2⟩
          · simp only [Op.next, h1, if_true]
            cases s with
            | first =>
              refine ⟨hz1, fun c' l' hc => ?_⟩
              rw [hrem, ← hw, dropWs_idem, hw] at hc
              cases hc
              exact hfit
            | loose => exact hz1
            | tight => exact hz1
          · simp only [Op.next, h1, reduceCtorEq, if_false]
            exact h2
  | byte d =>
    simp only [Op.runM] at h
    cases hm : it.nextByte with
    | mk r it1 =>
      rw [hm] at h
      cases r with
      | error e => cases h
      | ok c =>
        dsimp only at h
        have hz1 := nextByte_zone hz hm
        obtain ⟨rfl, h1⟩ := dec_zone hz1 h
        refine ⟨fun e he => ?_, ?_, ?_⟩
        · rcases h1 with ⟨h1, _⟩ | ⟨h1, _⟩ <;> rw [h1] at he <;> cases he
        · cases s <;> trivial
        rcases h1 with ⟨h1, rfl⟩ | ⟨h1, h2⟩
        · simp only [Op.next, h1, if_true]
          exact hz1
        · simp only [Op.next, h1, reduceCtorEq, if_false]
          exact h2
  | scan body onEOF s0 =>
    have hz1 := scanLoop_zone body onEOF _ s0 it it' b hi.head_le hz h
    refine ⟨trivial, by cases s <;> trivial, ?_⟩
    simp only [Op.next]
    split
    · rename_i ht
      exact hz1.2 ht
    · exact hz1.1
  | inputOffset =>
    cases h
    exact ⟨trivial, by cases s <;> trivial, hs⟩
  | remaining =>
    cases h
    exact ⟨trivial, by cases s <;> trivial, hs⟩

theorem Step.after {α : Type} {p : Prog α} {it it' : It} {a : α} (hi : it.Inv) (h : p.runM it = (.ok a, it')) : Step it it' := by
  have ha := Prog.agree p it hi
  rw [h] at ha
  cases hf : p.runF it.env it.rem with
  | error e =>
    rw [hf] at ha
    exact ha.elim
  | ok x =>
    rw [hf] at ha
    exact ha.2.2

theorem Step.afterOp {β : Type} {o : Op β} {it it' : It} {b : β} (hi : it.Inv) (h : o.runM it = (.ok b, it')) : Step it it' := by
  have ha := Op.agree o it hi
  rw [h] at ha
  cases hf : o.runF it.env it.rem with
  | error e =>
    rw [hf] at ha
    exact ha.elim
  | ok x =>
    rw [hf] at ha
    exact ha.2.2

theorem prog_zone {α : Type} (p : Prog α) {it it' : It} {a : α} {later : List RdRes} {n : Nat} (hi : it.Inv) (hz : Zone later n it)
    (h : p.runM it = (.ok a, it')) : Zone later n it' := by
  induction p generalizing it it' with
  | pure a =>
    cases h
    exact hz
  | fail e => cases h
  | op o k ih =>
    unfold Prog.runM at h
    cases hm : o.runM it with
    | mk r it1 =>
      rw [hm] at h
      cases r with
      | error e => cases h
      | ok b => exact ih b (Step.afterOp hi hm).inv (op_zone o (s := .loose) hi hz hm).2.2.zone h
  | captured p k ihp ihk =>
    unfold Prog.runM at h
    have hi' : ({ it with capture := true } : It).Inv := ⟨hi.head_le, hi.sticky⟩
    cases hm : p.runM { it with capture := true } with
    | mk r it1 =>
      rw [hm] at h
      cases r with
      | error e => cases h
      | ok b =>
        dsimp only at h
        split at h
        · have := (Step.after hi' hm).inv
          have hz1 : Zone later n it1 := ihp hi' hz hm
          exact ihk _ (it := { it1 with capture := it.capture }) ⟨this.head_le, this.sticky⟩ hz1 h
        · cases h

theorem tight_zone {α : Type} {p : Prog α} {it it' : It} {a : α} {later : List RdRes} {n : Nat} {s : Pos} (hp : p.Tight s) (hi : it.Inv)
    (hs : s.At later n it) (h : p.runM it = (.ok a, it')) : Near later n it' ∨ n < it'.offset + it'.head := by
  induction hp generalizing it it' with
  | pure a =>
    cases h
    exact hs
  | fail s e => cases h
  | op s o k _ ih =>
    unfold Prog.runM at h
    cases hm : o.runM it with
    | mk r it1 =>
      rw [hm] at h
      cases r with
      | error e => cases h
      | ok b =>
        obtain ⟨h1, h2, h3⟩ := op_zone o hi hs hm
        exact ih b h1 h2 (Step.afterOp hi hm).inv h3 h
  | captured s p k _ _ ihp ihk =>
    unfold Prog.runM at h
    have hi' : ({ it with capture := true } : It).Inv := ⟨hi.head_le, hi.sticky⟩
    cases hm : p.runM { it with capture := true } with
    | mk r it1 =>
      rw [hm] at h
      cases r with
      | error e => cases h
      | ok b =>
        dsimp only at h
        have hs' : s.At later n { it with capture := true } := by
          cases s <;> exact hs
        split at h
        · have := (Step.after hi' hm).inv
          have hz1 : Near later n it1 ∨ n < it1.offset + it1.head := ihp hi' hs' hm
          exact ihk _ (it := { it1 with capture := it.capture }) ⟨this.head_le, this.sticky⟩ hz1 h
        · cases h
  | capturedThen s p k _ ihk =>
    unfold Prog.runM at h
    have hi' : ({ it with capture := true } : It).Inv := ⟨hi.head_le, hi.sticky⟩
    cases hm : p.runM { it with capture := true } with
    | mk r it1 =>
      rw [hm] at h
      cases r with
      | error e => cases h
      | ok b =>
        dsimp only at h
        have hz : Zone later n { it with capture := true } := hs.zone
        split at h
        · have := (Step.after hi' hm).inv
          have hz1 : Zone later n it1 := prog_zone p hi' hz hm
          exact ihk _ (it := { it1 with capture := it.capture }) ⟨this.head_le, this.sticky⟩ hz1 h
        · cases h

end Jzon
