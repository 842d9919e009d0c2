import Verif.Proof.Lazy
import Verif.Spec.Work

/-!
# The work of decoding, paid by the bytes that are read
-/

set_option linter.unusedSimpArgs false

namespace Jzon

/-! ## The work of a run on the remaining bytes -/

/-- `Op.work` on the remaining bytes. -/
def Op.workF : {β : Type} → Op β → List Byte → Nat
  | _, .token _, l => 1 + scanLooks tokenBody () l
  | _, .byte _, _ => 2
  | _, .scan body _ s, l => 1 + scanLooks body s l
  | _, .inputOffset, _ => 1
  | _, .remaining, _ => 0

/-- `Prog.work` on the remaining bytes. -/
def Prog.workF : {α : Type} → Prog α → Env → List Byte → Nat
  | _, .pure _, _, _ => 0
  | _, .fail _, _, _ => 0
  | _, .op o k, env, l =>
    o.workF l +
      match o.runF env l with
      | .ok (b, l') => (k b).workF env l'
      | .error _ => 0
  | _, .captured p k, env, l =>
    p.workF env l +
      match p.runF env l with
      | .ok (b, l') => (l.length - l'.length) + (k (b, l.take (l.length - l'.length))).workF env l'
      | .error _ => 0

theorem Op.work_rem {β : Type} (o : Op β) (it : It) : o.work it = o.workF it.rem := by cases o <;> rfl

/-! ## Credits -/

/-- What an operation costs; looking at bytes is paid when they are taken, except for the last one. -/
def Op.price : {β : Type} → Op β → Nat
  | _, .remaining => 0
  | _, _ => 1

open Classical in
/-- What is earned by taking a byte. -/
noncomputable def Op.gain (k : Nat) : {β : Type} → Op β → β → Nat
  | _, .token d, c => if d c = .leave then 0 else k
  | _, .byte d, c => if d c = .leave then 0 else k
  | _, .scan body onEOF s, _ => if (Op.scan body onEOF s).Takes then k else 0
  | _, _, _ => 0

/-- Started with `c` credits the program can pay for all its operations, and a run that succeeds has at least `c'` at the end.  `k` is
what a byte is worth; texts are not cut out inside a text that is cut out. -/
inductive Prog.Pays (k : Nat) : Bool → Nat → {α : Type} → Prog α → Nat → Prop
  | pure {α : Type} {i : Bool} {c c' : Nat} (a : α) : c' ≤ c → Prog.Pays k i c (.pure a) c'
  | fail {α : Type} {i : Bool} {c c' : Nat} (e : Err) : Prog.Pays k i c (.fail e : Prog α) c'
  | op {α β : Type} {i : Bool} {c c' : Nat} (o : Op β) (f : β → Prog α) : o.price ≤ c →
      (∀ b, o.Gives b → Prog.Pays k i (c - o.price + o.gain k b) (f b) c') → Prog.Pays k i c (.op o f) c'
  | captured {α β : Type} {c c' : Nat} (c1 : Nat) (p : Prog β) (f : β × List Byte → Prog α) : Prog.Pays k true c p c1 →
      (∀ x, Prog.Pays k false c1 (f x) c') → Prog.Pays k false c (.captured p f) c'

/-- What a byte is worth at most. -/
def worth (k : Nat) (i : Bool) : Nat := 2 * k + 1 + (if i then 0 else 1)

theorem scanLooks_le {σ β : Type} (body : σ → Byte → Act σ β) (s : σ) (l : List Byte) : scanLooks body s l ≤ l.length := by
  induction l generalizing s with
  | nil => simp [scanLooks]
  | cons c l ih =>
    simp only [scanLooks]
    split
    · have := ih (by assumption)
      simp only [List.length_cons]
      omega
    · simp

theorem scanF_looks {σ β : Type} (body : σ → Byte → Act σ β) (onEOF : σ → Except Err β) (e : Err) (s : σ) (l l' : List Byte) (b : β)
    (h : scanF body onEOF e s l = .ok (b, l')) : l'.length ≤ l.length ∧ scanLooks body s l + l'.length ≤ l.length + 1 := by
  induction l generalizing s with
  | nil =>
    simp only [scanF] at h
    split at h
    · split at h
      · cases h
        simp [scanLooks]
      · cases h
    · cases h
  | cons c l ih =>
    simp only [scanF, scanLooks, List.length_cons] at h ⊢
    cases hb : body s c with
    | cont s' =>
      simp only [hb] at h ⊢
      have := ih s' h
      omega
    | stop b =>
      simp only [hb] at h ⊢
      cases h
      simp
      omega
    | stopNext b =>
      simp only [hb] at h ⊢
      cases h
      omega
    | err e =>
      simp only [hb] at h
      cases h

theorem scanF_takes {σ β : Type} (body : σ → Byte → Act σ β) (onEOF : σ → Except Err β) (e : Err) (s0 s : σ) (l l' : List Byte) (b : β)
    (ht : (Op.scan body onEOF s0).Takes) (h : scanF body onEOF e s l = .ok (b, l')) : l'.length < l.length := by
  induction l generalizing s with
  | nil =>
    simp only [scanF] at h
    split at h
    · split at h
      · rename_i hb
        exact absurd hb (ht.2 _ _)
      · cases h
    · cases h
  | cons c l ih =>
    simp only [scanF] at h
    cases hb : body s c with
    | cont s' =>
      simp only [hb] at h
      have := ih s' h
      simp only [List.length_cons]
      omega
    | stop b => exact absurd hb (ht.1 _ _ _)
    | stopNext b =>
      simp only [hb] at h
      cases h
      simp
    | err e =>
      simp only [hb] at h
      cases h

theorem dropWs_looks (l : List Byte) :
    (dropWs l).length ≤ l.length ∧ scanLooks tokenBody () l + (dropWs l).length ≤ l.length + 1 := by
  induction l with
  | nil => simp [dropWs, scanLooks]
  | cons c l ih =>
    have hb : tokenBody () c = if isWs c then .cont () else .stop c := by
      simp only [tokenBody]
      by_cases hw : isWs c
      · rw [if_pos (isWs_le hw)]
      · simp [hw]
    simp only [scanLooks, hb]
    by_cases hw : isWs c
    · have he : dropWs (c :: l) = dropWs l := by simp [dropWs, hw]
      simp only [hw, if_true, he, List.length_cons]
      omega
    · have he : dropWs (c :: l) = c :: l := by simp [dropWs, hw]
      simp only [hw, he, List.length_cons]
      simp
      omega

/-- One operation: it takes `n` bytes, looks at no more than one other byte, and earns only if it takes one. -/
theorem Op.workF_ok {β : Type} (o : Op β) (k : Nat) (env : Env) (l l' : List Byte) (b : β) (h : o.runF env l = .ok (b, l')) :
    o.Gives b ∧ ∃ n, l.length = n + l'.length ∧ o.workF l ≤ 2 * o.price + n ∧ o.gain k b ≤ k * n := by
  cases o with
  | token d =>
    simp only [Op.runF] at h
    have h0 := dropWs_looks l
    cases hw : dropWs l with
    | nil => simp [hw] at h
    | cons c t =>
      simp only [hw] at h h0
      simp only [List.length_cons] at h0
      cases hd : d c with
      | take =>
        simp only [hd, Dec.runF] at h
        cases h
        refine ⟨by simp [Op.Gives, hd], l.length - l'.length, by omega, ?_, ?_⟩
        · simp only [Op.workF, Op.price]
          omega
        · simp only [Op.gain, hd]
          exact Nat.le_mul_of_pos_right _ (by omega)
      | leave =>
        simp only [hd, Dec.runF] at h
        cases h
        refine ⟨by simp [Op.Gives, hd], l.length - (t.length + 1), by simp; omega, ?_, by simp [Op.gain, hd]⟩
        simp only [Op.workF, Op.price]
        omega
      | fail e => simp [hd, Dec.runF] at h
  | byte d =>
    simp only [Op.runF] at h
    cases l with
    | nil => simp at h
    | cons c t =>
      simp only at h
      cases hd : d c with
      | take =>
        simp only [hd, Dec.runF] at h
        cases h
        refine ⟨by simp [Op.Gives, hd], 1, by simp; omega, ?_, ?_⟩
        · simp [Op.workF, Op.price]
        · simp [Op.gain, hd]
      | leave =>
        simp only [hd, Dec.runF] at h
        cases h
        exact ⟨by simp [Op.Gives, hd], 0, by simp, by simp [Op.workF, Op.price], by simp [Op.gain, hd]⟩
      | fail e => simp [hd, Dec.runF] at h
  | scan body onEOF s =>
    have h1 := scanF_looks body onEOF _ s l l' b h
    refine ⟨trivial, l.length - l'.length, by omega, ?_, ?_⟩
    · simp only [Op.workF, Op.price]
      omega
    · simp only [Op.gain]
      split
      · rename_i ht
        have := scanF_takes body onEOF _ s s l l' b ht h
        exact Nat.le_mul_of_pos_right _ (by omega)
      · omega
  | inputOffset =>
    simp only [Op.runF] at h
    cases h
    exact ⟨trivial, 0, by simp, by simp [Op.workF, Op.price], by simp [Op.gain]⟩
  | remaining =>
    simp only [Op.runF] at h
    cases h
    exact ⟨trivial, 0, by simp, by simp [Op.workF, Op.price], by simp [Op.gain]⟩

theorem Op.workF_le {β : Type} (o : Op β) (l : List Byte) : o.workF l ≤ 2 * o.price + l.length := by
  cases o with
  | token d =>
    have := scanLooks_le tokenBody () l
    simp only [Op.workF, Op.price]
    omega
  | scan body onEOF s =>
    have := scanLooks_le body s l
    simp only [Op.workF, Op.price]
    omega
  | _ =>
    simp only [Op.workF, Op.price]
    omega

theorem Prog.Pays.sound {k : Nat} {i : Bool} {c c' : Nat} {α : Type} {p : Prog α} (h : Prog.Pays k i c p c') (env : Env) (l : List Byte) :
    match p.runF env l with
    | .ok (_, l') => l'.length ≤ l.length ∧ p.workF env l + 2 * c' + worth k i * l'.length ≤ 2 * c + worth k i * l.length
    | .error _ => p.workF env l ≤ 2 * c + worth k i * l.length := by
  induction h generalizing l with
  | pure a h =>
    simp only [Prog.runF, Prog.workF]
    omega
  | fail e =>
    simp only [Prog.runF, Prog.workF]
    omega
  | @op α β i c c' o f hc _ ih =>
    simp only [Prog.runF, Prog.workF]
    cases ho : o.runF env l with
    | error e =>
      have h1 := o.workF_le l
      have h2 : l.length ≤ worth k i * l.length := Nat.le_mul_of_pos_left _ (by unfold worth; omega)
      simp only
      omega
    | ok r =>
      obtain ⟨b, l1⟩ := r
      obtain ⟨hg, n, hn, hw, hk⟩ := o.workF_ok k env l l1 b ho
      have h1 := ih b hg l1
      have h2 : worth k i * l.length = worth k i * n + worth k i * l1.length := by rw [hn, Nat.mul_add]
      have h3 : 2 * (k * n) + n ≤ worth k i * n := by
        have : (2 * k + 1) * n ≤ worth k i * n := Nat.mul_le_mul_right _ (by unfold worth; omega)
        rw [Nat.add_mul, Nat.mul_assoc] at this
        omega
      simp only
      cases hf : (f b).runF env l1 with
      | error e =>
        simp only [hf] at h1 ⊢
        omega
      | ok r =>
        obtain ⟨a, l2⟩ := r
        simp only [hf] at h1 ⊢
        omega
  | @captured α β c c' c1 p f _ _ ihp ih =>
    simp only [Prog.runF, Prog.workF]
    have hp := ihp l
    have hw : worth k false = worth k true + 1 := by simp [worth]
    cases ho : p.runF env l with
    | error e =>
      simp only [ho] at hp ⊢
      rw [hw, Nat.add_mul]
      omega
    | ok r =>
      obtain ⟨b, l1⟩ := r
      simp only [ho] at hp ⊢
      have h1 := ih (b, l.take (l.length - l1.length)) l1
      rw [hw, Nat.add_mul] at h1 ⊢
      cases hf : (f (b, l.take (l.length - l1.length))).runF env l1 with
      | error e =>
        simp only [hf] at h1 ⊢
        omega
      | ok r =>
        obtain ⟨a, l2⟩ := r
        simp only [hf] at h1 ⊢
        rw [Nat.add_mul] at h1 ⊢
        omega

/-! ## On the iterator -/

theorem Prog.work_rem {α : Type} (p : Prog α) (it : It) (h : it.Inv) : p.work it = p.workF it.env it.rem := by
  induction p generalizing it with
  | pure a => rfl
  | fail e => rfl
  | op o k ih =>
    simp only [Prog.work, Prog.workF, Op.work_rem]
    have hs := Op.agree o it h
    generalize o.runM it = m at hs
    generalize o.runF it.env it.rem = f at hs
    obtain ⟨m, it'⟩ := m
    cases m with
    | error e =>
      cases f with
      | error e => rfl
      | ok r => exact hs.elim
    | ok b =>
      cases f with
      | error e => exact hs.elim
      | ok r =>
        obtain ⟨b', l'⟩ := r
        obtain ⟨rfl, rfl, st⟩ := hs
        simp only
        rw [ih _ it' st.inv, st.env]
  | captured p k ih ihk =>
    have hc : ({ it with capture := true } : It).Inv := ⟨h.head_le, h.sticky⟩
    have h1 := ih { it with capture := true } hc
    have hs := Prog.agree p { it with capture := true } hc
    have henv : ({ it with capture := true } : It).env = it.env := rfl
    have hrem : ({ it with capture := true } : It).rem = it.rem := rfl
    rw [henv, hrem] at hs h1
    simp only [Prog.work, Prog.workF, h1]
    generalize p.runM { it with capture := true } = m at hs
    generalize p.runF it.env it.rem = f at hs
    obtain ⟨m, it'⟩ := m
    cases m with
    | error e =>
      cases f with
      | error e => rfl
      | ok r => exact hs.elim
    | ok b =>
      cases f with
      | error e => exact hs.elim
      | ok r =>
        obtain ⟨b', l⟩ := r
        obtain ⟨rfl, hl, st⟩ := hs
        obtain ⟨ho, hh, more, hbuf, hflat⟩ := st.frame rfl
        simp only [] at ho hh hbuf hflat ⊢
        have hle := st.inv.head_le
        have st2 : Step it { it' with capture := it.capture } := by
          refine ⟨⟨st.inv.head_le, st.inv.sticky⟩, rfl, st.total, st.endErr, st.isNone, ?_⟩
          intro _; exact ⟨ho, hh, more, hbuf, hflat⟩
        have htot : it'.offset + it'.head + it'.rem.length = it.offset + it.head + it.rem.length := st.total
        have htext : (it'.buf.take it'.head).drop it.head = it.rem.take (it.rem.length - l.length) := by
          have e1 : it.rem.length - l.length = it'.head - it.head := by rw [← hl]; omega
          rw [e1]
          have e2 : it.rem = it'.buf.drop it.head ++ flatReader it'.reader := by
            rw [It.rem, hbuf, hflat, List.drop_append_of_le_length h.head_le, List.append_assoc]
          rw [e2, List.take_append_of_le_length (by simp; omega), List.drop_take]
        rw [htext, ihk _ _ st2.inv, st2.env]
        have hrem2 : ({ it' with capture := it.capture } : It).rem = l := hl
        rw [hrem2, List.length_take, Nat.min_eq_left (by omega)]

/-! ## Putting programs together -/

namespace Prog.Pays

variable {k : Nat} {i : Bool} {c c' : Nat}

theorem mono {α : Type} {p : Prog α} {d d' : Nat} (h : Prog.Pays k i c p c') (hc : c ≤ d) (hd : d' + c ≤ c' + d) : Prog.Pays k i d p d' := by
  induction h generalizing d d' with
  | pure a h => exact .pure a (by omega)
  | fail e => exact .fail e
  | op o f ho _ ih => exact .op o f (by omega) fun b hg => ih b hg (by omega) (by omega)
  | captured c1 p f _ _ ihp ih =>
    rename_i c0 c0' _ _
    exact .captured (c1 + (d - c0)) p f (ihp hc (by omega)) fun x => ih x (by omega) (by omega)

theorem to {α : Type} {p : Prog α} {d : Nat} (h : Prog.Pays k i c p c') (hd : d ≤ c') : Prog.Pays k i c p d := h.mono (Nat.le_refl _) (by omega)

theorem bind {α β : Type} {p : Prog α} {f : α → Prog β} {c1 : Nat} (hp : Prog.Pays k i c p c1) (hf : ∀ a, Prog.Pays k i c1 (f a) c') :
    Prog.Pays k i c (p >>= f) c' := by
  change Prog.Pays k i c (p.bind f) c'
  induction hp with
  | pure a h => exact (hf a).mono h (by omega)
  | fail e => exact .fail e
  | op o g ho _ ih => exact .op o _ ho fun b hg => ih b hg hf
  | captured c2 p g hp _ _ ih => exact .captured c2 p _ hp fun x => ih x hf

theorem ofExcept {α : Type} (r : Except Err α) : Prog.Pays k i c (Prog.ofExcept r) c := by
  cases r
  · exact .fail _
  · exact .pure _ (Nat.le_refl _)

theorem scanTakes {σ β : Type} {body : σ → Byte → Act σ β} {onEOF : σ → Except Err β} {s : σ} (h : (Op.scan body onEOF s).Takes)
    (hc : 1 ≤ c) : Prog.Pays k i c (Jzon.scan body onEOF s) (c - 1 + k) := by
  refine .op _ _ hc fun b _ => ?_
  simp only [Op.gain, h, if_true]
  exact .pure _ (Nat.le_refl _)

theorem scan {σ β : Type} {body : σ → Byte → Act σ β} {onEOF : σ → Except Err β} {s : σ} (hc : 1 ≤ c) :
    Prog.Pays k i c (Jzon.scan body onEOF s) (c - 1) := by
  refine .op _ _ hc fun b _ => ?_
  exact .pure _ (Nat.le_add_right _ _)

theorem tokenBind {α : Type} {d : Byte → Dec} {f : Byte → Prog α} (hc : 1 ≤ c)
    (ht : ∀ x, d x = .take → Prog.Pays k i (c - 1 + k) (f x) c') (hl : ∀ x, d x = .leave → Prog.Pays k i (c - 1) (f x) c') :
    Prog.Pays k i c (Jzon.token d >>= f) c' := by
  refine .op _ _ hc fun x hg => ?_
  change Prog.Pays k i _ (f x) c'
  simp only [Op.gain]
  cases hd : d x with
  | take => simpa [Op.price] using ht x hd
  | leave => simpa [Op.price] using hl x hd
  | fail e => exact absurd hd (hg e)

theorem byteBind {α : Type} {d : Byte → Dec} {f : Byte → Prog α} (hc : 1 ≤ c)
    (ht : ∀ x, d x = .take → Prog.Pays k i (c - 1 + k) (f x) c') (hl : ∀ x, d x = .leave → Prog.Pays k i (c - 1) (f x) c') :
    Prog.Pays k i c (Jzon.byte d >>= f) c' := by
  refine .op _ _ hc fun x hg => ?_
  change Prog.Pays k i _ (f x) c'
  simp only [Op.gain]
  cases hd : d x with
  | take => simpa [Op.price] using ht x hd
  | leave => simpa [Op.price] using hl x hd
  | fail e => exact absurd hd (hg e)

theorem remainingBind {α : Type} {f : Nat → Prog α} (h : ∀ n, Prog.Pays k i c (f n) c') : Prog.Pays k i c (Jzon.remaining >>= f) c' :=
  .op _ _ (Nat.zero_le _) fun n _ => h n

theorem capturedBind {α β : Type} {p : Prog β} {f : β × List Byte → Prog α} {c1 : Nat} (hp : Prog.Pays k true c p c1)
    (hf : ∀ x, Prog.Pays k false c1 (f x) c') : Prog.Pays k false c (Jzon.captured p >>= f) c' :=
  .captured c1 p _ hp hf

end Prog.Pays

/-- Use what was proved before. -/
syntax "pays_known" : tactic
macro_rules | `(tactic| pays_known) => `(tactic| fail)
macro_rules | `(tactic| pays_known) => `(tactic| with_reducible exact Prog.Pays.ofExcept _)

/-- Look through the program. -/
macro "pays" : tactic =>
  `(tactic| repeat' first
    | exact Prog.Pays.fail _
    | exact Prog.Pays.pure _ (by omega)
    | exact Prog.Pays.to (by pays_known) (by omega)
    | split
    | with_reducible refine Prog.Pays.remainingBind (fun _ => ?_)
    | (with_reducible refine Prog.Pays.tokenBind (by omega) (fun _ hd => ?_) (fun _ hd => ?_) <;> try (exfalso; revert hd; (repeat' split) <;> (intro hd; cases hd; done)))
    | (with_reducible refine Prog.Pays.byteBind (by omega) (fun _ hd => ?_) (fun _ hd => ?_) <;> try (exfalso; revert hd; (repeat' split) <;> (intro hd; cases hd; done)))
    | with_reducible refine Prog.Pays.capturedBind (by pays_known) (fun _ => ?_)
    | with_reducible refine Prog.Pays.bind (by pays_known) (fun _ => ?_)
    | dsimp only
    | (exfalso; simp_all; done))

section
open Prog

variable {k : Nat} {i : Bool} {c : Nat}

theorem pays_expectBytes (l : List Byte) (hc : 1 ≤ c) : (expectBytes l).Pays k i c (c - 1 + k) := by
  refine .scanTakes ⟨fun l c b => ?_, nofun⟩ hc
  cases l with
  | nil => simp [expectBody]
  | cons e l =>
    simp only [expectBody]
    split
    · nofun
    · split <;> nofun

macro_rules | `(tactic| pays_known) => `(tactic| (with_reducible refine pays_expectBytes _ ?_) <;> omega)

theorem pays_skipU4 (hc : 1 ≤ c) : skipU4.Pays k i c (c - 1 + k) := by
  refine .scanTakes ⟨fun l c b => ?_, nofun⟩ hc
  simp only [skipU4Body]
  split
  · nofun
  · split <;> nofun

macro_rules | `(tactic| pays_known) => `(tactic| (with_reducible refine pays_skipU4 ?_) <;> omega)

theorem pays_readU4 (hc : 1 ≤ c) : readU4.Pays k i c (c - 1 + k) := by
  refine .scanTakes ⟨fun l c b => ?_, nofun⟩ hc
  simp only [readU4Body]
  split
  · nofun
  · split <;> nofun

macro_rules | `(tactic| pays_known) => `(tactic| (with_reducible refine pays_readU4 ?_) <;> omega)

theorem pays_skipEscapedChar (hk : 8 ≤ k) (hc : 1 ≤ c) : skipEscapedChar.Pays k i c c := by
  unfold skipEscapedChar
  pays

macro_rules | `(tactic| pays_known) => `(tactic| (with_reducible refine pays_skipEscapedChar ?_ ?_) <;> omega)

theorem pays_skipStringLoop (n : Nat) (hk : 8 ≤ k) (hc : 1 ≤ c) : (skipStringLoop n).Pays k i c (c - 1 + k) := by
  induction n generalizing c with
  | zero => exact .fail _
  | succ n ih =>
    unfold skipStringLoop
    refine .bind (.scanTakes ⟨fun _ c b => ?_, nofun⟩ hc) fun b => ?_
    · simp only [skipStrBody]
      split
      · nofun
      · split
        · nofun
        · split <;> nofun
    · cases b with
      | quote => exact .pure _ (by omega)
      | backslash =>
        refine .bind (pays_skipEscapedChar (by omega) (by omega)) fun _ => ?_
        exact (ih (by omega)).to (by omega)

macro_rules | `(tactic| pays_known) => `(tactic| (with_reducible refine pays_skipStringLoop _ ?_ ?_) <;> omega)

theorem pays_skipString (hk : 8 ≤ k) (hc : 1 ≤ c) : skipString.Pays k i c (c - 1 + k) := by
  unfold skipString
  pays

macro_rules | `(tactic| pays_known) => `(tactic| (with_reducible refine pays_skipString ?_ ?_) <;> omega)

theorem pays_readEscapedRetry (n : Nat) (b : List Byte) (r : Nat) (hk : 8 ≤ k) (hc : 1 ≤ c) : (readEscapedRetry n b r).Pays k i c (c - 1) := by
  induction n generalizing c b r with
  | zero => exact .fail _
  | succ n ih =>
    unfold readEscapedRetry
    pays
    all_goals exact (ih _ _ (by omega)).to (by omega)

macro_rules | `(tactic| pays_known) => `(tactic| (with_reducible refine pays_readEscapedRetry _ _ _ ?_ ?_) <;> omega)

theorem pays_readEscapedChar (b : List Byte) (hk : 8 ≤ k) (hc : 1 ≤ c) : (readEscapedChar b).Pays k i c c := by
  unfold readEscapedChar
  pays

theorem pays_readStringLoop (n : Nat) (l : List Byte) (hk : 8 ≤ k) (hc : 1 ≤ c) : (readStringLoop n l).Pays k i c (c - 1 + k) := by
  induction n generalizing c l with
  | zero => exact .fail _
  | succ n ih =>
    unfold readStringLoop
    refine .bind (.scanTakes ⟨fun _ c b => ?_, nofun⟩ hc) fun b => ?_
    · simp only [readStrBody]
      split
      · nofun
      · split
        · nofun
        · split <;> nofun
    · obtain ⟨l, b⟩ := b
      cases b with
      | quote => exact .pure _ (by omega)
      | backslash =>
        refine .bind (pays_readEscapedChar _ (by omega) (by omega)) fun _ => ?_
        exact (ih _ (by omega)).to (by omega)

macro_rules | `(tactic| pays_known) => `(tactic| (with_reducible refine pays_readStringLoop _ _ ?_ ?_) <;> omega)

theorem pays_readStringAsSlice (hk : 8 ≤ k) (hc : 1 ≤ c) : readStringAsSlice.Pays k i c (c - 1 + k) := by
  unfold readStringAsSlice readStringAsSliceSlow
  pays

macro_rules | `(tactic| pays_known) => `(tactic| (with_reducible refine pays_readStringAsSlice ?_ ?_) <;> omega)

/-! ### Numbers -/

theorem pays_byteEOF (f : Byte → Bool) (hc : 1 ≤ c) : (byteEOF f).Pays k i c (c - 1) := .scan hc

macro_rules | `(tactic| pays_known) => `(tactic| (with_reducible refine pays_byteEOF _ ?_) <;> omega)
macro_rules | `(tactic| pays_known) => `(tactic| (with_reducible refine Prog.Pays.scan ?_) <;> omega)

theorem pays_skipExponentPart (hk : 8 ≤ k) (hc : 1 ≤ c) : skipExponentPart.Pays k i c c := by
  unfold skipExponentPart skipExponentDigits
  pays

macro_rules | `(tactic| pays_known) => `(tactic| (with_reducible refine pays_skipExponentPart ?_ ?_) <;> omega)

theorem pays_skipFractionPart (hk : 8 ≤ k) (hc : 1 ≤ c) : skipFractionPart.Pays k i c c := by
  unfold skipFractionPart
  pays

macro_rules | `(tactic| pays_known) => `(tactic| (with_reducible refine pays_skipFractionPart ?_ ?_) <;> omega)

theorem pays_skipUnsigned (x : Byte) (hk : 8 ≤ k) (hc : 2 ≤ c) : (skipUnsigned x).Pays k i c (c - 1) := by
  unfold skipUnsigned
  pays

macro_rules | `(tactic| pays_known) => `(tactic| (with_reducible refine pays_skipUnsigned _ ?_ ?_) <;> omega)

theorem pays_skipNumber (x : Byte) (hk : 8 ≤ k) (hc : 2 ≤ c) : (skipNumber x).Pays k i c (c - 1) := by
  unfold skipNumber
  pays

macro_rules | `(tactic| pays_known) => `(tactic| (with_reducible refine pays_skipNumber _ ?_ ?_) <;> omega)

theorem pays_readNumberAsString (x : Byte) (hk : 8 ≤ k) (hc : 2 ≤ c) : (readNumberAsString x).Pays k false c (c - 1) := by
  unfold readNumberAsString
  pays

macro_rules | `(tactic| pays_known) => `(tactic| (with_reducible refine pays_readNumberAsString _ ?_ ?_) <;> omega)

variable {F : Type}

theorem pays_parseFloat (ops : FloatOps F) (b : List Byte) : (parseFloat ops b).Pays k i c c := by
  unfold parseFloat
  pays

macro_rules | `(tactic| pays_known) => `(tactic| with_reducible exact pays_parseFloat _ _)

theorem pays_readFloatExponentPart (ops : FloatOps F) (b : List Byte) (hk : 8 ≤ k) (hc : 1 ≤ c) : (readFloatExponentPart ops b).Pays k i c c := by
  unfold readFloatExponentPart readFloatExponentDigits
  pays

macro_rules | `(tactic| pays_known) => `(tactic| (with_reducible refine pays_readFloatExponentPart _ _ ?_ ?_) <;> omega)

theorem pays_readFloatFractionPart (ops : FloatOps F) (b : List Byte) (hk : 8 ≤ k) (hc : 1 ≤ c) : (readFloatFractionPart ops b).Pays k i c c := by
  unfold readFloatFractionPart
  pays

macro_rules | `(tactic| pays_known) => `(tactic| (with_reducible refine pays_readFloatFractionPart _ _ ?_ ?_) <;> omega)

theorem pays_readPositiveFloat (ops : FloatOps F) (x : Byte) (hk : 8 ≤ k) (hc : 2 ≤ c) : (readPositiveFloat ops x).Pays k i c (c - 1) := by
  unfold readPositiveFloat
  pays

macro_rules | `(tactic| pays_known) => `(tactic| (with_reducible refine pays_readPositiveFloat _ _ ?_ ?_) <;> omega)

theorem pays_readFloat (ops : FloatOps F) (x : Byte) (hk : 8 ≤ k) (hc : 2 ≤ c) : (readFloat ops x).Pays k i c (c - 1) := by
  unfold readFloat
  pays

macro_rules | `(tactic| pays_known) => `(tactic| (with_reducible refine pays_readFloat _ _ ?_ ?_) <;> omega)

theorem pays_readUint (w d : Nat) (x : Byte) (hc : 1 ≤ c) : (readUint w d x).Pays k i c (c - 1) := by
  unfold readUint
  pays

macro_rules | `(tactic| pays_known) => `(tactic| (with_reducible refine pays_readUint _ _ _ ?_) <;> omega)

theorem pays_readUint8 (x : Byte) (hc : 2 ≤ c) : (readUint8 x).Pays k i c (c - 2) := by
  unfold readUint8
  pays

macro_rules | `(tactic| pays_known) => `(tactic| (with_reducible refine pays_readUint8 _ ?_) <;> omega)

theorem pays_readIntOf (w : Width) (x : Byte) (hk : 8 ≤ k) (hc : 2 ≤ c) : (readIntOf w x).Pays k i c (c - 2) := by
  cases w <;> refine .bind (c1 := c - 2) ?_ fun _ => .pure _ (by omega) <;> unfold readInt <;> pays

theorem pays_readUintOf (w : Width) (x : Byte) (hc : 2 ≤ c) : (readUintOf w x).Pays k i c (c - 2) := by
  cases w <;> refine .bind (c1 := c - 2) ?_ fun _ => .pure _ (by omega) <;> pays

macro_rules | `(tactic| pays_known) => `(tactic| (with_reducible refine pays_readIntOf _ _ ?_ ?_) <;> omega)
macro_rules | `(tactic| pays_known) => `(tactic| (with_reducible refine pays_readUintOf _ _ ?_) <;> omega)

/-! ### `Skip` -/

theorem pays_skipScalar (x : Byte) (hk : 8 ≤ k) (hc : 2 ≤ c) : (skipScalar x).Pays k i c (c - 1) := by
  unfold skipScalar
  pays

macro_rules | `(tactic| pays_known) => `(tactic| (with_reducible refine pays_skipScalar _ ?_ ?_) <;> omega)

theorem pays_skipObjectField (hk : 8 ≤ k) (hc : 2 ≤ c) : skipObjectField.Pays k i c (c - 2 + k) := by
  unfold skipObjectField
  pays

macro_rules | `(tactic| pays_known) => `(tactic| (with_reducible refine pays_skipObjectField ?_ ?_) <;> omega)

theorem pays_skipWithStack (n : Nat) (top : StackElem) (st : Stack) (hk : 8 ≤ k) (hc : 2 ≤ c) : (skipWithStack n top st).Pays k i c c := by
  induction n generalizing top st c with
  | zero => exact .fail _
  | succ n ih =>
    have hm : ∀ {c} st, 2 ≤ c → (skipMember (skipWithStack n) st).Pays k i c c := by
      intro c st hc
      unfold skipMember
      pays
      all_goals exact (ih _ _ (by omega)).to (by omega)
    have he : ∀ {c} st x, 3 ≤ c → (skipElement (skipWithStack n) st x).Pays k i c (c - 1) := by
      intro c st x hc
      unfold skipElement
      pays
      all_goals exact (ih _ _ (by omega)).to (by omega)
    unfold skipWithStack
    pays
    all_goals first
      | exact (ih _ _ (by omega)).to (by omega)
      | exact (hm _ (by omega)).to (by omega)
      | exact (he _ _ (by omega)).to (by omega)

macro_rules | `(tactic| pays_known) => `(tactic| (with_reducible refine pays_skipWithStack _ _ _ ?_ ?_) <;> omega)

theorem pays_skipArrayLoop (pool : Stack) (n : Nat) (x : Byte) (hk : 8 ≤ k) (hc : 2 ≤ c) : (skipArrayLoop pool n x).Pays k i c c := by
  induction n generalizing x c with
  | zero => exact .fail _
  | succ n ih =>
    unfold skipArrayLoop
    pays
    all_goals exact (ih _ (by omega)).to (by omega)

macro_rules | `(tactic| pays_known) => `(tactic| (with_reducible refine pays_skipArrayLoop _ _ _ ?_ ?_) <;> omega)

theorem pays_skipObjectLoop (pool : Stack) (n : Nat) (hk : 8 ≤ k) (hc : 2 ≤ c) : (skipObjectLoop pool n).Pays k i c c := by
  induction n generalizing c with
  | zero => exact .fail _
  | succ n ih =>
    unfold skipObjectLoop
    pays
    all_goals exact (ih (by omega)).to (by omega)

macro_rules | `(tactic| pays_known) => `(tactic| (with_reducible refine pays_skipObjectLoop _ _ ?_ ?_) <;> omega)

theorem pays_skipFunction (pool : Stack) (x : Byte) (hk : 8 ≤ k) (hc : 2 ≤ c) : (skipFunction pool x).Pays k i c (c - 1) := by
  unfold skipFunction skipArrayWithStack skipObjectWithStack
  pays

macro_rules | `(tactic| pays_known) => `(tactic| (with_reducible refine pays_skipFunction _ _ ?_ ?_) <;> omega)

theorem pays_Skip (pool : Stack) (hk : 8 ≤ k) (hc : 2 ≤ c) : (Skip pool).Pays k i c (c - 2 + k) := by
  unfold Skip
  pays

macro_rules | `(tactic| pays_known) => `(tactic| (with_reducible refine pays_Skip _ ?_ ?_) <;> omega)

theorem pays_SkipRaw (pool : Stack) (hk : 8 ≤ k) (hc : 3 ≤ c) : (SkipRaw pool).Pays k false c (c - 3 + k) := by
  unfold SkipRaw
  refine .tokenBind (by omega) nofun (fun x _ => ?_)
  refine .capturedBind (c1 := c - 3 + k) ?_ fun _ => .pure _ (by omega)
  pays

macro_rules | `(tactic| pays_known) => `(tactic| (with_reducible refine pays_SkipRaw _ ?_ ?_) <;> omega)

/-! ### `Read` -/

theorem pays_readNumberVal (cfg : ReadCfg F) (x : Byte) (hk : 8 ≤ k) (hc : 2 ≤ c) : (readNumberVal cfg x).Pays k false c (c - 1) := by
  unfold readNumberVal
  pays

macro_rules | `(tactic| pays_known) => `(tactic| (with_reducible refine pays_readNumberVal _ _ ?_ ?_) <;> omega)

theorem pays_readScalar (cfg : ReadCfg F) (x : Byte) (hk : 8 ≤ k) (hc : 2 ≤ c) : (readScalar cfg x).Pays k false c (c - 1) := by
  unfold readScalar
  pays

macro_rules | `(tactic| pays_known) => `(tactic| (with_reducible refine pays_readScalar _ _ ?_ ?_) <;> omega)

theorem pays_readObjectField (hk : 8 ≤ k) (hc : 2 ≤ c) : readObjectField.Pays k i c (c - 2 + k) := by
  unfold readObjectField
  pays

macro_rules | `(tactic| pays_known) => `(tactic| (with_reducible refine pays_readObjectField ?_ ?_) <;> omega)

theorem pays_readWithStack (cfg : ReadCfg F) (n : Nat) (top : StackElem) (st : Stack) (ns : NodeStack F) (hk : 8 ≤ k) (hc : 2 ≤ c) :
    (readWithStack cfg n top st ns).Pays k false c c := by
  induction n generalizing top st ns c with
  | zero => exact .fail _
  | succ n ih =>
    have hm : ∀ {c} st ns, 2 ≤ c → (readMember cfg (readWithStack cfg n) st ns).Pays k false c c := by
      intro c st ns hc
      unfold readMember
      pays
      all_goals exact (ih _ _ _ (by omega)).to (by omega)
    have he : ∀ {c} st ns x, 3 ≤ c → (readElement cfg (readWithStack cfg n) st ns x).Pays k false c (c - 1) := by
      intro c st ns x hc
      unfold readElement
      pays
      all_goals exact (ih _ _ _ (by omega)).to (by omega)
    unfold readWithStack
    pays
    all_goals first
      | exact (ih _ _ _ (by omega)).to (by omega)
      | exact (hm _ _ (by omega)).to (by omega)
      | exact (he _ _ _ (by omega)).to (by omega)

macro_rules | `(tactic| pays_known) => `(tactic| (with_reducible refine pays_readWithStack _ _ _ _ _ ?_ ?_) <;> omega)

theorem pays_readArrayLoop (cfg : ReadCfg F) (pool : Stack) (n : Nat) (vs : List (GoVal F)) (x : Byte) (hk : 8 ≤ k) (hc : 2 ≤ c) :
    (readArrayLoop cfg pool n vs x).Pays k false c c := by
  induction n generalizing vs x c with
  | zero => exact .fail _
  | succ n ih =>
    unfold readArrayLoop
    pays
    all_goals exact (ih _ _ (by omega)).to (by omega)

macro_rules | `(tactic| pays_known) => `(tactic| (with_reducible refine pays_readArrayLoop _ _ _ _ _ ?_ ?_) <;> omega)

theorem pays_readObjectLoop (cfg : ReadCfg F) (pool : Stack) (n : Nat) (m : GoMap F) (hk : 8 ≤ k) (hc : 2 ≤ c) :
    (readObjectLoop cfg pool n m).Pays k false c c := by
  induction n generalizing m c with
  | zero => exact .fail _
  | succ n ih =>
    unfold readObjectLoop
    pays
    all_goals exact (ih _ (by omega)).to (by omega)

macro_rules | `(tactic| pays_known) => `(tactic| (with_reducible refine pays_readObjectLoop _ _ _ _ ?_ ?_) <;> omega)

theorem pays_Read (cfg : ReadCfg F) (pool : Stack) (hk : 8 ≤ k) (hc : 2 ≤ c) : (Read cfg pool).Pays k false c (c - 2 + k) := by
  unfold Read readFunction readArrayWithStack readObjectWithStack
  pays

macro_rules | `(tactic| pays_known) => `(tactic| (with_reducible refine pays_Read _ _ ?_ ?_) <;> omega)

/-! ### Typed decoders -/

theorem pays_nullThen {V : Type} (v : V) (hc : 1 ≤ c) : (nullThen v).Pays k i c (c - 1 + k) := by
  unfold nullThen
  pays

macro_rules | `(tactic| pays_known) => `(tactic| (with_reducible refine pays_nullThen _ ?_) <;> omega)

theorem pays_bool (o : DecOpts) (old : Val F) (hk : 8 ≤ k) (hc : 4 ≤ c) : (boolDecoder o old).Pays k false c (c + k - 8) := by
  unfold boolDecoder
  pays

theorem pays_string (pools : Pools) (o : DecOpts) (old : Val F) (hk : 8 ≤ k) (hc : 4 ≤ c) :
    (stringDecoder pools o old).Pays k false c (c + k - 8) := by
  unfold stringDecoder
  pays

theorem pays_int (read : Byte → Prog Int) (hr : ∀ {c} x, 2 ≤ c → (read x).Pays k false c (c - 2)) (o : DecOpts) (old : Val F)
    (hk : 8 ≤ k) (hc : 4 ≤ c) : (intDecoder read o old).Pays k false c (c + k - 8) := by
  have h1 : ∀ {c : Nat} (x : Byte), 2 ≤ c → (read x).Pays k false c (c - 2) := hr
  unfold intDecoder
  pays
  · refine .bind (h1 _ (by omega)) fun _ => ?_
    pays
  · refine .bind (h1 _ (by omega)) fun _ => ?_
    pays

theorem pays_float (ops : FloatOps F) (o : DecOpts) (old : Val F) (hk : 8 ≤ k) (hc : 4 ≤ c) :
    (floatDecoder ops o old).Pays k false c (c + k - 8) := by
  unfold floatDecoder
  pays

theorem pays_number (o : DecOpts) (old : Val F) (hk : 8 ≤ k) (hc : 4 ≤ c) : (jsonNumberDecoder o old).Pays k false c (c + k - 8) := by
  unfold jsonNumberDecoder
  pays

theorem pays_raw (pools : Pools) (o : DecOpts) (old : Val F) (hk : 8 ≤ k) (hc : 4 ≤ c) : (rawDecoder pools o old).Pays k false c (c + k - 8) := by
  unfold rawDecoder AppendRaw
  refine .bind (c1 := c + k - 8) ?_ fun _ => .pure _ (by omega)
  pays

theorem pays_any (cfg : DecCfg F) (pools : Pools) (o : DecOpts) (old : Val F) (hk : 8 ≤ k) (hc : 4 ≤ c) :
    (anyDecoder cfg pools o old).Pays k false c (c + k - 8) := by
  unfold anyDecoder
  pays

theorem pays_text (f : Val F → List Byte → Except Err (Val F)) (o : DecOpts) (old : Val F) (hk : 8 ≤ k) (hc : 4 ≤ c) :
    (textUnmarshalerDecoder f o old).Pays k false c (c + k - 8) := by
  unfold textUnmarshalerDecoder
  pays

theorem pays_json (pools : Pools) (f : Val F → List Byte → Except Err (Val F)) (o : DecOpts) (old : Val F) (hk : 8 ≤ k) (hc : 4 ≤ c) :
    (jsonUnmarshalerDecoder pools f o old).Pays k false c (c + k - 8) := by
  unfold jsonUnmarshalerDecoder
  pays

/-- A decoder for values behind at most `d` pointers. -/
def PaysFor (k d : Nat) (elem : ValDecoder (Val F)) : Prop := ∀ (c : Nat) o v, d + 4 ≤ c → (elem o v).Pays k false c (c + k - 8 - d)

theorem pays_ptr {d : Nat} (zero : Val F) (elem : ValDecoder (Val F)) (he : PaysFor k d elem) (hk : d + 9 ≤ k) :
    PaysFor k (d + 1) (ptrDecoder zero elem) := by
  intro c o old hc
  unfold ptrDecoder
  pays
  all_goals exact .bind (he _ _ _ (by omega)) fun _ => .pure _ (by omega)

theorem pays_sliceLoop {d : Nat} (zero : Val F) (elem : ValDecoder (Val F)) (he : PaysFor k d elem) (hk : d + 9 ≤ k) (n m : Nat)
    (sh : SliceHeader (Val F)) (hc : d + 4 ≤ c) : (sliceLoop zero elem n m sh).Pays k false c c := by
  induction n generalizing m sh c with
  | zero => exact .fail _
  | succ n ih =>
    unfold sliceLoop
    dsimp only
    split
    · exact .fail _
    · refine .bind (he _ _ _ hc) fun _ => ?_
      pays
      exact (ih _ _ (by omega)).to (by omega)

theorem pays_slice {d : Nat} (cfg : DecCfg F) (b : Bool) (zero : Val F) (elem : ValDecoder (Val F)) (he : PaysFor k d elem) (hk : d + 9 ≤ k) :
    PaysFor k 0 (sliceDecoder cfg b zero elem) := by
  intro c o old hc
  have hl : ∀ {c : Nat} n m sh, d + 4 ≤ c → (sliceLoop zero elem n m sh).Pays k false c c :=
    fun n m sh hc => pays_sliceLoop zero elem he hk n m sh hc
  unfold sliceDecoder
  pays
  all_goals
    refine .bind (hl _ _ _ (by omega)) fun _ => ?_
    pays

theorem pays_arrayLoop {d : Nat} (pools : Pools) (length : Nat) (zero : Val F) (elem : ValDecoder (Val F)) (he : PaysFor k d elem)
    (hk : d + 9 ≤ k) (n m : Nat) (vs : List (Val F)) (hc : d + 4 ≤ c) : (arrayLoop pools length zero elem n m vs).Pays k false c c := by
  induction n generalizing m vs c with
  | zero => exact .fail _
  | succ n ih =>
    unfold arrayLoop
    refine .bind (c1 := c) ?_ fun x => ?_
    · split
      · refine .bind (he _ _ _ hc) fun _ => .pure _ (by omega)
      · pays
    · pays
      exact (ih _ _ (by omega)).to (by omega)

theorem pays_array {d : Nat} (pools : Pools) (length : Nat) (zero : Val F) (elem : ValDecoder (Val F)) (he : PaysFor k d elem)
    (hk : d + 9 ≤ k) : PaysFor k 0 (arrayDecoder pools length zero elem) := by
  intro c o old hc
  have hl : ∀ {c : Nat} n m sh, d + 4 ≤ c → (arrayLoop pools length zero elem n m sh).Pays k false c c :=
    fun n m sh hc => pays_arrayLoop pools length zero elem he hk n m sh hc
  unfold arrayDecoder
  pays
  all_goals
    refine .bind (hl _ _ _ (by omega)) fun _ => ?_
    pays

theorem pays_mapLoop {d : Nat} (kz zero : Val F) (kd elem : ValDecoder (Val F)) (hkd : PaysFor k 0 kd) (he : PaysFor k d elem)
    (hk : d + 9 ≤ k) (n : Nat) (m : Key → Option (Val F)) (hc : d + 4 ≤ c) : (mapLoop kz zero kd elem n m).Pays k false c c := by
  induction n generalizing m c with
  | zero => exact .fail _
  | succ n ih =>
    unfold mapLoop
    refine .bind (hkd _ _ _ (by omega)) fun _ => ?_
    pays
    refine .bind (he _ _ _ (by omega)) fun _ => ?_
    pays
    exact (ih _ (by omega)).to (by omega)

theorem pays_map {d : Nat} (kz zero : Val F) (kd elem : ValDecoder (Val F)) (hkd : PaysFor k 0 kd) (he : PaysFor k d elem)
    (hk : d + 9 ≤ k) : PaysFor k 0 (mapDecoder kz zero kd elem) := by
  intro c o old hc
  have hl : ∀ {c : Nat} n m, d + 4 ≤ c → (mapLoop kz zero kd elem n m).Pays k false c c :=
    fun n m hc => pays_mapLoop kz zero kd elem hkd he hk n m hc
  unfold mapDecoder
  pays
  all_goals
    refine .bind (hl _ _ (by omega)) fun _ => ?_
    pays

theorem pays_key (Γ : TyEnv F) (pools : Pools) (t : KeyTy) (hk : 8 ≤ k) : PaysFor k 0 (keyDecoder Γ pools t) := by
  intro c o old hc
  cases t with
  | str => exact (pays_string _ o _ hk hc).to (by omega)
  | int w => exact (pays_int _ (fun x hc => pays_readIntOf w x hk hc) o _ hk hc).to (by omega)
  | uint w => exact (pays_int _ (fun x hc => pays_readUintOf w x hc) o _ hk hc).to (by omega)
  | text j => exact (pays_text _ o _ hk hc).to (by omega)

theorem pays_atPath (zero : Ty → Val F) (path : List PathStep) (f : Val F → Prog (Val F)) {c' : Nat}
    (hf : ∀ v, (f v).Pays k i c c') (v : Val F) : (atPath zero path f v).Pays k i c c' := by
  fun_induction atPath zero path f v with
  | case1 f v => exact hf v
  | case2 i f vs v p h ih => exact .bind (ih hf) fun _ => .pure _ (Nat.le_refl _)
  | case3 => exact .fail _
  | case4 _ _ f v p ih => exact .bind (ih hf) fun _ => .pure _ (Nat.le_refl _)
  | case5 => exact .fail _
  | case6 _ _ _ _ _ ih => exact .bind (ih hf) fun _ => .pure _ (Nat.le_refl _)
  | case7 => exact .fail _

theorem pays_structMember {B : Nat} (cfg : DecCfg F) (pools : Pools) (zero : Ty → Val F) (build : Ty → ValDecoder (Val F)) (fs : List Field)
    (hb : ∀ f ∈ fs, ∃ d, d ≤ B ∧ PaysFor k d (build f.ty)) (hk : B + 9 ≤ k) (name : List Byte) (v : Val F) (hc : B + 4 ≤ c) :
    (structMember cfg pools zero build fs name v).Pays k false c c := by
  unfold structMember
  refine .bind (.ofExcept _) fun r => ?_
  split
  · split
    · rename_i f hf
      obtain ⟨d, hd, h⟩ := hb f (List.mem_of_getElem? hf)
      exact pays_atPath _ _ _ (fun v => (h _ _ _ (by omega)).to (by omega)) _
    · exact .fail _
  · pays

theorem pays_structLoop {B : Nat} (member : List Byte → Val F → Prog (Val F))
    (hm : ∀ {c : Nat} name v, B + 4 ≤ c → (member name v).Pays k false c c) (hk : B + 9 ≤ k) (n : Nat) (v : Val F) (hc : B + 4 ≤ c) :
    (structLoop member n v).Pays k false c c := by
  induction n generalizing v c with
  | zero => exact .fail _
  | succ n ih =>
    have hm' : ∀ {c : Nat} name v, B + 4 ≤ c → (member name v).Pays k false c c := hm
    unfold structLoop
    refine .bind (pays_readObjectField (by omega) (by omega)) fun _ => ?_
    refine .bind (hm' _ _ (by omega)) fun _ => ?_
    pays
    exact (ih _ (by omega)).to (by omega)

theorem pays_struct {B : Nat} (member : List Byte → Val F → Prog (Val F))
    (hm : ∀ {c : Nat} name v, B + 4 ≤ c → (member name v).Pays k false c c) (hk : B + 9 ≤ k) :
    PaysFor k 0 (structDecoder member) := by
  intro c o old hc
  have hl : ∀ {c : Nat} n v, B + 4 ≤ c → (structLoop member n v).Pays k false c c :=
    fun n v hc => pays_structLoop member hm hk n v hc
  unfold structDecoder
  pays
  all_goals exact (hl _ _ (by omega)).to (by omega)

theorem pays_empty (cfg : DecCfg F) (pools : Pools) (hk : 8 ≤ k) : PaysFor k 0 (emptyObjectDecoder cfg pools) := by
  intro c o old hc
  unfold emptyObjectDecoder
  pays

theorem lead_within {B : Nat} {t : Ty} (h : t.Within B) : t.lead ≤ B := by
  cases t <;> simp only [Ty.lead, Ty.Within] at h ⊢
  case ptr t => exact h.1
  all_goals omega

theorem pays_step {B : Nat} (Γ : TyEnv F) (cfg : DecCfg F) (pools : Pools) (named : Nat → ValDecoder (Val F))
    (hn : ∀ i, PaysFor k 0 (named i)) (hk : B + 9 ≤ k) (t : Ty) (ht : t.Within B) : PaysFor k t.lead (decoderStep Γ cfg pools named t) := by
  induction t with
  | bool => exact fun _ o v hc => (pays_bool o v (by omega) hc).to (by simp only [Ty.lead]; omega)
  | str => exact fun _ o v hc => (pays_string _ o v (by omega) hc).to (by simp only [Ty.lead]; omega)
  | int w => exact fun _ o v hc => (pays_int _ (fun x hc => pays_readIntOf w x (by omega) hc) o v (by omega) hc).to (by simp only [Ty.lead]; omega)
  | uint w => exact fun _ o v hc => (pays_int _ (fun x hc => pays_readUintOf w x hc) o v (by omega) hc).to (by simp only [Ty.lead]; omega)
  | float32 => exact fun _ o v hc => (pays_float _ o v (by omega) hc).to (by simp only [Ty.lead]; omega)
  | float64 => exact fun _ o v hc => (pays_float _ o v (by omega) hc).to (by simp only [Ty.lead]; omega)
  | number => exact fun _ o v hc => (pays_number o v (by omega) hc).to (by simp only [Ty.lead]; omega)
  | raw => exact fun _ o v hc => (pays_raw _ o v (by omega) hc).to (by simp only [Ty.lead]; omega)
  | any => exact fun _ o v hc => (pays_any _ _ o v (by omega) hc).to (by simp only [Ty.lead]; omega)
  | ptr t ih => exact pays_ptr _ _ (ih ht.2) (by have := ht.1; omega)
  | slice t ih => exact pays_slice _ _ _ _ (ih ht) (by have := lead_within (t := t) ht; omega)
  | array m t ih => exact pays_array _ _ _ _ (ih ht) (by have := lead_within (t := t) ht; omega)
  | map m t ih => exact pays_map _ _ _ _ (pays_key _ _ _ (by omega)) (ih ht) (by have := lead_within (t := t) ht; omega)
  | named i => exact hn i
  | textUnmarshaler i => exact fun _ o v hc => (pays_text _ o v (by omega) hc).to (by simp only [Ty.lead]; omega)
  | jsonUnmarshaler i => exact fun _ o v hc => (pays_json _ _ o v (by omega) hc).to (by simp only [Ty.lead]; omega)
  | unsupported => exact fun _ _ _ _ => .fail _

theorem pays_named {B : Nat} (Γ : TyEnv F) (cfg : DecCfg F) (pools : Pools) (hΓ : Γ.Within B) (hk : B + 9 ≤ k) (n j : Nat) :
    PaysFor k 0 (namedDecoder Γ cfg pools n j) := by
  induction n generalizing j with
  | zero => exact fun _ _ _ _ => .fail _
  | succ n ih =>
    have hd := hΓ j
    unfold namedDecoder
    generalize Γ.defn j = D at hd
    cases D with
    | slice t =>
      exact pays_slice _ _ _ _ (pays_step Γ cfg pools _ ih hk t hd) (by have := lead_within (t := t) hd; omega)
    | array m t =>
      exact pays_array _ _ _ _ (pays_step Γ cfg pools _ ih hk t hd) (by have := lead_within (t := t) hd; omega)
    | map m t =>
      exact pays_map _ _ _ _ (pays_key _ _ _ (by omega)) (pays_step Γ cfg pools _ ih hk t hd) (by have := lead_within (t := t) hd; omega)
    | struct fs =>
      cases fs with
      | nil => exact pays_empty _ _ (by omega)
      | cons f fs =>
        refine pays_struct (B := B) _ (fun name v hc => ?_) hk
        refine pays_structMember _ _ _ _ _ (fun f hf => ?_) hk _ _ hc
        exact ⟨f.ty.lead, lead_within (hd f hf), pays_step Γ cfg pools _ ih hk _ (hd f hf)⟩

theorem pays_ReadVal {B : Nat} (Γ : TyEnv F) (cfg : DecCfg F) (pools : Pools) (hΓ : Γ.Within B) (hk : B + 9 ≤ k) (t : Ty) (ht : t.Within B)
    (old : Val F) (hc : B + 4 ≤ c) : (ReadVal Γ cfg pools t old).Pays k false c c := by
  have := lead_within ht
  refine .remainingBind fun n => ?_
  exact (pays_step Γ cfg pools _ (pays_named Γ cfg pools hΓ hk (n + 1)) hk t ht _ _ _ (by omega)).to (by omega)

theorem pays_tokenEOF (hc : 1 ≤ c) : tokenEOF.Pays k i c (c - 1) := .scan hc

macro_rules | `(tactic| pays_known) => `(tactic| (with_reducible refine pays_tokenEOF ?_) <;> omega)

theorem pays_validProg (pool : Stack) (hk : 8 ≤ k) (hc : 2 ≤ c) : (validProg pool).Pays k i c (c - 1) := by
  unfold validProg
  pays

theorem pays_unmarshalProg {B : Nat} (Γ : TyEnv F) (cfg : DecCfg F) (pools : Pools) (hΓ : Γ.Within B) (hk : B + 9 ≤ k) (t : Ty)
    (ht : t.Within B) (old : Val F) (hc : B + 4 ≤ c) : (unmarshalProg Γ cfg pools t old).Pays k false c (c - 1) := by
  unfold unmarshalProg
  refine .bind (pays_ReadVal Γ cfg pools hΓ hk t ht old hc) fun _ => ?_
  pays

/-! ### Callbacks -/

theorem pays_arrayCBLoop {S : Type} (cb : S → Prog S) {A : Nat} (hcb : ∀ {c : Nat} s, A ≤ c → (cb s).Pays k false c c) (hk : 8 ≤ k) (n : Nat)
    (s : S) (hc : A + 1 ≤ c) : (arrayCBLoop cb n s).Pays k false c c := by
  induction n generalizing s c with
  | zero => exact .fail _
  | succ n ih =>
    have hcb' : ∀ {c : Nat} s, A ≤ c → (cb s).Pays k false c c := hcb
    unfold arrayCBLoop
    refine .bind (hcb' _ (by omega)) fun _ => ?_
    pays
    exact (ih _ (by omega)).to (by omega)

theorem pays_ReadArrayCB {S : Type} (cb : S → Prog S) {A : Nat} (hcb : ∀ {c : Nat} s, A ≤ c → (cb s).Pays k false c c) (hk : 8 ≤ k)
    (s : S) (hc : A + 2 ≤ c) : (ReadArrayCB cb s).Pays k false c c := by
  have hl : ∀ {c : Nat} n s, A + 1 ≤ c → (arrayCBLoop cb n s).Pays k false c c := fun n s hc => pays_arrayCBLoop cb hcb hk n s hc
  unfold ReadArrayCB
  pays
  all_goals exact (hl _ _ (by omega)).to (by omega)

theorem pays_objectCBLoop {S : Type} (cb : List Byte → S → Prog S) {A : Nat}
    (hcb : ∀ {c : Nat} name s, A ≤ c → (cb name s).Pays k false c c) (hk : 8 ≤ k) (n : Nat) (s : S) (hc : A + 2 ≤ c) :
    (objectCBLoop cb n s).Pays k false c c := by
  induction n generalizing s c with
  | zero => exact .fail _
  | succ n ih =>
    have hcb' : ∀ {c : Nat} name s, A ≤ c → (cb name s).Pays k false c c := hcb
    unfold objectCBLoop
    refine .bind (pays_readObjectField (by omega) (by omega)) fun _ => ?_
    refine .bind (hcb' _ _ (by omega)) fun _ => ?_
    pays
    exact (ih _ (by omega)).to (by omega)

theorem pays_ReadObjectCB {S : Type} (cb : List Byte → S → Prog S) {A : Nat}
    (hcb : ∀ {c : Nat} name s, A ≤ c → (cb name s).Pays k false c c) (hk : 8 ≤ k) (s : S) (hc : A + 2 ≤ c) :
    (ReadObjectCB cb s).Pays k false c c := by
  have hl : ∀ {c : Nat} n s, A + 2 ≤ c → (objectCBLoop cb n s).Pays k false c c := fun n s hc => pays_objectCBLoop cb hcb hk n s hc
  unfold ReadObjectCB
  pays
  all_goals exact (hl _ _ (by omega)).to (by omega)

end

end Jzon
