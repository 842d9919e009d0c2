import Verif.Proof.Flat
import Verif.Proof.Stack
import Verif.Model.Read

/-!
# The stack machines as recursive descent

`RVal`, `RArr`, `RObj` describe recursive descent over the remaining input.  The loop of `readWithStack` with its two
explicit stacks computes exactly that.
-/

set_option linter.unusedSimpArgs false
set_option linter.unnecessarySimpa false

namespace Jzon

theorem runs_nextToken {env : Env} {l : List Byte} {c : Byte} {r : List Byte} :
    Runs nextTokenTake env l c r ↔ dropWs l = c :: r := by
  unfold nextTokenTake
  rw [runs_token]
  simp

theorem dropWs_length {l : List Byte} {c : Byte} {r : List Byte} (h : dropWs l = c :: r) : r.length < l.length := by
  have := (dropWs_suffix l).length_le
  rw [h] at this
  simp at this
  omega

@[simp] theorem runs_ofExcept {α : Type} {x : Except Err α} {env : Env} {l : List Byte} {a : α} {r : List Byte} :
    Runs (Prog.ofExcept x) env l a r ↔ x = .ok a ∧ r = l := by
  cases x <;> simp [Prog.ofExcept, eq_comm]

/-- Assign members in order. -/
def setAll {F : Type} (m : GoMap F) (kgs : List (List Byte × GoVal F)) : GoMap F :=
  kgs.foldl (fun m kg => m.set kg.1 kg.2) m

mutual
/-- A value whose first byte is consumed. -/
inductive RVal {F : Type} (cfg : ReadCfg F) (env : Env) : Byte → List Byte → GoVal F → List Byte → Prop
  | scalar {c l g r} (hc : c ≠ 0x5B ∧ c ≠ 0x7B) (h : Runs (readScalar cfg c) env l g r) : RVal cfg env c l g r
  | arr {l gs r} (h : RArr cfg env true l gs r) : RVal cfg env 0x5B l (.arr gs) r
  | obj {l kgs r} (h : RObj cfg env true l kgs r) : RVal cfg env 0x7B l (.obj (setAll .empty kgs)) r
/-- The rest of an array, behind `[` (`true`) or behind an element (`false`). -/
inductive RArr {F : Type} (cfg : ReadCfg F) (env : Env) : Bool → List Byte → List (GoVal F) → List Byte → Prop
  | close {b l r} (h : dropWs l = 0x5D :: r) : RArr cfg env b l [] r
  | first {l c l1 g l2 gs r} (h : dropWs l = c :: l1) (hv : RVal cfg env c l1 g l2) (hr : RArr cfg env false l2 gs r) :
      RArr cfg env true l (g :: gs) r
  | next {l l0 c l1 g l2 gs r} (h0 : dropWs l = 0x2C :: l0) (h : dropWs l0 = c :: l1) (hv : RVal cfg env c l1 g l2)
      (hr : RArr cfg env false l2 gs r) : RArr cfg env false l (g :: gs) r
/-- The rest of an object, behind `{` (`true`) or behind a member (`false`). -/
inductive RObj {F : Type} (cfg : ReadCfg F) (env : Env) :
    Bool → List Byte → List (List Byte × GoVal F) → List Byte → Prop
  | oclose {b l r} (h : dropWs l = 0x7D :: r) : RObj cfg env b l [] r
  | ofirst {l l1 k l2 c l3 g l4 kgs r} (h : dropWs l = 0x22 :: l1) (hk : Runs readObjectField env l1 k l2)
      (hc : dropWs l2 = c :: l3) (hv : RVal cfg env c l3 g l4) (hr : RObj cfg env false l4 kgs r) :
      RObj cfg env true l ((k, g) :: kgs) r
  | onext {l l0 l1 k l2 c l3 g l4 kgs r} (h0 : dropWs l = 0x2C :: l0) (h : dropWs l0 = 0x22 :: l1)
      (hk : Runs readObjectField env l1 k l2)
      (hc : dropWs l2 = c :: l3) (hv : RVal cfg env c l3 g l4) (hr : RObj cfg env false l4 kgs r) :
      RObj cfg env false l ((k, g) :: kgs) r
end

section
variable {F : Type} {cfg : ReadCfg F} {env : Env}

theorem readScalar_open {c : Byte} (h : c = 0x5B ∨ c = 0x7B ∨ c = 0x5D ∨ c = 0x7D) {l : List Byte} {g : GoVal F} {r : List Byte} :
    ¬ Runs (readScalar cfg c) env l g r := by
  rcases h with rfl | rfl | rfl | rfl <;> simp [readScalar, isNumberStart]

theorem rval_arr {l : List Byte} {g : GoVal F} {r : List Byte} :
    RVal cfg env 0x5B l g r ↔ ∃ gs, g = .arr gs ∧ RArr cfg env true l gs r := by
  constructor
  · intro h
    cases h with
    | scalar hc _ => simp at hc
    | arr h => exact ⟨_, rfl, h⟩
  · rintro ⟨gs, rfl, h⟩; exact .arr h

theorem rval_obj {l : List Byte} {g : GoVal F} {r : List Byte} :
    RVal cfg env 0x7B l g r ↔ ∃ kgs, g = .obj (setAll .empty kgs) ∧ RObj cfg env true l kgs r := by
  constructor
  · intro h
    cases h with
    | scalar hc _ => simp at hc
    | obj h => exact ⟨_, rfl, h⟩
  · rintro ⟨gs, rfl, h⟩; exact .obj h

theorem rval_scalar {c : Byte} (h1 : c ≠ 0x5B) (h2 : c ≠ 0x7B) {l : List Byte} {g : GoVal F} {r : List Byte} :
    RVal cfg env c l g r ↔ Runs (readScalar cfg c) env l g r := by
  constructor
  · intro h
    cases h with
    | scalar _ h => exact h
    | arr h => exact absurd rfl h1
    | obj h => exact absurd rfl h2
  · intro h; exact .scalar ⟨h1, h2⟩ h

theorem not_rval_close {c : Byte} (h : c = 0x5D ∨ c = 0x7D) {l : List Byte} {g : GoVal F} {r : List Byte} :
    ¬ RVal cfg env c l g r := by
  rw [rval_scalar (by rcases h with rfl | rfl <;> decide) (by rcases h with rfl | rfl <;> decide)]
  exact readScalar_open (.inr (.inr h))

/-! ## The machine -/

/-- What is left to do when the value `g` for the field `field` has been read inside the open containers `ns`. -/
def Fin (cfg : ReadCfg F) (env : Env) : NodeStack F → List Byte → GoVal F → List Byte → GoVal F → List Byte → Prop
  | [], _, g, l, res, r => res = g ∧ r = l
  | n :: ns, field, g, l, res, r =>
    match n.m with
    | none => ∃ gs l1, RArr cfg env false l gs l1 ∧ Fin cfg env ns n.field (.arr (n.s ++ [g] ++ gs)) l1 res r
    | some m => ∃ kgs l1, RObj cfg env false l kgs l1 ∧
        Fin cfg env ns n.field (.obj (setAll (m.set field g) kgs)) l1 res r

/-- The container kinds of the nodes. -/
def kinds (ns : NodeStack F) : List Bool := ns.map fun n => n.m.isNone

/-- The claim about the loop for arrays and objects on top, for inputs shorter than the bound. -/
structure MachOk (cfg : ReadCfg F) (env : Env) (k : Nat) : Prop where
  arr : ∀ (top : StackElem) (b : Bool) (s : Stack) (n : Node F) (ns : NodeStack F) (l : List Byte) (res : GoVal F) (r : List Byte),
    (top = if b then .arrayBegin else .array) → s.Abs (kinds ns) → n.m = none → l.length < k →
    (Runs (readWithStack cfg k top s (n :: ns)) env l res r ↔
      ∃ gs l1, RArr cfg env b l gs l1 ∧ Fin cfg env ns n.field (.arr (n.s ++ gs)) l1 res r)
  obj : ∀ (top : StackElem) (b : Bool) (s : Stack) (n : Node F) (ns : NodeStack F) (m : GoMap F) (l : List Byte) (res : GoVal F) (r : List Byte),
    (top = if b then .objectBegin else .object) → s.Abs (kinds ns) → n.m = some m → l.length < k →
    (Runs (readWithStack cfg k top s (n :: ns)) env l res r ↔
      ∃ kgs l1, RObj cfg env b l kgs l1 ∧ Fin cfg env ns n.field (.obj (setAll m kgs)) l1 res r)

theorem readElement_iff {k : Nat} (ih : MachOk cfg env k) {s : Stack} {n : Node F} {ns : NodeStack F} {c : Byte}
    {l : List Byte} {res : GoVal F} {r : List Byte} (hs : s.Abs (kinds ns)) (hn : n.m = none) (hl : l.length < k) :
    Runs (readElement cfg (readWithStack cfg k) s (n :: ns) c) env l res r ↔
      ∃ g l1 gs l2, RVal cfg env c l g l1 ∧ RArr cfg env false l1 gs l2 ∧
        Fin cfg env ns n.field (.arr (n.s ++ g :: gs)) l2 res r := by
  have hk : kinds (n :: ns) = true :: kinds ns := by simp [kinds, hn]
  obtain ⟨s', hp, ha⟩ := pushArray_abs hs
  rw [← hk] at ha
  unfold readElement
  by_cases h1 : c = 0x5B
  · subst h1
    simp only [if_true, runs_bind, runs_ofExcept, hp, NodeStack.pushArray, rval_arr]
    constructor
    · rintro ⟨_, _, ⟨h, rfl⟩, h2⟩
      cases h
      obtain ⟨gs, l1, h3, h4⟩ := (ih.arr _ true _ _ _ _ _ _ rfl ha rfl hl).mp h2
      simp only [Fin, hn] at h4
      obtain ⟨gs', l2, h5, h6⟩ := h4
      exact ⟨_, l1, gs', l2, ⟨gs, rfl, h3⟩, h5, by simpa using h6⟩
    · rintro ⟨_, l1, gs', l2, ⟨gs, rfl, h3⟩, h5, h6⟩
      refine ⟨s', l, ⟨rfl, rfl⟩, (ih.arr _ true _ _ _ _ _ _ rfl ha rfl hl).mpr ⟨gs, l1, h3, ?_⟩⟩
      simp only [Fin, hn]
      exact ⟨gs', l2, h5, by simpa using h6⟩
  · by_cases h2 : c = 0x7B
    · subst h2
      rw [if_neg (by decide)]
      simp only [if_true, runs_bind, runs_ofExcept, hp, NodeStack.pushObject, rval_obj]
      constructor
      · rintro ⟨_, _, ⟨h, rfl⟩, h2⟩
        cases h
        obtain ⟨gs, l1, h3, h4⟩ := (ih.obj _ true _ _ _ .empty _ _ _ rfl ha rfl hl).mp h2
        simp only [Fin, hn] at h4
        obtain ⟨gs', l2, h5, h6⟩ := h4
        exact ⟨_, l1, gs', l2, ⟨gs, rfl, h3⟩, h5, by simpa using h6⟩
      · rintro ⟨_, l1, gs', l2, ⟨gs, rfl, h3⟩, h5, h6⟩
        refine ⟨s', l, ⟨rfl, rfl⟩, (ih.obj _ true _ _ _ .empty _ _ _ rfl ha rfl hl).mpr ⟨gs, l1, h3, ?_⟩⟩
        simp only [Fin, hn]
        exact ⟨gs', l2, h5, by simpa using h6⟩
    · rw [if_neg h1, if_neg h2]
      simp only [runs_bind, runs_ofExcept, NodeStack.appendTopArray, rval_scalar h1 h2]
      constructor
      · rintro ⟨g, l1, h3, _, _, ⟨h, rfl⟩, h4⟩
        cases h
        have := Runs.length_le h3
        obtain ⟨gs, l2, h5, h6⟩ := (ih.arr .array false _ _ _ _ _ _ rfl hs (by simpa using hn) (by omega)).mp h4
        exact ⟨g, _, gs, l2, h3, h5, by simpa using h6⟩
      · rintro ⟨g, l1, gs, l2, h3, h5, h6⟩
        have := Runs.length_le h3
        refine ⟨g, l1, h3, _, _, ⟨rfl, rfl⟩, ?_⟩
        exact (ih.arr .array false _ _ _ _ _ _ rfl hs (by simpa using hn) (by omega)).mpr ⟨gs, l2, h5, by simpa using h6⟩

theorem readMember_iff {k : Nat} (ih : MachOk cfg env k) {s : Stack} {n : Node F} {ns : NodeStack F} {m : GoMap F}
    {l : List Byte} {res : GoVal F} {r : List Byte} (hs : s.Abs (kinds ns)) (hn : n.m = some m) (hl : l.length < k) :
    Runs (readMember cfg (readWithStack cfg k) s (n :: ns)) env l res r ↔
      ∃ key l0 c l1 g l2 kgs l3, Runs readObjectField env l key l0 ∧ dropWs l0 = c :: l1 ∧ RVal cfg env c l1 g l2 ∧
        RObj cfg env false l2 kgs l3 ∧ Fin cfg env ns n.field (.obj (setAll m ((key, g) :: kgs))) l3 res r := by
  have hk : kinds (n :: ns) = false :: kinds ns := by simp [kinds, hn]
  obtain ⟨s', hp, ha⟩ := pushObject_abs hs
  rw [← hk] at ha
  unfold readMember
  simp only [runs_bind, runs_nextToken]
  constructor
  · rintro ⟨key, l0, h0, c, l1, hc, h⟩
    have hlen := Runs.length_le h0
    have hlen2 := dropWs_length hc
    refine ⟨key, l0, c, l1, ?_⟩
    split at h
    · rename_i h1; subst h1
      simp only [runs_bind, runs_ofExcept, hp, NodeStack.pushArray] at h
      obtain ⟨_, _, ⟨e, rfl⟩, h2⟩ := h
      cases e
      obtain ⟨gs, l2, h3, h4⟩ := (ih.arr _ true _ _ _ _ _ _ rfl ha rfl (by omega)).mp h2
      simp only [Fin, hn] at h4
      obtain ⟨gs', l3, h5, h6⟩ := h4
      exact ⟨_, l2, gs', l3, h0, hc, .arr h3, h5, h6⟩
    · split at h
      · rename_i h1; subst h1
        simp only [runs_bind, runs_ofExcept, hp, NodeStack.pushObject] at h
        obtain ⟨_, _, ⟨e, rfl⟩, h2⟩ := h
        cases e
        obtain ⟨gs, l2, h3, h4⟩ := (ih.obj _ true _ _ _ .empty _ _ _ rfl ha rfl (by omega)).mp h2
        simp only [Fin, hn] at h4
        obtain ⟨gs', l3, h5, h6⟩ := h4
        exact ⟨_, l2, gs', l3, h0, hc, .obj h3, h5, h6⟩
      · rename_i h1 h2
        simp only [runs_bind, runs_ofExcept, NodeStack.setTopObject, hn] at h
        obtain ⟨g, l2, h3, _, _, ⟨e, rfl⟩, h4⟩ := h
        cases e
        have := Runs.length_le h3
        obtain ⟨gs, l3, h5, h6⟩ := (ih.obj .object false _ _ _ _ _ _ _ rfl hs rfl (by omega)).mp h4
        exact ⟨g, _, gs, l3, h0, hc, .scalar ⟨h1, h2⟩ h3, h5, h6⟩
  · rintro ⟨key, l0, c, l1, g, l2, kgs, l3, h0, hc, hv, h5, h6⟩
    have hlen := Runs.length_le h0
    have hlen2 := dropWs_length hc
    refine ⟨key, l0, h0, c, l1, hc, ?_⟩
    cases hv with
    | scalar hc' h =>
      rw [if_neg hc'.1, if_neg hc'.2]
      simp only [runs_bind, runs_ofExcept, NodeStack.setTopObject, hn]
      have := Runs.length_le h
      refine ⟨g, l2, h, _, _, ⟨rfl, rfl⟩, ?_⟩
      exact (ih.obj .object false _ _ _ _ _ _ _ rfl hs rfl (by omega)).mpr ⟨kgs, l3, h5, h6⟩
    | arr h =>
      simp only [if_true, runs_bind, runs_ofExcept, hp, NodeStack.pushArray]
      refine ⟨s', l1, ⟨rfl, rfl⟩, (ih.arr _ true _ _ _ _ _ _ rfl ha rfl (by omega)).mpr ⟨_, l2, h, ?_⟩⟩
      simp only [Fin, hn]
      exact ⟨kgs, l3, h5, h6⟩
    | obj h =>
      rw [if_neg (by decide)]
      simp only [if_true, runs_bind, runs_ofExcept, hp, NodeStack.pushObject]
      refine ⟨s', l1, ⟨rfl, rfl⟩, (ih.obj _ true _ _ _ .empty _ _ _ rfl ha rfl (by omega)).mpr ⟨_, l2, h, ?_⟩⟩
      simp only [Fin, hn]
      exact ⟨kgs, l3, h5, h6⟩

/-- Leaving a container: pop both stacks and go on. -/
theorem close_iff {k : Nat} (ih : MachOk cfg env k) {s : Stack} {ns : NodeStack F} {field : List Byte} {g : GoVal F}
    {l : List Byte} {res : GoVal F} {r : List Byte} (hs : s.Abs (kinds ns)) (hl : l.length < k)
    (fin : Except Err (GoVal F)) (hfin : fin = .ok g)
    (pop : Except Err (NodeStack F)) (hpop : pop = NodeStack.attach field g ns) :
    Runs (do
      let (top, s) ← Prog.ofExcept s.pop
      if top = .none then Prog.ofExcept fin
      else do
        let ns ← Prog.ofExcept pop
        readWithStack cfg k top s ns) env l res r ↔ Fin cfg env ns field g l res r := by
  subst hfin
  subst hpop
  cases ns with
  | nil =>
    simp only [runs_bind, runs_ofExcept, pop_nil hs, Fin]
    constructor
    · rintro ⟨_, _, ⟨e, rfl⟩, h⟩
      cases e
      simp at h
      exact ⟨h.1.symm, h.2⟩
    · rintro ⟨rfl, rfl⟩
      exact ⟨_, _, ⟨rfl, rfl⟩, by simp⟩
  | cons n ns =>
    have hk : kinds (n :: ns) = n.m.isNone :: kinds ns := by simp [kinds]
    rw [hk] at hs
    obtain ⟨s', hp, ha⟩ := pop_cons hs
    simp only [runs_bind, runs_ofExcept, hp]
    have hne : elemOf n.m.isNone ≠ .none := by cases n.m <;> simp [elemOf]
    cases hm : n.m with
    | none =>
      constructor
      · rintro ⟨_, _, ⟨e, rfl⟩, h⟩
        cases e
        simp only [elemOf, Option.isNone_none, if_true, reduceCtorEq, if_false, NodeStack.attach, hm,
          runs_bind, runs_ofExcept] at h
        obtain ⟨_, _, ⟨e, rfl⟩, h⟩ := h
        cases e
        simp only [Fin, hm]
        obtain ⟨gs, l1, h1, h2⟩ := (ih.arr .array false _ _ _ _ _ _ rfl ha (by simpa using hm) hl).mp h
        exact ⟨gs, l1, h1, by simpa using h2⟩
      · intro h
        simp only [Fin, hm] at h
        obtain ⟨gs, l1, h1, h2⟩ := h
        refine ⟨_, _, ⟨rfl, rfl⟩, ?_⟩
        simp only [elemOf, Option.isNone_none, if_true, reduceCtorEq, if_false, NodeStack.attach, hm,
          runs_bind, runs_ofExcept]
        refine ⟨_, _, ⟨rfl, rfl⟩, ?_⟩
        exact (ih.arr .array false _ _ _ _ _ _ rfl ha (by simpa using hm) hl).mpr ⟨gs, l1, h1, by simpa using h2⟩
    | some m =>
      constructor
      · rintro ⟨_, _, ⟨e, rfl⟩, h⟩
        cases e
        simp only [elemOf, Option.isNone_some, Bool.false_eq_true, if_true, reduceCtorEq, if_false, NodeStack.attach, hm,
          runs_bind, runs_ofExcept] at h
        obtain ⟨_, _, ⟨e, rfl⟩, h⟩ := h
        cases e
        simp only [Fin, hm]
        obtain ⟨gs, l1, h1, h2⟩ := (ih.obj .object false _ _ _ _ _ _ _ rfl ha rfl hl).mp h
        exact ⟨gs, l1, h1, h2⟩
      · intro h
        simp only [Fin, hm] at h
        obtain ⟨gs, l1, h1, h2⟩ := h
        refine ⟨_, _, ⟨rfl, rfl⟩, ?_⟩
        simp only [elemOf, Option.isNone_some, Bool.false_eq_true, if_true, reduceCtorEq, if_false, NodeStack.attach, hm,
          runs_bind, runs_ofExcept]
        refine ⟨_, _, ⟨rfl, rfl⟩, ?_⟩
        exact (ih.obj .object false _ _ _ _ _ _ _ rfl ha rfl hl).mpr ⟨gs, l1, h1, h2⟩

theorem machOk (cfg : ReadCfg F) (env : Env) (k : Nat) : MachOk cfg env k := by
  induction k with
  | zero => exact ⟨by intros; omega, by intros; omega⟩
  | succ k ih =>
    constructor
    · intro top b s n ns l res r htop hs hn hl
      have hobj : top.isObject = false := by cases b <;> simp [htop, StackElem.isObject]
      unfold readWithStack
      simp only [runs_bind, runs_nextToken, hobj, Bool.false_eq_true, if_false]
      constructor
      · rintro ⟨c, l1, hc, h⟩
        have hlen := dropWs_length hc
        split at h
        · rename_i h1; subst h1
          have := (close_iff ih (field := n.field) (g := .arr n.s) hs (by omega) _ rfl _ rfl).mp h
          exact ⟨[], l1, .close hc, by simpa using this⟩
        · cases b
          · simp only [Bool.false_eq_true, if_false] at htop
            rw [if_pos htop] at h
            split at h
            · simp at h
            · rename_i h2
              have h2 := Classical.not_not.mp h2; subst h2
              simp only [runs_bind, runs_nextToken] at h
              obtain ⟨c, l2, hc2, h⟩ := h
              have hlen2 := dropWs_length hc2
              obtain ⟨g, l3, gs, l4, h3, h4, h5⟩ := (readElement_iff ih hs hn (by omega)).mp h
              exact ⟨g :: gs, l4, .next hc hc2 h3 h4, h5⟩
          · simp only [if_true] at htop
            rw [if_neg (by rw [htop]; decide)] at h
            obtain ⟨g, l3, gs, l4, h3, h4, h5⟩ := (readElement_iff ih hs hn (by omega)).mp h
            exact ⟨g :: gs, l4, .first hc h3 h4, h5⟩
      · rintro ⟨gs, l1, h, hf⟩
        cases h with
        | close h =>
          have hlen := dropWs_length h
          refine ⟨_, _, h, ?_⟩
          rw [if_pos rfl]
          exact (close_iff ih (field := n.field) (g := .arr n.s) hs (by omega) _ rfl _ rfl).mpr (by simpa using hf)
        | first h hv hr =>
          have hlen := dropWs_length h
          refine ⟨_, _, h, ?_⟩
          rw [if_neg (by rintro rfl; exact not_rval_close (.inl rfl) hv), if_neg (by rw [htop]; decide)]
          exact (readElement_iff ih hs hn (by omega)).mpr ⟨_, _, _, _, hv, hr, hf⟩
        | next h0 h hv hr =>
          have hlen := dropWs_length h0
          have hlen2 := dropWs_length h
          refine ⟨_, _, h0, ?_⟩
          rw [if_neg (by decide), if_pos (by simpa using htop), if_neg (by simp)]
          simp only [runs_bind, runs_nextToken]
          exact ⟨_, _, h, (readElement_iff ih hs hn (by omega)).mpr ⟨_, _, _, _, hv, hr, hf⟩⟩
    · intro top b s n ns m l res r htop hs hn hl
      have hobj : top.isObject = true := by cases b <;> simp [htop, StackElem.isObject]
      unfold readWithStack
      simp only [runs_bind, runs_nextToken, hobj, if_true]
      constructor
      · rintro ⟨c, l1, hc, h⟩
        have hlen := dropWs_length hc
        split at h
        · rename_i h1; subst h1
          have := (close_iff ih (field := n.field) (g := .obj m) hs (by omega) _
            (by simp [NodeStack.topObject, hn]) _ (by simp [NodeStack.popObject, hn])).mp h
          exact ⟨[], l1, .oclose hc, by simpa [setAll] using this⟩
        · cases b
          · simp only [Bool.false_eq_true, if_false] at htop
            rw [if_pos htop] at h
            split at h
            · simp at h
            · rename_i h2
              have h2 := Classical.not_not.mp h2; subst h2
              simp only [runs_bind, runs_nextToken] at h
              obtain ⟨c, l2, hc2, h⟩ := h
              have hlen2 := dropWs_length hc2
              split at h
              · simp at h
              · rename_i h2
                have h2 := Classical.not_not.mp h2; subst h2
                obtain ⟨key, l0, c, l1, g, l2, kgs, l3, h0, h1, h3, h4, h5⟩ := (readMember_iff ih hs hn (by omega)).mp h
                exact ⟨(key, g) :: kgs, l3, .onext hc hc2 h0 h1 h3 h4, h5⟩
          · simp only [if_true] at htop
            rw [if_neg (by rw [htop]; decide)] at h
            split at h
            · simp at h
            · rename_i h2
              have h2 := Classical.not_not.mp h2; subst h2
              obtain ⟨key, l0, c, l1, g, l2, kgs, l3, h0, h1, h3, h4, h5⟩ := (readMember_iff ih hs hn (by omega)).mp h
              exact ⟨(key, g) :: kgs, l3, .ofirst hc h0 h1 h3 h4, h5⟩
      · rintro ⟨gs, l1, h, hf⟩
        cases h with
        | oclose h =>
          have hlen := dropWs_length h
          refine ⟨_, _, h, ?_⟩
          rw [if_pos rfl]
          exact (close_iff ih (field := n.field) (g := .obj m) hs (by omega) _
            (by simp [NodeStack.topObject, hn]) _ (by simp [NodeStack.popObject, hn])).mpr (by simpa [setAll] using hf)
        | ofirst h hk hc hv hr =>
          have hlen := dropWs_length h
          refine ⟨_, _, h, ?_⟩
          rw [if_neg (by decide), if_neg (by rw [htop]; decide), if_neg (by simp)]
          exact (readMember_iff ih hs hn (by omega)).mpr ⟨_, _, _, _, _, _, _, _, hk, hc, hv, hr, hf⟩
        | onext h0 h hk hc hv hr =>
          have hlen := dropWs_length h0
          have hlen2 := dropWs_length h
          refine ⟨_, _, h0, ?_⟩
          rw [if_neg (by decide), if_pos (by simpa using htop), if_neg (by simp)]
          simp only [runs_bind, runs_nextToken]
          refine ⟨_, _, h, ?_⟩
          rw [if_neg (by simp)]
          exact (readMember_iff ih hs hn (by omega)).mpr ⟨_, _, _, _, _, _, _, _, hk, hc, hv, hr, hf⟩

end

end Jzon
