import Verif.Proof.Stack

/-!
# C09: the nesting stack
-/

namespace Jzon.Props

/-- A container kind. -/
inductive Kind where
  | obj
  | arr
  deriving DecidableEq, Repr

/-- What a client does with the stack. -/
inductive StackOp where
  | push (k : Kind)
  | pop
  deriving DecidableEq, Repr

/-- Specification: a list of kinds, innermost first; the answers of the pops are collected. -/
def specRun : List StackOp → List Kind → List (Option Kind) → List Kind × List (Option Kind)
  | [], s, out => (s, out)
  | .push k :: ops, s, out => specRun ops (k :: s) out
  | .pop :: ops, [], out => specRun ops [] (out ++ [none])
  | .pop :: ops, k :: s, out => specRun ops s (out ++ [some k])

/-- What the code takes the result of `pop` for. -/
def kindOf : StackElem → Option Kind
  | .none => none
  | .object | .objectBegin => some .obj
  | .array | .arrayBegin => some .arr

/-- The same history on the packed stack. -/
def stackRun : List StackOp → Stack → List (Option Kind) → Except Err (Stack × List (Option Kind))
  | [], s, out => .ok (s, out)
  | .push .obj :: ops, s, out =>
    match s.pushObject with
    | .ok s => stackRun ops s out
    | .error e => .error e
  | .push .arr :: ops, s, out =>
    match s.pushArray with
    | .ok s => stackRun ops s out
    | .error e => .error e
  | .pop :: ops, s, out =>
    match s.pop with
    | .ok (k, s) => stackRun ops s (out ++ [kindOf k])
    | .error e => .error e

/-- A recycled stack object, initialised for a container. -/
def initStack (pool : Stack) : Kind → Stack
  | .obj => pool.initObject
  | .arr => pool.initArray

def kindBit : Kind → Bool
  | .obj => false
  | .arr => true

theorem stackRun_abs (ops : List StackOp) (s : Stack) (ks : List Kind) (out : List (Option Kind))
    (h : s.Abs (ks.map kindBit)) :
    ∃ s', stackRun ops s out = .ok (s', (specRun ops ks out).2) ∧ s'.Abs ((specRun ops ks out).1.map kindBit) := by
  induction ops generalizing s ks out with
  | nil => exact ⟨s, rfl, h⟩
  | cons op ops ih =>
    cases op with
    | push k =>
      cases k with
      | obj =>
        obtain ⟨s', h1, h2⟩ := pushObject_abs h
        simp only [stackRun, h1, specRun]
        exact ih s' (.obj :: ks) out h2
      | arr =>
        obtain ⟨s', h1, h2⟩ := pushArray_abs h
        simp only [stackRun, h1, specRun]
        exact ih s' (.arr :: ks) out h2
    | pop =>
      cases ks with
      | nil =>
        simp only [stackRun, pop_nil h, specRun, kindOf]
        exact ih s [] _ h
      | cons k ks =>
        obtain ⟨s', h1, h2⟩ := pop_cons h
        simp only [stackRun, h1, specRun]
        have : kindOf (elemOf (kindBit k)) = some k := by cases k <;> rfl
        rw [this]
        exact ih s' ks _ h2

/-- **C09.** Whatever the recycled stack `pool` still contains, after initialisation every history of pushes and pops
gives the answers of an ordinary stack, and never an index out of range. -/
theorem C09_stack_refines (pool : Stack) (k : Kind) (ops : List StackOp) :
    ∃ s', stackRun ops (initStack pool k) [] = .ok (s', (specRun ops [k] []).2) := by
  cases k with
  | obj => obtain ⟨s', h, _⟩ := stackRun_abs ops pool.initObject [.obj] [] (initObject_abs pool); exact ⟨s', h⟩
  | arr => obtain ⟨s', h, _⟩ := stackRun_abs ops pool.initArray [.arr] [] (initArray_abs pool); exact ⟨s', h⟩

/-- Concrete case: dirty words, seventy pushes (past a word boundary) and as many pops. -/
example : (stackRun ((List.replicate 65 (.push .arr)) ++ [.push .obj, .pop, .pop]) (initStack ⟨[5, 0xFFFFFFFFFFFFFFFF], 9⟩ .obj) []).toOption.map
    (·.2) = some [some .obj, some .arr] := by decide +kernel
example : (specRun [.push .arr, .pop, .pop, .pop] [.obj] []).2 = [some .arr, some .obj, none] := rfl

end Jzon.Props
