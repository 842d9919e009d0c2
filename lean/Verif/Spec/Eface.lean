import Verif.Model.Eface
import Verif.Spec.Reader

/-!
# Specification: chains of pointers between variables
-/

namespace Spec

open Jzon (Byte Err Cell Mem EIt EOut)

variable {F : Type}

/-- The variable `a` is an `interface{}`. -/
def IfaceVar (m : Mem F) (a : Nat) : Prop :=
  (∃ g, m[a]? = some (.any g)) ∨ (∃ k, m[a]? = some (.anyNil k)) ∨ ∃ k b, m[a]? = some (.anyPtr k b)

/-- The variable `a` is a pointer to `b`, or an interface that holds one. -/
def Points (m : Mem F) (a b : Nat) : Prop :=
  (∃ k, m[a]? = some (.anyPtr k b)) ∨ (∃ k, m[a]? = some (.ptr k (some b))) ∨ ∃ k, m[a]? = some (.ifcPtr k b)

/-- Following the pointers `k` times leads from `a` to `b`. -/
inductive Leads (m : Mem F) : Nat → Nat → Nat → Prop
  | here (a : Nat) : Leads m 0 a a
  | step {k a b c : Nat} (h : Points m a b) (t : Leads m k b c) : Leads m (k + 1) a c

/-- The pointers lead from `a` to a variable that does not point to another one. -/
def EndsIn (m : Mem F) (a z : Nat) : Prop := (∃ k, Leads m k a z) ∧ ∀ b, ¬Points m z b

/-- The pointers lead from `a` back to `a`. -/
def OnCycle (m : Mem F) (a : Nat) : Prop := ∃ k, Leads m (k + 1) a a

/-- The pointers can be followed from `a` for ever. -/
def Endless (m : Mem F) (a : Nat) : Prop := ∀ k, ∃ b, Leads m k a b

/-- The first `interface{}` on the way from `a`, `a` included. -/
inductive FirstIface (m : Mem F) : Nat → Nat → Prop
  | here {a : Nat} (h : IfaceVar m a) : FirstIface m a a
  | skip {a b c : Nat} (h : ¬IfaceVar m a) (p : Points m a b) (t : FirstIface m b c) : FirstIface m a c

/-- The variable whose address is compared when decoding into `a` begins with the white space `w`: the first `interface{}`
that is met with the iterator standing on the first byte of the value. -/
def Compared (m : Mem F) (w : List Byte) (a r : Nat) : Prop :=
  if w = [] then FirstIface m a r else ∃ b, Points m a b ∧ FirstIface m b r

/-- `l` is the white space `w`, followed by `c`, which is not white space, and `r`. -/
def Token (l w : List Byte) (c : Byte) (r : List Byte) : Prop := Ws w ∧ ¬Ws [c] ∧ l = w ++ c :: r

/-- The iterator has moved since its checkpoint, or has none. -/
def Fresh (s : EIt) : Prop := ∀ p q, s.last = some (p, q) → q < s.it.offset + s.it.head

end Spec
