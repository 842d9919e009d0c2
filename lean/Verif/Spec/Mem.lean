import Verif.Model.Mem

/-!
# Who may write where
-/

namespace Spec
open Jzon

/-- The parts of a program. -/
inductive Owner where
  | program
  | iter (i : Nat)
  | stream (i : Nat)
  deriving DecidableEq

/-- The arrays of each part. -/
def Owns (w : World) : Owner → Nat → Prop
  | .program, a => w.user a
  | .iter i, a => ∃ it, w.iters i = some it ∧ (a = it.fixbuf.arr ∨ a = it.tmp.arr)
  | .stream i, a => ∃ s, w.streams i = some s ∧ a = s.arr

/-- The part that makes a step. -/
def actor : Who → Option Owner
  | .program _ => some .program
  | .alloc => none
  | .iter i _ => some (.iter i)
  | .stream i => some (.stream i)

/-- A state that a program can reach. -/
def Reachable (w : World) : Prop := ∃ n arr ls, World.Steps (World.start n arr) ls w

end Spec
