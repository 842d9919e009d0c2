import Verif.Spec.Lazy
import Verif.Model.Prog

/-!
# Specification: what has arrived settles the result

Two readers are compared that deliver the same bytes in the same calls.  The first then fails with an error of its own, so that the bytes
that have arrived are all that is ever seen.  The second goes on in any way: with more bytes, with the end of the input, with an error.
-/

namespace Spec

open Jzon (Byte Err RdRes It Prog)

/-- The iterator, whose reader makes the calls `s` and then fails with the error `n` of the operating system. -/
def cutOff (it : It) (s : List RdRes) (n : Nat) : It := { it with reader := some (s ++ [⟨[], some (.io n)⟩]) }

/-- The iterator, whose reader makes the calls `s` and then those of `later`. -/
def goesOn (it : It) (s later : List RdRes) : It := { it with reader := some (s ++ later) }

/-- The operation waits for more only if it has to: when it does not report the failure of the reader, its result, value or error, is the
one it has whatever arrives later, and it has then asked for nothing of this. -/
def Settles {α : Type} (p : Prog α) : Prop :=
  ∀ (it : It) (s : List RdRes) (n : Nat), it.head ≤ it.buf.length → (∀ r ∈ s, r.err = none) →
    (p.runM (cutOff it s n)).1 ≠ .error (.io n) → ∀ later : List RdRes,
      (p.runM (goesOn it s later)).1 = (p.runM (cutOff it s n)).1 ∧
      ∃ s', (∀ r ∈ s', r.err = none) ∧ (p.runM (goesOn it s later)).2.reader = some (s' ++ later)

end Spec
