import Verif.Model.Float
import Verif.Spec.Json

/-!
# Specification: the value of a number literal
-/

namespace Spec

open Jzon (Byte Err FloatOps)

/-- The facts about `strconv.ParseFloat` that the code relies on: `0` is zero, and `0E…` and `0e…` are the same
number. -/
structure Lawful {F : Type} (ops : FloatOps F) : Prop where
  zero : ops.parse [0x30] = .ok ops.zero
  exp : ∀ t, ops.parse (0x30 :: 0x45 :: t) = ops.parse (0x30 :: 0x65 :: t)

/-- The value of a literal: that of the unsigned literal, negated if there is a minus sign.  The error is that of
`ParseFloat` (out of range). -/
def literal {F : Type} (ops : FloatOps F) : List Byte → Except Err F
  | 0x2D :: u => (ops.parse u).map ops.neg
  | t => ops.parse t

/-- An instance that keeps the literal (with a lower case exponent mark): the hypotheses are satisfiable. -/
def textOps : FloatOps (List Byte) where
  parse t := .ok (t.map fun c => if c = 0x45 then 0x65 else c)
  zero := [0x30]
  neg t := 0x2D :: t

theorem textOps_lawful : Lawful textOps := ⟨by rfl, by intro t; simp [textOps]⟩

end Spec
