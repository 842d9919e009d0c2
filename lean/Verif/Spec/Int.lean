import Verif.Spec.Reader

/-!
# Specification: decimal integers
-/

namespace Spec

open Jzon (Byte Err)

/-- The number a sequence of digits denotes, continuing from `n`. -/
def decFrom (n : Nat) (ds : List Byte) : Nat := ds.foldl (fun n d => n * 10 + (d.toNat - 0x30)) n

/-- The number a sequence of digits denotes. -/
def dec (ds : List Byte) : Nat := decFrom 0 ds

/-- `t` is the integer part of a number (`0`, or digits without leading zero), and `r` does not continue it; after a
nonzero integer that reaches the end of the input, that end must be `io.EOF`. -/
def IntAt (e : Err) (t r : List Byte) : Prop :=
  IntPart t ∧ (t ≠ [0x30] → (∀ c r', r = c :: r' → ¬ Digit c) ∧ (r = [] → e = .eof))

/-- `s` is an optional minus sign and `t`, denoting `z`. -/
inductive Signed : List Byte → List Byte → Int → Prop
  | pos (t : List Byte) : Signed t t (dec t)
  | neg (t : List Byte) : Signed (0x2D :: t) t (-(dec t : Int))

/-- `z` is a value of the signed `w`-bit type. -/
def Fits (w : Nat) (z : Int) : Prop := -(2 ^ (w - 1) : Int) ≤ z ∧ z < 2 ^ (w - 1)

end Spec
