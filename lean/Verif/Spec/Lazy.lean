import Verif.Spec.Reader

/-!
# Specification: what has arrived and what has not been asked for
-/

namespace Spec

open Jzon (Byte Err RdRes It)

/-- The bytes delivered by some calls of `Read`. -/
def readBytes (s : List RdRes) : List Byte := s.flatMap RdRes.data

/-- The iterator has the bytes `l` still to read, without a call of `Read` that is in `later`: they are in its buffer or are the
results of calls before `later`, none of which fails.  None of the calls in `later` was made. -/
def Arrived (it : It) (l : List Byte) (later : List RdRes) : Prop :=
  it.head ≤ it.buf.length ∧ ∃ s, it.reader = some (s ++ later) ∧ (∀ r ∈ s, r.err = none) ∧ l = it.buf.drop it.head ++ readBytes s

/-- The text does not begin as a number. -/
def NotNumber (t : List Byte) : Prop := ∀ c u, t = c :: u → ¬ (c = 0x2D ∨ Digit c)

/-- It can be seen from `t ++ r` that the value `t` is complete: it is not a number, or a byte follows that cannot be part of it. -/
def Delimited (t r : List Byte) : Prop := NotNumber t ∨ (r ≠ [] ∧ (Number t → Final t r))

/-- One message: it consists of one text, white space around it, and if the text is a number there must be some behind it. -/
def Message {Q V : Type} (D : Q → List Byte → V → Prop) (q : Q) (m : List RdRes) (v : V) : Prop :=
  (∀ r ∈ m, r.err = none) ∧ ∃ w t w', Ws w ∧ Ws w' ∧ readBytes m = w ++ (t ++ w') ∧ D q t v ∧ (NotNumber t ∨ w' ≠ [])

/-- Messages that answer the requests one by one. -/
inductive Messages {Q V : Type} (D : Q → List Byte → V → Prop) : List Q → List (List RdRes) → List V → Prop
  | nil : Messages D [] [] []
  | cons {q : Q} {m : List RdRes} {v : V} {qs : List Q} {ms : List (List RdRes)} {vs : List V} :
      Message D q m v → Messages D qs ms vs → Messages D (q :: qs) (m :: ms) (v :: vs)

end Spec
