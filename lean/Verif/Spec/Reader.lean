import Verif.Model.Iter
import Verif.Spec.Json

/-!
# Specification: what a reader delivers, and what an iterator has still to read
-/

namespace Spec

open Jzon (Byte Err RdRes It)

/-- The results of the `Read` calls amount to the bytes `data`, after which the reader reports `e`.  Chunks may be
empty; `io.EOF` may come with the last bytes or after them and is then repeated; after any other error nothing is
said about what follows. -/
inductive Delivers : List RdRes → List Byte → Err → Prop
  | done : Delivers [] [] .eof
  | chunk (d : List Byte) (rest : List RdRes) (data : List Byte) (e : Err) (h : Delivers rest data e) :
      Delivers (⟨d, none⟩ :: rest) (d ++ data) e
  | last (d : List Byte) (rest : List RdRes) (h : ∀ r ∈ rest, r = ⟨[], some .eof⟩) :
      Delivers (⟨d, some .eof⟩ :: rest) d .eof
  | broken (d : List Byte) (e : Err) (rest : List RdRes) (data : List Byte) (e' : Err) (he : e ≠ .eof)
      (h : Delivers rest data e') : Delivers (⟨d, some e⟩ :: rest) [] e

/-- The iterator has the bytes `l` still to read (in its buffer, then from its reader), after which comes `e`. -/
def Unread (it : It) (l : List Byte) (e : Err) : Prop :=
  it.head ≤ it.buf.length ∧ ∃ data, Delivers (it.reader.getD []) data e ∧ l = it.buf.drop it.head ++ data

/-- A value that ends where the input `r` begins: only a number needs its end to be recognised, by the next byte or
by the end of the input. -/
def EndsAt (e : Err) (t r : List Byte) : Prop := Number t → Final t r ∧ (r = [] → e = .eof)

/-- `l` is white space, then the value text `t`, then the rest `r`. -/
def Split (e : Err) (l t r : List Byte) : Prop := ∃ w, Ws w ∧ l = w ++ (t ++ r) ∧ EndsAt e t r

end Spec
