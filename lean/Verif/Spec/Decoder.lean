import Verif.Model.Decoder
import Verif.Spec.Reader
import Verif.Spec.Typed

/-!
# Specification: a stream of values
-/

namespace Spec

open Jzon (Byte Err Val DecReply DecCall)

/-- The input `l` consists of one value text for every request, with white space before each of them, and the rest `r`;
`D q t v`: the text `t` answers the request `q` with `v`. -/
inductive Sequence {Q V : Type} (e : Err) (D : Q → List Byte → V → Prop) : List Byte → List Q → List V → List Byte → Prop
  | nil (l : List Byte) : Sequence e D l [] [] l
  | cons {l t l' r : List Byte} {q : Q} {v : V} {qs : List Q} {vs : List V} (hs : Split e l t l') (hd : D q t v)
      (h : Sequence e D l' qs vs r) : Sequence e D l (q :: qs) (v :: vs) r

/-- The same, but numbers may be cut. -/
inductive LaxSequence {Q V : Type} (D : Q → List Byte → V → Prop) : List Byte → List Q → List V → List Byte → Prop
  | nil (l : List Byte) : LaxSequence D l [] [] l
  | cons {w t l' r : List Byte} {q : Q} {v : V} {qs : List Q} {vs : List V} (hw : Ws w) (hd : D q t v)
      (h : LaxSequence D l' qs vs r) : LaxSequence D (w ++ (t ++ l')) (q :: qs) (v :: vs) r

/-- The types other than the integer types and pointers to them. -/
def Whole : Jzon.Ty → Prop
  | .int _ => False
  | .uint _ => False
  | .ptr t => Whole t
  | _ => True

end Spec
