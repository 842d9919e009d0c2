import Verif.Spec.Reader

/-!
# Specification: beginnings of JSON texts
-/

namespace Spec

open Jzon (Byte)

/-- The bytes begin with a value: white space, a JSON text, and if this is a number nothing that would continue it. -/
def HasValue (l : List Byte) : Prop := ∃ w t v r, l = w ++ (t ++ r) ∧ Ws w ∧ Value t v ∧ EndsAt .eof t r

/-- Some continuation of the bytes begins with a value. -/
def Viable (l : List Byte) : Prop := ∃ q, HasValue (l ++ q)

end Spec
