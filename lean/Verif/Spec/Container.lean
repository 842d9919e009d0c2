import Verif.Spec.Reader

/-!
# Specification: visiting the elements of a container
-/

namespace Spec

/-- Starting from `s`, visiting the items `xs` in order, each one once, can end in `s'`; `G s x s'` is one visit. -/
inductive Visits {S X : Type} (G : S → X → S → Prop) : S → List X → S → Prop
  | nil (s : S) : Visits G s [] s
  | cons {s s1 s' : S} {x : X} {xs : List X} (h : G s x s1) (hr : Visits G s1 xs s') : Visits G s (x :: xs) s'

end Spec
