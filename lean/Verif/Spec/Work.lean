import Verif.Model.Typed

/-!
# Specification: the work of decoding
-/

namespace Jzon

/-- How many bytes a scanning loop looks at, that is how often its body is run. -/
def scanLooks {σ β : Type} (body : σ → Byte → Act σ β) : σ → List Byte → Nat
  | _, [] => 0
  | s, c :: l =>
    match body s c with
    | .cont s' => scanLooks body s' l + 1
    | _ => 1

/-- The work of one operation on an iterator: the call, and every byte that is looked at.  `remaining` is not part of the code. -/
def Op.work : {β : Type} → Op β → It → Nat
  | _, .token _, it => 1 + scanLooks tokenBody () it.rem
  | _, .byte _, _ => 2
  | _, .scan body _ s, it => 1 + scanLooks body s it.rem
  | _, .inputOffset, _ => 1
  | _, .remaining, _ => 0

/-- The work of a run: that of its operations, and one for each byte of a text that is cut out of the input. -/
def Prog.work : {α : Type} → Prog α → It → Nat
  | _, .pure _, _ => 0
  | _, .fail _, _ => 0
  | _, .op o k, it =>
    o.work it +
      match o.runM it with
      | (.ok b, it') => (k b).work it'
      | (.error _, _) => 0
  | _, .captured p k, it =>
    p.work { it with capture := true } +
      match p.runM { it with capture := true } with
      | (.ok b, it1) =>
        let it2 : It := { it1 with capture := it.capture }
        let text := (it2.buf.take it2.head).drop it.head
        text.length + (k (b, text)).work it2
      | (.error _, _) => 0

/-- A loop body that also counts how often it is run; an error becomes a result, so that the count is not lost. -/
def counted {σ β : Type} (body : σ → Byte → Act σ β) (s : σ × Nat) (c : Byte) : Act (σ × Nat) (Except Err β × Nat) :=
  match body s.1 c with
  | .cont s' => .cont (s', s.2 + 1)
  | .stop b => .stop (.ok b, s.2 + 1)
  | .stopNext b => .stopNext (.ok b, s.2 + 1)
  | .err e => .stop (.error e, s.2 + 1)

/-- How many pointers lead from a variable of the type to the first value that is not a pointer. -/
def Ty.lead : Ty → Nat
  | .ptr t => t.lead + 1
  | _ => 0

/-- No more than `B` pointers follow each other in the type. -/
def Ty.Within (B : Nat) : Ty → Prop
  | .ptr t => t.lead + 1 ≤ B ∧ t.Within B
  | .slice t => t.Within B
  | .array _ t => t.Within B
  | .map _ t => t.Within B
  | _ => True

/-- No more than `B` pointers follow each other in the definition of a named type. -/
def Def.Within (B : Nat) : Def → Prop
  | .struct fs => ∀ f ∈ fs, f.ty.Within B
  | .slice t => t.Within B
  | .array _ t => t.Within B
  | .map _ t => t.Within B

/-- No more than `B` pointers follow each other in any of the types. -/
def TyEnv.Within {F : Type} (Γ : TyEnv F) (B : Nat) : Prop := ∀ i, (Γ.defn i).Within B

/-- A slice that grows element by element, as in `sliceLoop`: the slice with `n` elements, how many elements were copied to new storage
and how many elements of storage were allocated. -/
def growAll {V : Type} (zero : V) : Nat → SliceHeader V × Nat × Nat
  | 0 => (unsafeMakeSlice zero 0 0, 0, 0)
  | n + 1 =>
    let (sh, copied, allocated) := growAll zero n
    let sh' := unsafeGrowSlice zero sh (n + 1)
    if n + 1 < sh.mem.length then (sh', copied, allocated) else (sh', copied + min (n + 1) sh.len, allocated + sh'.mem.length)

end Jzon
