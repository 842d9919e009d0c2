import Verif.Model.Typed

/-!
# Decoding through interfaces that hold pointers

Model of `efaceDecoder` for variables of type `interface{}` whose content is a pointer, with the loop check, and of
`ifaceDecoder` for variables of interface types with methods, over an explicit memory of variables.
-/

namespace Jzon

/-- The types of the variables in the memory.  Recursive pointer types (`type P *P`) are not modelled. -/
inductive VarKind where
  /-- `interface{}` -/
  | eface
  /-- an interface type with methods -/
  | iface
  /-- a pointer to a variable -/
  | ptr (k : VarKind)
  /-- any other type -/
  | leaf (t : Ty)
  deriving Repr

/-- `ptrElemType.Kind() == reflect.Ptr`, `/repo/val_decoder_native_interface.go:84`. -/
def VarKind.isPtr : VarKind → Bool
  | .eface => false
  | .iface => false
  | .ptr _ => true
  | .leaf (.ptr _) => true
  | .leaf _ => false

/-- The content of a variable; `Nat` are the addresses. -/
inductive Cell (F : Type) where
  /-- an `interface{}` that is nil or holds something that is not a pointer -/
  | any (g : GoVal F)
  /-- an `interface{}` that holds a nil pointer to type `k` -/
  | anyNil (k : VarKind)
  /-- an `interface{}` that holds a pointer to the variable `a` of type `k` -/
  | anyPtr (k : VarKind) (a : Nat)
  /-- an interface with methods that is nil -/
  | ifcNil
  /-- an interface with methods that holds a nil pointer, or another value that is a nil pointer in memory, like a nil map -/
  | ifcNilData (n : Nat)
  /-- an interface with methods that holds something that is not a pointer -/
  | ifcOther (n : Nat)
  /-- an interface with methods that holds a pointer to the variable `a` of type `k`; in Go `k` is then a type that is neither a
  pointer nor an interface -/
  | ifcPtr (k : VarKind) (a : Nat)
  /-- a pointer variable -/
  | ptr (k : VarKind) (a : Option Nat)
  /-- a variable of another type; that its content may again hold pointers is not modelled -/
  | leaf (t : Ty) (v : Val F)

/-- The variables; new ones are added at the end. -/
abbrev Mem (F : Type) := List (Cell F)

/-- The iterator with its checkpoint, `/repo/iterator.go:23-25`: the variable (`lastEfacePtr`; 0 is `none`) and the
position (`lastEfaceOffset`). -/
structure EIt where
  it : It
  last : Option (Nat × Nat)

/-- How a call ends. -/
inductive EOut (F : Type) where
  /-- no error; the variables hold this -/
  | ok (m : Mem F)
  /-- `ErrEfaceLooping` -/
  | looping
  /-- another error -/
  | err (e : Err)
  /-- the recursion is deeper than the bound -/
  | unfinished

section
variable {F : Type}

/-- `checkLoop`, `/repo/val_decoder_native_interface.go:16-29`. -/
def checkLoop (a : Nat) (s : EIt) : Bool × EIt :=
  let cur := s.it.offset + s.it.head
  match s.last with
  | none => (true, { s with last := some (a, cur) })
  | some (p, off) =>
    if cur ≠ off then (true, { s with last := some (a, cur) })
    else (a ≠ p, s)

/-- The value of `unsafe_New` and of `reflect.New`. -/
def zeroCell (Γ : TyEnv F) (cfg : DecCfg F) : VarKind → Cell F
  | .eface => .any .nil
  | .iface => .ifcNil
  | .ptr k => .ptr k none
  | .leaf t => .leaf t (Γ.zero cfg t)

/-- Run a program that delivers what the variables then hold. -/
def EIt.run (s : EIt) (p : Prog (Mem F)) : EOut F × EIt :=
  match p.runM s.it with
  | (.ok m, it) => (.ok m, { s with it := it })
  | (.error e, it) => (.err e, { s with it := it })

/-- `ifaceDecoder`, `/repo/val_decoder_native_interface.go:117-135`, for the variable `a` with the content `o`. -/
def decodeIfaceStep (rec : Mem F → Nat → EIt → EOut F × EIt) (m : Mem F) (a : Nat) (o : Cell F) (s : EIt) : EOut F × EIt :=
  match (token fun c => if c = b! 'n' then .take else .leave).runM s.it with
  | (.error e, it) => (.err e, { s with it := it })
  | (.ok c, it) =>
    let s := { s with it := it }
    if c = b! 'n' then s.run (nullThen (m.set a .ifcNil))
    else
      -- `packIFace`, `/repo/iface.go:17-23`, and `ReadVal`, `/repo/iterator_val.go:9-23`
      match o with
      | .ifcNil => (.err .emptyIFace, s)
      | .ifcNilData _ => (.err .nilPointerReceiver, s)
      | .ifcPtr _ b => rec m b s
      | _ => (.err .pointerReceiver, s)

/-- `efaceDecoder`, `/repo/val_decoder_native_interface.go:31-112`, after the loop check, for the variable `a`, `ifaceDecoder`, and
`pointerDecoder`, `/repo/val_decoder_native_ptr.go:32-59`.  `rec` decodes into the variable with the given address
(`ReadVal`, `/repo/iterator_val.go:9-23`, on the pointer, and `elemDec.Decode`). -/
def decodeVarStep (Γ : TyEnv F) (cfg : DecCfg F) (pools : Pools) (rec : Mem F → Nat → EIt → EOut F × EIt)
    (m : Mem F) (a : Nat) (s : EIt) : EOut F × EIt :=
  match m[a]? with
  | none => (.err .panic, s)
  | some (.leaf t v) => s.run do
    let v ← ReadVal Γ cfg pools t v
    pure (m.set a (.leaf t v))
  | some (.ptr k target) =>
    match (token fun c => if c = b! 'n' then .take else .leave).runM s.it with
    | (.error e, it) => (.err e, { s with it := it })
    | (.ok c, it) =>
      let s := { s with it := it }
      if c = b! 'n' then s.run (nullThen (m.set a (.ptr k none)))
      else
        match target with
        | some b => rec m b s
        | none =>
          match rec (m ++ [zeroCell Γ cfg k]) m.length s with
          | (.ok m', s) => (.ok (m'.set a (.ptr k (some m.length))), s)
          | r => r
  | some .ifcNil => decodeIfaceStep rec m a .ifcNil s
  | some (.ifcNilData n) => decodeIfaceStep rec m a (.ifcNilData n) s
  | some (.ifcOther n) => decodeIfaceStep rec m a (.ifcOther n) s
  | some (.ifcPtr k b) => decodeIfaceStep rec m a (.ifcPtr k b) s
  | some (.any _) | some (.anyNil _) =>
    match checkLoop a s with
    | (false, s) => (.looping, s)
    | (true, s) => s.run do
      let g ← Read ⟨cfg.useNumber, cfg.ops64⟩ pools.stack
      pure (m.set a (.any g))
  | some (.anyPtr k b) =>
    match checkLoop a s with
    | (false, s) => (.looping, s)
    | (true, s) =>
      match (token fun c => if c = b! 'n' then .take else .leave).runM s.it with
      | (.error e, it) => (.err e, { s with it := it })
      | (.ok c, it) =>
        let s := { s with it := it }
        if c = b! 'n' then s.run do
          expectBytes ull
          pure (if k.isPtr then (m ++ [zeroCell Γ cfg k]).set a (.anyPtr k m.length) else m.set a (.any .nil))
        else
          match rec m b s with
          | (.ok m, s) => (.ok (m.set a (.anyPtr k b)), s)
          | r => r

/-- Decode into the variable `a`; the first argument bounds the depth of the recursion. -/
def decodeVar (Γ : TyEnv F) (cfg : DecCfg F) (pools : Pools) : Nat → Mem F → Nat → EIt → EOut F × EIt
  | 0, _, _, s => (.unfinished, s)
  | n + 1, m, a, s => decodeVarStep Γ cfg pools (decodeVar Γ cfg pools n) m a s

/-- An iterator after `ResetBytes` (`/repo/iterator.go:97-104`); the checkpoint is cleared. -/
def EIt.resetBytes (s : EIt) (data : List Byte) : EIt := ⟨s.it.resetBytes data, none⟩

/-- An iterator after `Reset` (`/repo/iterator.go:79-94`); the checkpoint is cleared. -/
def EIt.resetReader (s : EIt) (script : List RdRes) : EIt := ⟨s.it.resetReader script, none⟩

/-- `Unmarshal`, `/repo/iterator.go:264-267`, on an iterator left by earlier uses, into the variable `a`. -/
def UnmarshalVar (Γ : TyEnv F) (cfg : DecCfg F) (pools : Pools) (n : Nat) (s : EIt) (data : List Byte) (m : Mem F) (a : Nat) : EOut F :=
  match decodeVar Γ cfg pools n m a (s.resetBytes data) with
  | (.ok m, s) =>
    match tokenEOF.runM s.it with
    | (.ok (some _), _) => .err .dataRemained
    | (.ok none, _) => .ok m
    | (.error e, _) => .err e
  | (r, _) => r

end

end Jzon
