import Verif.Model.Pool
import Verif.Model.Typed

/-!
# Error reports and the calls on a configuration

Model of `WrapError` (`/repo/iterator.go:108-138`), of the checks of the receiver (`/repo/iterator_val.go:9-23`) and of
`Unmarshal`, `UnmarshalFromString` and `UnmarshalFromReader` on a configuration (`/repo/decoder_config.go:77-101`), on the
iterators with their storage of `Verif.Model.Pool`.
-/

namespace Jzon

/-- `DecodeError`, `/repo/errors_decoder.go:9-12`. -/
structure DecodeError where
  reason : Err
  location : List Byte
  deriving DecidableEq, Repr

/-- What `WrapError` is given: an error of the package, or a `DecodeError` (which a custom decoder may hand through). -/
inductive Failure where
  | plain (e : Err)
  | wrapped (d : DecodeError)

/-- `s[lo:hi]`; `none` is a panic.  (Go allows `hi` up to the capacity; here only the length is allowed.) -/
def slicing (s : List Byte) (lo hi : Int) : Option (List Byte) :=
  if 0 ≤ lo ∧ lo ≤ hi ∧ hi ≤ s.length then some ((s.take hi.toNat).drop lo.toNat) else none

/-- `errorLocation`, `/repo/iterator.go:113-127`. -/
def PhysIt.errorLocation (it : PhysIt) : Option (List Byte) :=
  let head : Int := if (it.head : Int) > 20 then it.head - 20 else 0
  let tail : Int := if (it.tail : Int) - it.head < 20 then it.tail else it.head + 20
  slicing it.store head tail

/-- `WrapError`, `/repo/iterator.go:130-138`; `none` is a panic. -/
def PhysIt.wrapError (it : PhysIt) : Failure → Option DecodeError
  | .wrapped d => some d
  | .plain e => it.errorLocation.map fun l => ⟨e, l⟩

/-- The argument `obj interface{}` of the decoding calls. -/
inductive Receiver (F : Type) where
  /-- the data word is nil: the nil interface, a nil pointer, or a nil map, function or channel (these are pointers too) -/
  | null
  /-- a value whose type is not a pointer type -/
  | notPointer
  /-- a pointer to a variable of type `t` with the content `old` -/
  | pointer (t : Ty) (old : Val F)

section
variable {F : Type}

/-- `ReadVal`, `/repo/iterator_val.go:9-23`.  The cache has decoders for pointer types only (`/repo/decoder_config.go:60-64`,
`125-147`).  The answer is the new content of the variable. -/
def ReadReceiver (Γ : TyEnv F) (cfg : DecCfg F) (pools : Pools) : Receiver F → Prog (Val F)
  | .null => .throw .nilPointerReceiver
  | .notPointer => .throw .pointerReceiver
  | .pointer t old => ReadVal Γ cfg pools t old

/-- `unmarshal`, `/repo/iterator.go:248-261`. -/
def unmarshalReceiver (Γ : TyEnv F) (cfg : DecCfg F) (pools : Pools) (obj : Receiver F) : Prog (Val F) := do
  let v ← ReadReceiver Γ cfg pools obj
  match ← tokenEOF with
  | some _ => .throw .dataRemained
  | none => pure v

/-- What a call is to read. -/
inductive Source where
  /-- the argument of `Unmarshal`, or the bytes of the string given to `UnmarshalFromString` -/
  | bytes (data : List Byte)
  /-- a nil `io.Reader` -/
  | noReader
  /-- a `*bytes.Buffer` with this content -/
  | buffer (data : List Byte)
  /-- any other reader -/
  | reader (f : Feed)

/-- `ResetBytes` and `Reset`, `/repo/iterator.go:79-104`; `stale` is what `it.fixbuf[:cap(it.fixbuf)]` holds. -/
def PhysIt.start (it : PhysIt) (stale : List Byte) : Source → PhysIt
  | .bytes data => it.resetBytes data
  | .noReader => it.reset
  | .buffer data => it.resetBytes data
  | .reader f => it.resetReader stale f

/-- The end of a call on a configuration. -/
inductive CallEnd (F : Type) where
  | ok (v : Val F)
  | error (d : DecodeError)
  | panic

/-- What is returned, given the end of the call on the iterator and the iterator it leaves behind;
`/repo/decoder_config.go:80-84`. -/
def callEnd (it : PhysIt) : Except Err (Val F) → CallEnd F
  | .ok v => .ok v
  | .error e =>
    match it.wrapError (.plain e) with
    | some d => .error d
    | none => .panic

/-- A call of `Unmarshal`, `UnmarshalFromString` or `UnmarshalFromReader` on a configuration, `/repo/decoder_config.go:77-101`,
which gets the iterator `it` from the pool: how it ends and the iterator it returns to the pool. -/
inductive ConfigCall (Γ : TyEnv F) (cfg : DecCfg F) (pools : Pools) (it : PhysIt) (src : Source) (obj : Receiver F) :
    CallEnd F → PhysIt → Prop
  | call (stale : List Byte) (r : Except Err (Val F)) (it' : PhysIt) : stale.length = it.fixcap →
      PhysIt.Run (unmarshalReceiver Γ cfg pools obj)
        ((it.borrow cfg.useNumber cfg.disallowUnknownFields).start stale src) r it' →
      ConfigCall Γ cfg pools it src obj (callEnd it' r) it'.release

end

end Jzon
