import Verif.Basic

/-!
# The nesting stack

Model of `/repo/stack.go`: a stack of container kinds packed into 64-bit words, recycled through a pool.
-/

namespace Jzon

/-- `stackElement`, `/repo/stack.go:17-27`.  The numeric values are kept in `StackElem.code`. -/
inductive StackElem where
  | none
  | objectBegin
  | object
  | arrayBegin
  | array
  deriving DecidableEq, Repr

/-- `top & 1 == 0` for a container element, `/repo/stack.go:22-26`. -/
def StackElem.isObject : StackElem → Bool
  | .objectBegin | .object => true
  | _ => false

/-- `stack`, `/repo/stack.go:29-32`.  `depth` is a machine `uint`; it is bounded by the length of the
input, so its overflow is not modelled. -/
structure Stack where
  words : List UInt64
  depth : Nat
  deriving DecidableEq, Repr

/-- `initObject`, `/repo/stack.go:39-46`, applied to any recycled stack. -/
def Stack.initObject (s : Stack) : Stack :=
  let words := if s.words.length = 0 then [0] else s.words
  { words := words.set 0 0, depth := 1 }

/-- `initArray`, `/repo/stack.go:48-55`. -/
def Stack.initArray (s : Stack) : Stack :=
  let words := if s.words.length = 0 then [0] else s.words
  { words := words.set 0 1, depth := 1 }

/-- `pop`, `/repo/stack.go:67-78`; `Except.error` is an index out of range panic.  The result `bit | 2` is
`stackElementObject` or `stackElementArray`. -/
def Stack.pop (s : Stack) : Except Err (StackElem × Stack) :=
  if s.depth = 0 then .ok (.none, s)
  else
    let depth := s.depth - 1
    let div := depth >>> 6
    let mod := depth &&& 63
    match s.words[div]? with
    | some w => .ok (if (w >>> UInt64.ofNat mod) &&& 1 = 0 then .object else .array, { s with depth := depth })
    | none => .error .panic

/-- `pushObject`, `/repo/stack.go:80-89`. -/
def Stack.pushObject (s : Stack) : Except Err Stack :=
  let div := s.depth >>> 6
  if div = s.words.length then
    .ok { words := s.words ++ [0], depth := s.depth + 1 }
  else
    match s.words[div]? with
    | some w =>
      .ok { words := s.words.set div (w &&& (((1 : UInt64) <<< UInt64.ofNat (s.depth &&& 63)) - 1)), depth := s.depth + 1 }
    | none => .error .panic

/-- `pushArray`, `/repo/stack.go:91-100`. -/
def Stack.pushArray (s : Stack) : Except Err Stack :=
  let div := s.depth >>> 6
  if div = s.words.length then
    .ok { words := s.words ++ [1], depth := s.depth + 1 }
  else
    match s.words[div]? with
    | some w =>
      .ok { words := s.words.set div (w ||| ((1 : UInt64) <<< UInt64.ofNat (s.depth &&& 63))), depth := s.depth + 1 }
    | none => .error .panic

end Jzon
