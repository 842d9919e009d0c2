import Verif.Model.Num
import Verif.Model.Str
import Verif.Model.Stack

/-!
# Skipping values

Model of `/repo/iterator_skip.go`, `/repo/iterator_skip_array.go`, `/repo/iterator_skip_object.go`,
`/repo/iterator_raw.go` and `Valid` of `/repo/iterator.go`.
-/

namespace Jzon

/-- Use the result of a stack operation; a Go panic becomes the error `panic`. -/
def Prog.ofExcept {α : Type} : Except Err α → Prog α
  | .ok a => .pure a
  | .error e => .fail e

/-- The entries of `skipFunctions`, `/repo/iterator_skip.go:7-31`, except `[` and `{`; called behind `c`. -/
def skipScalar (c : Byte) : Prog Unit :=
  if c = b! '"' then skipString
  else if c = b! 'n' then expectBytes ull
  else if c = b! 't' then expectBytes rue
  else if c = b! 'f' then expectBytes alse
  else if isNumberStart c then skipNumber c
  else .throw (.unexpectedByte c 0 0)

/-- `skipObjectField`, `/repo/iterator_object.go:31-45`. -/
def skipObjectField : Prog Unit := do
  skipString
  let _ ← token fun c => if c ≠ b! ':' then .fail (.unexpectedByte c (b! ':') 0) else .take
  pure ()

/-- One object member behind its opening quote in `skipWithStack`, `/repo/iterator_skip.go:63-82`; `again` is the
rest of the loop. -/
def skipMember (again : StackElem → Stack → Prog Unit) (s : Stack) : Prog Unit := do
  skipObjectField
  let c ← nextTokenTake
  if c = b! '[' then do
    let s ← Prog.ofExcept s.pushObject
    again .arrayBegin s
  else if c = b! '{' then do
    let s ← Prog.ofExcept s.pushObject
    again .objectBegin s
  else do
    skipScalar c
    again .object s

/-- One array element behind its first byte in `skipWithStack`, `/repo/iterator_skip.go:102-114`. -/
def skipElement (again : StackElem → Stack → Prog Unit) (s : Stack) (c : Byte) : Prog Unit :=
  if c = b! '[' then do
    let s ← Prog.ofExcept s.pushArray
    again .arrayBegin s
  else if c = b! '{' then do
    let s ← Prog.ofExcept s.pushArray
    again .objectBegin s
  else do
    skipScalar c
    again .array s

/-- `skipWithStack`, `/repo/iterator_skip.go:33-117`.  Every round of the loop consumes at least one byte; the
first argument bounds the number of rounds. -/
def skipWithStack : Nat → StackElem → Stack → Prog Unit
  | 0, _, _ => .throw .hang
  | n + 1, top, s => do
    let c ← nextTokenTake
    if top.isObject then
      if c = b! '}' then do
        let (top, s) ← Prog.ofExcept s.pop
        if top = .none then pure () else skipWithStack n top s
      else if top = .object then
        if c ≠ b! ',' then .throw (.unexpectedByte c (b! ',') 0)
        else do
          let c ← nextTokenTake
          if c ≠ b! '"' then .throw (.unexpectedByte c (b! '"') 0)
          else skipMember (skipWithStack n) s
      else if c ≠ b! '"' then .throw (.unexpectedByte c (b! '"') 0)
      else skipMember (skipWithStack n) s
    else
      if c = b! ']' then do
        let (top, s) ← Prog.ofExcept s.pop
        if top = .none then pure () else skipWithStack n top s
      else if top = .array then
        if c ≠ b! ',' then .throw (.unexpectedByte c (b! ',') 0)
        else do
          let c ← nextTokenTake
          skipElement (skipWithStack n) s c
      else skipElement (skipWithStack n) s c

/-- The loop of `skipArrayWithStack`, `/repo/iterator_skip_array.go:12-44`; `pool` is the stack object obtained from the pool. -/
def skipArrayLoop (pool : Stack) : Nat → Byte → Prog Unit
  | 0, _ => .throw .hang
  | n + 1, c => do
    if c = b! '{' then
      let m ← remaining
      skipWithStack (m + 1) .objectBegin pool.initArray
    else if c = b! '[' then
      let m ← remaining
      skipWithStack (m + 1) .arrayBegin pool.initArray
    else
      skipScalar c
      let c ← nextTokenTake
      if c = b! ']' then pure ()
      else if c ≠ b! ',' then .throw (.unexpectedByte c (b! ']') (b! ','))
      else
        let c ← nextTokenTake
        skipArrayLoop pool n c

/-- `skipArrayWithStack`, `/repo/iterator_skip_array.go:3-45`. -/
def skipArrayWithStack (pool : Stack) : Prog Unit := do
  let c ← nextTokenTake
  if c = b! ']' then pure ()
  else
    let n ← remaining
    skipArrayLoop pool (n + 1) c

/-- The loop of `skipObjectWithStack`, `/repo/iterator_skip_object.go:12-55`. The Go code tests the byte before
`it.head++`; here it is consumed together with the test. -/
def skipObjectLoop (pool : Stack) : Nat → Prog Unit
  | 0 => .throw .hang
  | n + 1 => do
    skipObjectField
    let c ← nextTokenTake
    if c = b! '{' then
      let m ← remaining
      skipWithStack (m + 1) .objectBegin pool.initObject
    else if c = b! '[' then
      let m ← remaining
      skipWithStack (m + 1) .arrayBegin pool.initObject
    else
      skipScalar c
      let c ← nextTokenTake
      if c = b! '}' then pure ()
      else if c ≠ b! ',' then .throw (.unexpectedByte c (b! '}') (b! ','))
      else
        let _ ← token fun c => if c ≠ b! '"' then .fail (.unexpectedByte c (b! '"') 0) else .take
        skipObjectLoop pool n

/-- `skipObjectWithStack`, `/repo/iterator_skip_object.go:3-56`. -/
def skipObjectWithStack (pool : Stack) : Prog Unit := do
  let c ← token fun c =>
    if c = b! '}' then .take
    else if c ≠ b! '"' then .fail (.unexpectedByte c (b! '"') 0) else .take
  if c = b! '}' then pure ()
  else
    let n ← remaining
    skipObjectLoop pool (n + 1)

/-- `skipFunctions[c]`, `/repo/iterator_skip.go:7-31`. -/
def skipFunction (pool : Stack) (c : Byte) : Prog Unit :=
  if c = b! '[' then skipArrayWithStack pool
  else if c = b! '{' then skipObjectWithStack pool
  else skipScalar c

/-- `Skip`, `/repo/iterator_skip.go:120-127`. -/
def Skip (pool : Stack) : Prog Unit := do
  let c ← nextTokenTake
  skipFunction pool c

/-- `SkipArray`, `/repo/iterator_skip_array.go:48-58`. -/
def SkipArray (pool : Stack) : Prog Unit := do
  let _ ← token fun c => if c ≠ b! '[' then .fail (.unexpectedByte c (b! '[') 0) else .take
  skipArrayWithStack pool

/-- `SkipObject`, `/repo/iterator_skip_object.go:59-69`. -/
def SkipObject (pool : Stack) : Prog Unit := do
  let _ ← token fun c => if c ≠ b! '{' then .fail (.unexpectedByte c (b! '{') 0) else .take
  skipObjectWithStack pool

/-- `SkipRaw`, `/repo/iterator_raw.go:6-21`. -/
def SkipRaw (pool : Stack) : Prog (List Byte) := do
  let c ← token fun _ => .leave
  let (_, text) ← captured (do
    let _ ← nextByteTake
    skipFunction pool c)
  pure text

/-- `AppendRaw`, `/repo/iterator_raw.go:24-31`. -/
def AppendRaw (pool : Stack) (inp : List Byte) : Prog (List Byte) := do
  let b ← SkipRaw pool
  pure (inp ++ b)

/-- `ReadRaw`, `/repo/iterator_raw.go:34-36`. -/
def ReadRaw (pool : Stack) : Prog (List Byte) := AppendRaw pool []

/-- The program of `Valid` after `ResetBytes`, `/repo/iterator.go:270-278`: `Skip`, then only white space may follow. -/
def validProg (pool : Stack) : Prog Bool := do
  Skip pool
  match ← tokenEOF with
  | none => pure true
  | some _ => pure false

/-- `Iterator.Valid`, `/repo/iterator.go:270-278`, on an iterator and a pool stack left by earlier uses. -/
def Valid (it : It) (pool : Stack) (data : List Byte) : Bool :=
  match ((validProg pool).runM (it.resetBytes data)).1 with
  | .ok b => b
  | .error _ => false

end Jzon
