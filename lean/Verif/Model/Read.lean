import Verif.Model.Float
import Verif.Model.GoVal
import Verif.Model.Skip

/-!
# Reading into generic values

Model of `/repo/iterator_read.go`, `/repo/iterator_read_array.go`, `/repo/iterator_read_object.go`, `/repo/node.go`,
`/repo/iterator_bool.go`, `/repo/iterator_null.go`.
-/

namespace Jzon

/-- `readNode`, `/repo/node.go:15-19`; `m = none` is the nil map. -/
structure Node (F : Type) where
  m : Option (GoMap F)
  s : List (GoVal F)
  field : List Byte

/-- `nodeStack`, `/repo/node.go:21-23`; the head of the list is the top. -/
abbrev NodeStack (F : Type) := List (Node F)

/-- `initArray`, `/repo/node.go:25-30`. -/
def NodeStack.initArray {F : Type} (s : List (GoVal F)) : NodeStack F := [⟨none, s, []⟩]
/-- `initObject`, `/repo/node.go:32-37`. -/
def NodeStack.initObject {F : Type} (m : GoMap F) : NodeStack F := [⟨some m, [], []⟩]
/-- `pushArray`, `/repo/node.go:39-45`. -/
def NodeStack.pushArray {F : Type} (ns : NodeStack F) (field : List Byte) : NodeStack F := ⟨none, [], field⟩ :: ns
/-- `pushObject`, `/repo/node.go:47-53`. -/
def NodeStack.pushObject {F : Type} (ns : NodeStack F) (field : List Byte) : NodeStack F :=
  ⟨some .empty, [], field⟩ :: ns
/-- `topObject`, `/repo/node.go:55-57`. A nil map has no entries. -/
def NodeStack.topObject {F : Type} : NodeStack F → Except Err (GoVal F)
  | [] => .error .panic
  | n :: _ => .ok (.obj (n.m.getD .empty))
/-- `topArray`, `/repo/node.go:59-61`. -/
def NodeStack.topArray {F : Type} : NodeStack F → Except Err (GoVal F)
  | [] => .error .panic
  | n :: _ => .ok (.arr n.s)
/-- `setTopObject`, `/repo/node.go:63-65`; assigning to a nil map panics. -/
def NodeStack.setTopObject {F : Type} (key : List Byte) (v : GoVal F) : NodeStack F → Except Err (NodeStack F)
  | [] => .error .panic
  | n :: ns =>
    match n.m with
    | some m => .ok ({ n with m := some (m.set key v) } :: ns)
    | none => .error .panic
/-- `appendTopArray`, `/repo/node.go:67-70`. -/
def NodeStack.appendTopArray {F : Type} (v : GoVal F) : NodeStack F → Except Err (NodeStack F)
  | [] => .error .panic
  | n :: ns => .ok ({ n with s := n.s ++ [v] } :: ns)
/-- The common part of `popObject` and `popArray`: attach `v` to the node below. -/
def NodeStack.attach {F : Type} (field : List Byte) (v : GoVal F) : NodeStack F → Except Err (NodeStack F)
  | [] => .error .panic
  | next :: ns =>
    match next.m with
    | some m => .ok ({ next with m := some (m.set field v) } :: ns)
    | none => .ok ({ next with s := next.s ++ [v] } :: ns)
/-- `popObject`, `/repo/node.go:72-82`. -/
def NodeStack.popObject {F : Type} : NodeStack F → Except Err (NodeStack F)
  | [] => .error .panic
  | first :: ns => NodeStack.attach first.field (.obj (first.m.getD .empty)) ns
/-- `popArray`, `/repo/node.go:84-94`. -/
def NodeStack.popArray {F : Type} : NodeStack F → Except Err (NodeStack F)
  | [] => .error .panic
  | first :: ns => NodeStack.attach first.field (.arr first.s) ns

/-- The options of `Read` that matter: `it.useNumber` and the floating point operations. -/
structure ReadCfg (F : Type) where
  useNumber : Bool
  ops : FloatOps F

/-- The number entries of `readFunctions`, `/repo/iterator_read.go:26-32`. -/
def readNumberVal {F : Type} (cfg : ReadCfg F) (c : Byte) : Prog (GoVal F) :=
  if cfg.useNumber then do
    let s ← readNumberAsString c
    pure (.number s)
  else do
    let f ← readFloat cfg.ops c
    pure (.float f)

/-- The entries of `readFunctions`, `/repo/iterator_read.go:11-43`, except `[` and `{`; called behind `c`. -/
def readScalar {F : Type} (cfg : ReadCfg F) (c : Byte) : Prog (GoVal F) :=
  if c = b! '"' then do
    let s ← readStringAsSlice
    pure (.str s)
  else if c = b! 'n' then do
    expectBytes ull
    pure .nil
  else if c = b! 't' then do
    expectBytes rue
    pure (.bool true)
  else if c = b! 'f' then do
    expectBytes alse
    pure (.bool false)
  else if isNumberStart c then readNumberVal cfg c
  else .throw (.unexpectedByte c 0 0)

/-- `readObjectFieldAsSlice` and `readObjectField`, `/repo/iterator_object.go:5-29`. -/
def readObjectField : Prog (List Byte) := do
  let field ← readStringAsSlice
  let _ ← token fun c => if c ≠ b! ':' then .fail (.unexpectedByte c (b! ':') 0) else .take
  pure field

/-- One object member behind its opening quote in `readWithStack`, `/repo/iterator_read.go:86-111`; `again` is the rest of
the loop. -/
def readMember {F : Type} (cfg : ReadCfg F) (again : StackElem → Stack → NodeStack F → Prog (GoVal F)) (s : Stack)
    (ns : NodeStack F) : Prog (GoVal F) := do
  let field ← readObjectField
  let c ← nextTokenTake
  if c = b! '[' then do
    let s ← Prog.ofExcept s.pushObject
    again .arrayBegin s (ns.pushArray field)
  else if c = b! '{' then do
    let s ← Prog.ofExcept s.pushObject
    again .objectBegin s (ns.pushObject field)
  else do
    let o ← readScalar cfg c
    let ns ← Prog.ofExcept (NodeStack.setTopObject field o ns)
    again .object s ns

/-- One array element behind its first byte in `readWithStack`, `/repo/iterator_read.go:132-148`. -/
def readElement {F : Type} (cfg : ReadCfg F) (again : StackElem → Stack → NodeStack F → Prog (GoVal F)) (s : Stack)
    (ns : NodeStack F) (c : Byte) : Prog (GoVal F) :=
  if c = b! '[' then do
    let s ← Prog.ofExcept s.pushArray
    again .arrayBegin s (ns.pushArray [])
  else if c = b! '{' then do
    let s ← Prog.ofExcept s.pushArray
    again .objectBegin s (ns.pushObject [])
  else do
    let o ← readScalar cfg c
    let ns ← Prog.ofExcept (NodeStack.appendTopArray o ns)
    again .array s ns

/-- `readWithStack`, `/repo/iterator_read.go:55-152`; the first argument bounds the number of rounds. -/
def readWithStack {F : Type} (cfg : ReadCfg F) : Nat → StackElem → Stack → NodeStack F → Prog (GoVal F)
  | 0, _, _, _ => .throw .hang
  | n + 1, top, s, ns => do
    let c ← nextTokenTake
    if top.isObject then
      if c = b! '}' then do
        let (top, s) ← Prog.ofExcept s.pop
        if top = .none then Prog.ofExcept ns.topObject
        else do
          let ns ← Prog.ofExcept ns.popObject
          readWithStack cfg n top s ns
      else if top = .object then
        if c ≠ b! ',' then .throw (.unexpectedByte c (b! ',') 0)
        else do
          let c ← nextTokenTake
          if c ≠ b! '"' then .throw (.unexpectedByte c (b! '"') 0)
          else readMember cfg (readWithStack cfg n) s ns
      else if c ≠ b! '"' then .throw (.unexpectedByte c (b! '"') 0)
      else readMember cfg (readWithStack cfg n) s ns
    else
      if c = b! ']' then do
        let (top, s) ← Prog.ofExcept s.pop
        if top = .none then Prog.ofExcept ns.topArray
        else do
          let ns ← Prog.ofExcept ns.popArray
          readWithStack cfg n top s ns
      else if top = .array then
        if c ≠ b! ',' then .throw (.unexpectedByte c (b! ',') 0)
        else do
          let c ← nextTokenTake
          readElement cfg (readWithStack cfg n) s ns c
      else readElement cfg (readWithStack cfg n) s ns c

/-- The loop of `readArrayWithStack`, `/repo/iterator_read_array.go:13-59`. -/
def readArrayLoop {F : Type} (cfg : ReadCfg F) (pool : Stack) : Nat → List (GoVal F) → Byte → Prog (GoVal F)
  | 0, _, _ => .throw .hang
  | n + 1, topObj, c =>
    if c = b! '{' then do
      let m ← remaining
      readWithStack cfg (m + 1) .objectBegin pool.initArray ((NodeStack.initArray topObj).pushObject [])
    else if c = b! '[' then do
      let m ← remaining
      readWithStack cfg (m + 1) .arrayBegin pool.initArray ((NodeStack.initArray topObj).pushArray [])
    else do
      let o ← readScalar cfg c
      let topObj := topObj ++ [o]
      let c ← nextTokenTake
      if c = b! ']' then pure (.arr topObj)
      else if c ≠ b! ',' then .throw (.unexpectedByte c (b! ',') (b! ']'))
      else do
        let c ← nextTokenTake
        readArrayLoop cfg pool n topObj c

/-- `readArrayWithStack`, `/repo/iterator_read_array.go:3-60`. -/
def readArrayWithStack {F : Type} (cfg : ReadCfg F) (pool : Stack) : Prog (GoVal F) := do
  let c ← nextTokenTake
  if c = b! ']' then pure (.arr [])
  else do
    let n ← remaining
    readArrayLoop cfg pool (n + 1) [] c

/-- The loop of `readObjectWithStack`, `/repo/iterator_read_object.go:13-71`, behind the opening quote of a key. -/
def readObjectLoop {F : Type} (cfg : ReadCfg F) (pool : Stack) : Nat → GoMap F → Prog (GoVal F)
  | 0, _ => .throw .hang
  | n + 1, topObj => do
    let field ← readObjectField
    let c ← nextTokenTake
    if c = b! '{' then do
      let m ← remaining
      readWithStack cfg (m + 1) .objectBegin pool.initObject ((NodeStack.initObject topObj).pushObject field)
    else if c = b! '[' then do
      let m ← remaining
      readWithStack cfg (m + 1) .arrayBegin pool.initObject ((NodeStack.initObject topObj).pushArray field)
    else do
      let o ← readScalar cfg c
      let topObj := topObj.set field o
      let c ← nextTokenTake
      if c = b! '}' then pure (.obj topObj)
      else if c ≠ b! ',' then .throw (.unexpectedByte c (b! '}') (b! ','))
      else do
        let _ ← token fun c => if c ≠ b! '"' then .fail (.unexpectedByte c (b! '"') 0) else .take
        readObjectLoop cfg pool n topObj

/-- `readObjectWithStack`, `/repo/iterator_read_object.go:3-72`. -/
def readObjectWithStack {F : Type} (cfg : ReadCfg F) (pool : Stack) : Prog (GoVal F) := do
  let c ← token fun c =>
    if c = b! '}' then .take
    else if c ≠ b! '"' then .fail (.unexpectedByte c (b! '"') 0) else .take
  if c = b! '}' then pure (.obj GoMap.empty)
  else do
    let n ← remaining
    readObjectLoop cfg pool (n + 1) GoMap.empty

/-- `readFunctions[c]`, `/repo/iterator_read.go:10-43`. -/
def readFunction {F : Type} (cfg : ReadCfg F) (pool : Stack) (c : Byte) : Prog (GoVal F) :=
  if c = b! '[' then readArrayWithStack cfg pool
  else if c = b! '{' then readObjectWithStack cfg pool
  else readScalar cfg c

/-- `Read`, `/repo/iterator_read.go:46-53`. -/
def Read {F : Type} (cfg : ReadCfg F) (pool : Stack) : Prog (GoVal F) := do
  let c ← nextTokenTake
  readFunction cfg pool c

/-- `ReadBool`, `/repo/iterator_bool.go:4-19`. -/
def ReadBool : Prog Bool := do
  let c ← token fun c =>
    if c = b! 't' ∨ c = b! 'f' then .take else .fail (.unexpectedByte c (b! 't') (b! 'f'))
  if c = b! 't' then do
    expectBytes rue
    pure true
  else do
    expectBytes alse
    pure false

/-- `ReadNull`, `/repo/iterator_null.go:4-14`. -/
def ReadNull : Prog Unit := do
  let _ ← token fun c => if c ≠ b! 'n' then .fail (.unexpectedByte c (b! 'n') 0) else .take
  expectBytes ull

end Jzon
