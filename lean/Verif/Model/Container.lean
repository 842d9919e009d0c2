import Verif.Model.Read

/-!
# Arrays and objects element by element

Model of the exported functions of `/repo/iterator_array.go` and `/repo/iterator_object.go`, and of `NextValueType`.
A callback is a decoding program that may also use and change variables of its own, of type `S`.
-/

namespace Jzon

/-- `ValueType`, `/repo/value_type.go:6-25`; `WhiteSpaceValue` is never returned. -/
inductive ValueType where
  | invalid
  | string
  | number
  | object
  | array
  | bool
  | null
  deriving DecidableEq, Repr

/-- `valueTypeMap` on the bytes that are not white space, `/repo/value_type.go:44-60`. -/
def valueTypeOf (c : Byte) : ValueType :=
  if c = b! '"' then .string
  else if isNumberStart c then .number
  else if c = b! '{' then .object
  else if c = b! '[' then .array
  else if c = b! 't' ∨ c = b! 'f' then .bool
  else if c = b! 'n' then .null
  else .invalid

/-- `NextValueType`, `/repo/iterator.go:243-246`; with an error the Go code also returns `InvalidValue`. -/
def NextValueType : Prog ValueType := do
  let c ← token fun _ => .leave
  pure (valueTypeOf c)

/-- `ReadArrayBegin`, `/repo/iterator_array.go:16-34`. -/
def ReadArrayBegin : Prog Bool := do
  let _ ← token fun c => if c ≠ b! '[' then .fail (.unexpectedByte c (b! '[') 0) else .take
  let c ← token fun c => if c = b! ']' then .take else .leave
  if c = b! ']' then pure false else pure true

/-- `ReadArrayMore`, `/repo/iterator_array.go:37-52`. -/
def ReadArrayMore : Prog Bool := do
  let c ← token fun c =>
    if c = b! ',' then .take else if c = b! ']' then .take else .fail (.unexpectedByte c (b! ',') (b! ']'))
  if c = b! ',' then pure true else pure false

/-- The loop of `ReadArrayCB`, `/repo/iterator_array.go:73-90`; every round consumes a comma, the bound is the length of
the input. -/
def arrayCBLoop {S : Type} (cb : S → Prog S) : Nat → S → Prog S
  | 0, _ => .throw .hang
  | n + 1, s => do
    let s ← cb s
    let c ← token fun c =>
      if c = b! ',' then .take else if c = b! ']' then .take else .fail (.unexpectedByte c (b! ',') (b! ']'))
    if c = b! ',' then arrayCBLoop cb n s else pure s

/-- `ReadArrayCB`, `/repo/iterator_array.go:56-91`. -/
def ReadArrayCB {S : Type} (cb : S → Prog S) (s : S) : Prog S := do
  let _ ← token fun c => if c ≠ b! '[' then .fail (.unexpectedByte c (b! '[') 0) else .take
  let c ← token fun c => if c = b! ']' then .take else .leave
  if c = b! ']' then pure s
  else do
    let n ← remaining
    arrayCBLoop cb (n + 1) s

/-- The rest of the loop in the comment of `ReadArrayBegin`, `/repo/iterator_array.go:9-14`. -/
def forArrayLoop {S : Type} (body : S → Prog S) : Nat → Bool → S → Prog S
  | 0, _, _ => .throw .hang
  | n + 1, more, s =>
    if more then do
      let s ← body s
      let more ← ReadArrayMore
      forArrayLoop body n more s
    else pure s

/-- The loop in the comment of `ReadArrayBegin`, `/repo/iterator_array.go:5-14`:
`for more, err = it.ReadArrayBegin(); more; more, err = it.ReadArrayMore() { body }`. -/
def forArray {S : Type} (body : S → Prog S) (s : S) : Prog S := do
  let more ← ReadArrayBegin
  let n ← remaining
  forArrayLoop body (n + 2) more s

/-- `ReadObjectBegin`, `/repo/iterator_object.go:48-79`; `none` is the result `false`. -/
def ReadObjectBegin : Prog (Option (List Byte)) := do
  let _ ← token fun c => if c ≠ b! '{' then .fail (.unexpectedByte c (b! '{') 0) else .take
  let c ← token fun c =>
    if c = b! '}' then .take else if c = b! '"' then .take else .fail (.unexpectedByte c (b! '}') (b! '"'))
  if c = b! '}' then pure none
  else do
    let field ← readObjectField
    pure (some field)

/-- `ReadObjectMore`, `/repo/iterator_object.go:82-112`. -/
def ReadObjectMore : Prog (Option (List Byte)) := do
  let c ← token fun c =>
    if c = b! '}' then .take else if c = b! ',' then .take else .fail (.unexpectedByte c (b! '}') (b! ','))
  if c = b! '}' then pure none
  else do
    let _ ← token fun c => if c ≠ b! '"' then .fail (.unexpectedByte c (b! '"') 0) else .take
    let field ← readObjectField
    pure (some field)

/-- The loop of `ReadObjectCB`, `/repo/iterator_object.go:137-166`, behind the opening quote of a member name. -/
def objectCBLoop {S : Type} (cb : List Byte → S → Prog S) : Nat → S → Prog S
  | 0, _ => .throw .hang
  | n + 1, s => do
    let field ← readObjectField
    let s ← cb field s
    let c ← token fun c =>
      if c = b! '}' then .take else if c = b! ',' then .take else .fail (.unexpectedByte c (b! '}') (b! ','))
    if c = b! '}' then pure s
    else do
      let _ ← token fun c => if c ≠ b! '"' then .fail (.unexpectedByte c (b! '"') 0) else .take
      objectCBLoop cb n s

/-- `ReadObjectCB`, `/repo/iterator_object.go:116-167`. -/
def ReadObjectCB {S : Type} (cb : List Byte → S → Prog S) (s : S) : Prog S := do
  let _ ← token fun c => if c ≠ b! '{' then .fail (.unexpectedByte c (b! '{') 0) else .take
  let c ← token fun c =>
    if c = b! '}' then .take
    else if c ≠ b! '"' then .fail (.unexpectedByte c (b! '"') (b! '}')) else .take
  if c = b! '}' then pure s
  else do
    let n ← remaining
    objectCBLoop cb (n + 1) s

/-- The rest of the loop with `ReadObjectMore`. -/
def forObjectLoop {S : Type} (body : List Byte → S → Prog S) : Nat → Option (List Byte) → S → Prog S
  | 0, _, _ => .throw .hang
  | n + 1, more, s =>
    match more with
    | some field => do
      let s ← body field s
      let more ← ReadObjectMore
      forObjectLoop body n more s
    | none => pure s

/-- `for more, field, err = it.ReadObjectBegin(); more; more, field, err = it.ReadObjectMore() { body }`. -/
def forObject {S : Type} (body : List Byte → S → Prog S) (s : S) : Prog S := do
  let more ← ReadObjectBegin
  let n ← remaining
  forObjectLoop body (n + 2) more s

end Jzon
