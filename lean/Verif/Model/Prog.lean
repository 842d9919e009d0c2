import Verif.Model.Iter

/-!
# Decoding programs

Every decoding function of the Go code is written as a program over the primitive operations below.
`Prog.runM` runs a program on the iterator of `Verif.Model.Iter` (this is the model of the code);
`Prog.runF` runs it on the bytes that remain to be read, without buffer and reader.
`Verif.Proof.Sim` relates the two for all programs.
-/

namespace Jzon

/-- What the caller of `nextToken` / `nextByte` does with the byte it sees. -/
inductive Dec where
  /-- `it.head++` -/
  | take
  /-- leave the byte for the next operation -/
  | leave
  /-- return an error without `it.head++` -/
  | fail (e : Err)
  deriving DecidableEq, Repr

/-- White space of `valueTypeMap`, `/repo/value_type.go:47-49`, as used by `nextToken`. -/
def isWs (c : Byte) : Bool := c == b! ' ' || c == b! '\n' || c == b! '\t' || c == b! '\r'

/-- Body of the loop of `nextToken`, `/repo/iterator.go:224-233`. -/
def tokenBody (_ : Unit) (c : Byte) : Act Unit Byte :=
  if c ≤ b! ' ' then
    if isWs c then .cont () else .stop c
  else .stop c

/-- Primitive operations. -/
inductive Op : Type → Type 1
  /-- `nextToken` (`/repo/iterator.go:221-240`) followed by the caller's decision -/
  | token (d : Byte → Dec) : Op Byte
  /-- `nextByte` (`/repo/iterator.go:187-194`) followed by the caller's decision -/
  | byte (d : Byte → Dec) : Op Byte
  /-- a scanning loop -/
  | scan {σ β : Type} (body : σ → Byte → Act σ β) (onEOF : σ → Except Err β) (s : σ) : Op β
  /-- `it.offset + it.head` -/
  | inputOffset : Op Nat
  /-- the number of bytes still to come; used only to bound loops, never visible in a result -/
  | remaining : Op Nat

/-- Programs. -/
inductive Prog : Type → Type 1
  | pure {α : Type} (a : α) : Prog α
  | fail {α : Type} (e : Err) : Prog α
  | op {α β : Type} (o : Op β) (k : β → Prog α) : Prog α
  /-- run `p` with `it.capture` set and hand over the bytes it consumed -/
  | captured {α β : Type} (p : Prog β) (k : β × List Byte → Prog α) : Prog α

def Prog.bind {α β : Type} : Prog α → (α → Prog β) → Prog β
  | .pure a, f => f a
  | .fail e, _ => .fail e
  | .op o k, f => .op o (fun b => (k b).bind f)
  | .captured p k, f => .captured p (fun b => (k b).bind f)

instance : Monad Prog where
  pure := .pure
  bind := Prog.bind

/-- return an error -/
abbrev Prog.throw {α : Type} (e : Err) : Prog α := .fail e
abbrev token (d : Byte → Dec) : Prog Byte := .op (.token d) .pure
abbrev byte (d : Byte → Dec) : Prog Byte := .op (.byte d) .pure
abbrev scan {σ β : Type} (body : σ → Byte → Act σ β) (onEOF : σ → Except Err β) (s : σ) : Prog β :=
  .op (.scan body onEOF s) .pure
/-- `nextToken` where the caller treats `io.EOF` as an answer (`none`). -/
def tokenEOF : Prog (Option Byte) :=
  scan (fun _ c => if c ≤ b! ' ' then (if isWs c then .cont () else .stop (some c)) else .stop (some c))
    (fun _ => .ok none) ()
abbrev inputOffset : Prog Nat := .op .inputOffset .pure
abbrev remaining : Prog Nat := .op .remaining .pure
abbrev captured {β : Type} (p : Prog β) : Prog (β × List Byte) := .captured p .pure
/-- `nextToken` followed by `it.head++` -/
abbrev nextTokenTake : Prog Byte := token fun _ => .take
/-- `nextByte` followed by `it.head++` -/
abbrev nextByteTake : Prog Byte := byte fun _ => .take

/-! ## Running on the iterator -/

/-- The caller's decision, after a peek that left the byte at `it.head`. -/
def Dec.runM (d : Dec) (c : Byte) (it : It) : Except Err Byte × It :=
  match d with
  | .take => (.ok c, { it with head := it.head + 1 })
  | .leave => (.ok c, it)
  | .fail e => (.error e, it)

/-- All bytes the reader has not delivered yet and will deliver before it reports an error. -/
def flatScript : List RdRes → List Byte
  | [] => []
  | r :: rest =>
    match r.err with
    | none => r.data ++ flatScript rest
    | some e => if e = .eof then r.data ++ flatScript rest else []

def flatReader (r : Option (List RdRes)) : List Byte := flatScript (r.getD [])

/-- The unread input of an iterator: rest of the buffer, then the rest of the reader. -/
def It.rem (it : It) : List Byte := it.buf.drop it.head ++ flatReader it.reader

def Op.runM : {β : Type} → Op β → It → Except Err β × It
  | _, .token d, it =>
    match it.scan tokenBody (fun _ => .error .eof) () with
    | (.ok c, it') => (d c).runM c it'
    | (.error e, it') => (.error e, it')
  | _, .byte d, it =>
    match it.nextByte with
    | (.ok c, it') => (d c).runM c it'
    | (.error e, it') => (.error e, it')
  | _, .scan body onEOF s, it => it.scan body onEOF s
  | _, .inputOffset, it => (.ok (it.offset + it.head), it)
  | _, .remaining, it => (.ok it.rem.length, it)

/-- Run a program on the iterator.  For `captured` compare `SkipRaw`, `/repo/iterator_raw.go:11-20`, and
`readNumberAsString`, `/repo/iterator_number.go:4-18`: set the flag, remember the position, run, restore
the flag (also after an error), take the slice; slicing panics when out of range. -/
def Prog.runM : {α : Type} → Prog α → It → Except Err α × It
  | _, .pure a, it => (.ok a, it)
  | _, .fail e, it => (.error e, it)
  | _, .op o k, it =>
    match o.runM it with
    | (.ok b, it') => (k b).runM it'
    | (.error e, it') => (.error e, it')
  | _, .captured p k, it =>
    match p.runM { it with capture := true } with
    | (.ok b, it1) =>
      let it2 : It := { it1 with capture := it.capture }
      if it.head ≤ it2.head ∧ it2.head ≤ it2.buf.length then
        (k (b, (it2.buf.take it2.head).drop it.head)).runM it2
      else (.error .panic, it2)
    | (.error e, it1) => (.error e, { it1 with capture := it.capture })

/-! ## Running on the remaining bytes -/

/-- What a flat run depends on besides the remaining bytes: the error the stream ends with and the position
of its end (only used for `inputOffset`). -/
structure Env where
  endErr : Err
  total : Nat

def Dec.runF (d : Dec) (c : Byte) (l : List Byte) : Except Err (Byte × List Byte) :=
  match d with
  | .take => .ok (c, l)
  | .leave => .ok (c, c :: l)
  | .fail e => .error e

def scanF {σ β : Type} (body : σ → Byte → Act σ β) (onEOF : σ → Except Err β) (endErr : Err) :
    σ → List Byte → Except Err (β × List Byte)
  | s, [] =>
    if endErr = .eof then
      match onEOF s with
      | .ok b => .ok (b, [])
      | .error e => .error e
    else .error endErr
  | s, c :: l =>
    match body s c with
    | .cont s' => scanF body onEOF endErr s' l
    | .stop b => .ok (b, c :: l)
    | .stopNext b => .ok (b, l)
    | .err e => .error e

/-- Drop leading white space. -/
def dropWs (l : List Byte) : List Byte := l.dropWhile isWs

def Op.runF : {β : Type} → Op β → Env → List Byte → Except Err (β × List Byte)
  | _, .token d, env, l =>
    match dropWs l with
    | [] => .error env.endErr
    | c :: l' => (d c).runF c l'
  | _, .byte d, env, l =>
    match l with
    | [] => .error env.endErr
    | c :: l' => (d c).runF c l'
  | _, .scan body onEOF s, env, l => scanF body onEOF env.endErr s l
  | _, .inputOffset, env, l => .ok (env.total - l.length, l)
  | _, .remaining, _, l => .ok (l.length, l)

def Prog.runF : {α : Type} → Prog α → Env → List Byte → Except Err (α × List Byte)
  | _, .pure a, _, l => .ok (a, l)
  | _, .fail e, _, _ => .error e
  | _, .op o k, env, l =>
    match o.runF env l with
    | .ok (b, l') => (k b).runF env l'
    | .error e => .error e
  | _, .captured p k, env, l =>
    match p.runF env l with
    | .ok (b, l') => (k (b, l.take (l.length - l'.length))).runF env l'
    | .error e => .error e

end Jzon
