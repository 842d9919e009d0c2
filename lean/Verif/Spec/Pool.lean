import Verif.Model.Pool

/-!
# Specification: what is visible of an iterator
-/

namespace Jzon

/-- What the reader has still to deliver. -/
def Feed.left : Option Feed → List Byte
  | some (.more l _) => l
  | _ => []

/-- The error that follows. -/
def Feed.fin : Option Feed → Err
  | some (.more _ e) => e
  | _ => .eof

/-- The bytes still to be read, in the buffer and from the reader. -/
def PhysIt.unread (it : PhysIt) : List Byte := (it.store.take it.tail).drop it.head ++ Feed.left it.feed

/-- The position in the input. -/
def PhysIt.position (it : PhysIt) : Nat := it.offset + it.head

end Jzon

namespace Spec

open Jzon

/-- A new iterator that starts on a reader. -/
def freshReader (useNumber disallow : Bool) (f : Feed) : PhysIt :=
  (PhysIt.new.borrow useNumber disallow).resetReader (List.replicate 64 0) f

/-- A new iterator that starts on bytes. -/
def freshBytes (useNumber disallow : Bool) (data : List Byte) : PhysIt :=
  (PhysIt.new.borrow useNumber disallow).resetBytes data

/-- The two iterators will be seen to do the same: same bytes to come, same position, same options, same user context, same
checkpoint, and both keep what they have read or neither does. -/
structure Alike (a b : PhysIt) : Prop where
  unread : a.unread = b.unread
  fin : Feed.fin a.feed = Feed.fin b.feed
  position : a.position = b.position
  last : a.last = b.last
  context : a.context = b.context
  useNumber : a.useNumber = b.useNumber
  disallow : a.disallowUnknownFields = b.disallowUnknownFields
  capture : a.capture = b.capture

end Spec
