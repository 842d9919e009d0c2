import Verif.Model.Report

/-!
# Specification: error reports
-/

namespace Spec

open Jzon

/-- `location` is the text around the position `pos` of `text`: the 20 bytes before it and the 20 bytes after it, or as many
as there are. -/
def Near (text : List Byte) (pos : Nat) (location : List Byte) : Prop :=
  ∃ a before after b, text = a ++ before ++ after ++ b ∧ location = before ++ after ∧ pos = a.length + before.length ∧
    before.length = min 20 pos ∧ after.length = min 20 (text.length - pos)

/-- The same within a part of the text that contains the position. -/
def NearInPart (text : List Byte) (pos : Nat) (location : List Byte) : Prop :=
  ∃ past part rest, text = past ++ part ++ rest ∧ past.length ≤ pos ∧ Near part (pos - past.length) location

/-- The bytes of a source and the error that follows them. -/
def contents : Source → List Byte × Err
  | .bytes data => (data, .eof)
  | .buffer data => (data, .eof)
  | .noReader => ([], .eof)
  | .reader (.more l e) => (l, e)
  | .reader .ended => ([], .eof)

/-- A call that may end with a report ends as one that may end with an error. -/
inductive Reports {F : Type} : CallEnd F → Except Err (Val F) → Prop
  | value (v : Val F) : Reports (.ok v) (.ok v)
  | report (d : DecodeError) : Reports (.error d) (.error d.reason)

/-- The error for an argument that nothing can be decoded into. -/
def receiverError {F : Type} : Receiver F → Option Err
  | .null => some .nilPointerReceiver
  | .notPointer => some .pointerReceiver
  | .pointer _ _ => none

/-- The bytes that can be shown without reading. -/
def atHand : Source → List Byte
  | .bytes data => data
  | .buffer data => data
  | _ => []

end Spec
