import Verif.Model.Typed

/-!
# The stream decoder

Model of `/repo/decoder.go`.
-/

namespace Jzon

section
variable {F : Type}

/-- `Decoder`, `/repo/decoder.go:11-14`, with the two options that `/repo/iterator.go:45-46` keeps in its iterator. -/
structure Decoder where
  it : It
  useNumber : Bool
  disallowUnknownFields : Bool
  err : Option Err

/-- `NewDecoder`, `/repo/decoder_config.go:108-114`, with the iterator `it` of the pool (`/repo/decoder_config_adaptor.go:4-10`)
and a reader that is neither nil nor a `*bytes.Buffer`. -/
def newDecoder (cfg : DecCfg F) (it : It) (script : List RdRes) : Decoder :=
  { it := it.resetReader script, useNumber := cfg.useNumber, disallowUnknownFields := cfg.disallowUnknownFields, err := none }

/-- `NewDecoder`, `/repo/decoder_config.go:108-114`, for a `*bytes.Buffer` with the given contents. -/
def newDecoderBytes (cfg : DecCfg F) (it : It) (data : List Byte) : Decoder :=
  { it := it.resetBytes data, useNumber := cfg.useNumber, disallowUnknownFields := cfg.disallowUnknownFields, err := none }

/-- `UseNumber`, `/repo/decoder.go:24-26`. -/
def Decoder.UseNumber (d : Decoder) : Decoder := { d with useNumber := true }

/-- `DisallowUnknownFields`, `/repo/decoder.go:31-33`. -/
def Decoder.DisallowUnknownFields (d : Decoder) : Decoder := { d with disallowUnknownFields := true }

/-- The options in force. -/
def Decoder.cfg (d : Decoder) (cfg : DecCfg F) : DecCfg F :=
  { cfg with useNumber := d.useNumber, disallowUnknownFields := d.disallowUnknownFields }

/-- `Decode`, `/repo/decoder.go:37-42`, into a variable of type `t` that holds `old`. -/
def Decoder.Decode (Γ : TyEnv F) (cfg : DecCfg F) (pools : Pools) (t : Ty) (old : Val F) (d : Decoder) :
    Except Err (Val F) × Decoder :=
  match d.err with
  | some e => (.error e, d)
  | none =>
    match (ReadVal Γ (d.cfg cfg) pools t old).runM d.it with
    | (.ok v, it) => (.ok v, { d with it := it, err := none })
    | (.error e, it) => (.error e, { d with it := it, err := some e })

/-- `Buffered`, `/repo/decoder.go:46-48`: the bytes the reader it returns will deliver. -/
def Decoder.Buffered (d : Decoder) : List Byte := d.it.buf.drop d.it.head

/-- `More`, `/repo/decoder.go:56-62`. -/
def Decoder.More (d : Decoder) : Bool × Decoder :=
  match d.err with
  | some _ => (false, d)
  | none =>
    match tokenEOF.runM d.it with
    | (.ok (some _), it) => (true, { d with it := it })
    | (.ok none, it) => (false, { d with it := it })
    | (.error _, it) => (false, { d with it := it })

/-- `InputOffset`, `/repo/decoder.go:68-70`. -/
def Decoder.InputOffset (d : Decoder) : Nat := d.it.offset + d.it.head

/-- The calls of a program using a decoder. -/
inductive DecCall (F : Type) where
  | decode (t : Ty) (old : Val F)
  | more
  | useNumber
  | disallowUnknownFields

/-- What the caller sees of a call. -/
inductive DecReply (F : Type) where
  | value (r : Except Err (Val F))
  | bool (b : Bool)
  | unit

/-- One call. -/
def Decoder.call (Γ : TyEnv F) (cfg : DecCfg F) (pools : Pools) (d : Decoder) : DecCall F → DecReply F × Decoder
  | .decode t old =>
    let (r, d) := d.Decode Γ cfg pools t old
    (.value r, d)
  | .more =>
    let (b, d) := d.More
    (.bool b, d)
  | .useNumber => (.unit, d.UseNumber)
  | .disallowUnknownFields => (.unit, d.DisallowUnknownFields)

/-- A sequence of calls. -/
def Decoder.calls (Γ : TyEnv F) (cfg : DecCfg F) (pools : Pools) : Decoder → List (DecCall F) → List (DecReply F) × Decoder
  | d, [] => ([], d)
  | d, c :: cs =>
    let (r, d) := d.call Γ cfg pools c
    let (rs, d) := d.calls Γ cfg pools cs
    (r :: rs, d)

end

end Jzon
