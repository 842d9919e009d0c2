import Verif.Model.Marshal

/-!
# The setting of an encoder

Model of `NewEncoder` and `SetEscapeHTML`.
-/

namespace Jzon

section
variable {F : Type}

/-- `NewEncoder`, `/repo/encoder_config.go:102-108`, with a streamer whose state was `old` when it was returned to the pool. -/
def newEncoder (E : EncEnv F) (old : Streamer) (w : Writer) : Encoder := ⟨(newStreamer E old).resetWriter (some w), none⟩

/-- `SetEscapeHTML`, `/repo/encoder.go:45-47`. -/
def Encoder.setEscapeHTML (e : Encoder) (on : Bool) : Encoder := { e with s := e.s.escapeHTML on }

/-- The calls of a user of an `Encoder`. -/
inductive EncCall (F : Type) where
  | encode (T : Ty) (v : Val F)
  | setEscapeHTML (on : Bool)

/-- The calls one after the other; the list has what the calls of `Encode`, `/repo/encoder.go:31-36`, return. -/
def Encoder.calls (Γ : TyEnv F) (E : EncEnv F) (n : Nat) : Encoder → List (EncCall F) → List (Option EncErr) × Encoder
  | e, [] => ([], e)
  | e, .setEscapeHTML on :: cs => Encoder.calls Γ E n (e.setEscapeHTML on) cs
  | e, .encode T v :: cs =>
    let (err, e) := e.encode (Streamer.value Γ E n T v)
    let (errs, e) := Encoder.calls Γ E n e cs
    (err :: errs, e)

end

end Jzon
