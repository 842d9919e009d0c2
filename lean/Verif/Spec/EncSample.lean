import Verif.Spec.Sample
import Verif.Spec.Encodable

/-!
# A program to try the statements about encoding on

The types of `Verif.Spec.Sample`, with `omitempty` for the fields `A` and `next` of `T0`, and three types with own methods: the
type 0 is an integer, the type 1 a string with a value as receiver, the type 2 an integer with a pointer as receiver.
-/

namespace Spec

open Jzon

/-- The number zero. -/
def zeroArg : FloatArg :=
  { isInf := false, isNaN := false, nonZero := false, pos := false, ltSmall := true, geBig := false, gtNegSmall := true,
    leNegBig := false, fixed := bs! "0", exponent := bs! "0e+00" }

/-- The number 1.5. -/
def threeHalves : FloatArg :=
  { isInf := false, isNaN := false, nonZero := true, pos := true, ltSmall := false, geBig := false, gtNegSmall := true,
    leNegBig := false, fixed := bs! "1.5", exponent := bs! "1.5e+00" }

/-- The texts `0` and `1.5` stand for these numbers, the others for NaN. -/
def sampleFloat (f : List Byte) : FloatArg :=
  if f = bs! "0" then zeroArg else if f = bs! "1.5" then threeHalves else { zeroArg with isNaN := true }

open Classical in
/-- The keys of a map. -/
noncomputable def sampleEntries {F : Type} (m : Key → Option (Val F)) : Option (List Key) :=
  if h : ∃ keys : List Key, keys.Nodup ∧ ∀ k, k ∈ keys ↔ (m k).isSome then some h.choose else none

noncomputable def sampleEnc : EncEnv (List Byte) where
  escapeHTML := true
  fields
    | 0 => [⟨bs! "A", false, true, [.member 0], .int .w8⟩, ⟨bs! "bs", false, false, [.member 1], .slice (.uint .w8)⟩,
        ⟨bs! "next", false, true, [.member 2], .ptr (.named 0)⟩]
    | 1 => []
    | 2 => []
    | _ => [⟨bs! "on", true, false, [.member 0], .bool⟩]
  float32 := sampleFloat
  float64 := sampleFloat
  base64 l := l.map fun _ => 0x41
  recv
    | 2 => .pointer
    | _ => .value
  under
    | 1 => .str
    | _ => .int .w64
  marshalJSON _ _ := .ok (bs! "7")
  marshalText _ _ := .ok (bs! "x")
  entries := sampleEntries
  shuffle _ keys := keys

end Spec
