import Verif.Spec.Unknown

/-!
# Specification: texts that differ in white space, or in how strings are written
-/

namespace Spec

open Jzon (Byte Ty KeyTy Field TyEnv)

/-- The same text up to white space between the tokens.  If `esc`, strings may also be written with other escapes. -/
inductive SameText (esc : Bool) : List Byte → List Byte → Prop
  | same (t : List Byte) (h : IsValue t) : SameText esc t t
  | str (t t' s : List Byte) (he : esc = true) (h : Str t s) (h' : Str t' s) : SameText esc t t'
  | array (t t' : List Byte) (ts ts' : List (List Byte)) (h : ArrayOf t ts) (h' : ArrayOf t' ts') (hn : ts.length = ts'.length)
      (hs : ∀ (i : Nat) (u u' : List Byte), ts[i]? = some u → ts'[i]? = some u' → SameText esc u u') : SameText esc t t'
  | object (t t' : List Byte) (ms ms' : List (List Byte × List Byte)) (h : ObjectOf t ms) (h' : ObjectOf t' ms')
      (hn : ms.length = ms'.length)
      (hk : ∀ (i : Nat) (m m' : List Byte × List Byte), ms[i]? = some m → ms'[i]? = some m' →
        ∃ s, Str m.1 s ∧ Str m'.1 s ∧ (esc = true ∨ m.1 = m'.1))
      (hs : ∀ (i : Nat) (m m' : List Byte × List Byte), ms[i]? = some m → ms'[i]? = some m' → SameText esc m.2 m'.2) : SameText esc t t'

section
variable {F : Type}

/-- Decoding the type involves no `json.RawMessage` and no method `UnmarshalJSON`: nothing that gets the text as it is. -/
def NoVerbatim (Γ : TyEnv F) (T : Ty) : Prop :=
  ∃ P, Closed Γ P ∧ P T ∧ ∀ U, P U → U ≠ .raw ∧ ∀ i, U ≠ .jsonUnmarshaler i

/-- Nor anything that looks for other things than text in a string: bytes in base64, numbers, map keys that are integers, and
fields with the option `string`. -/
def NoInside (Γ : TyEnv F) (T : Ty) : Prop :=
  ∃ P, Closed Γ P ∧ P T ∧
    (∀ U, P U → U ≠ .raw ∧ (∀ i, U ≠ .jsonUnmarshaler i) ∧ U ≠ .number ∧ ¬ Is Γ U (.slice (.uint .w8)) ∧
      ∀ K E, Is Γ U (.map K E) → (∀ w, K ≠ .int w) ∧ ∀ w, K ≠ .uint w) ∧
    ∀ i fs f, P (.named i) → Γ.defn i = .struct fs → f ∈ fs → f.quoted = false

end

end Spec
