import Verif.Model.Struct
import Verif.Spec.Encode

/-!
# Specification: the JSON fields of a struct type
-/

namespace Spec

open Jzon (Byte Ty PathStep SField StructEnv Cand)

/-! ## Tags -/

/-- The parts of a text between its commas. -/
def Parts (tag : List Byte) (ps : List (List Byte)) : Prop :=
  ∃ p qs, ps = p :: qs ∧ (∀ q ∈ ps, 0x2C ∉ q) ∧ tag = p ++ qs.flatMap fun q => 0x2C :: q

/-- The text before the first comma. -/
def TagName (tag n : List Byte) : Prop := ∃ ps, Parts tag (n :: ps)

/-- One of the texts behind the commas. -/
def TagOption (tag o : List Byte) : Prop := ∃ n ps, Parts tag (n :: ps) ∧ o ∈ ps

/-- Characters other than letters and digits allowed in a name: `!#$%&()*+-./:<=>?@[]^_{|}~ `. -/
def specialChars : List Nat :=
  [0x21, 0x23, 0x24, 0x25, 0x26, 0x28, 0x29, 0x2A, 0x2B, 0x2D, 0x2E, 0x2F, 0x3A, 0x3C, 0x3D, 0x3E, 0x3F, 0x40, 0x5B, 0x5D, 0x5E,
    0x5F, 0x7B, 0x7C, 0x7D, 0x7E, 0x20]

/-- A tag name that counts: not empty, of letters, digits and the special characters. -/
def ValidName (letter : Nat → Bool) (n : List Byte) : Prop :=
  ∃ cs : List Nat, cs ≠ [] ∧ n = cs.flatMap utf8 ∧ ∀ c ∈ cs, Scalar c ∧ (c ∈ specialChars ∨ letter c = true)

/-! ## Fields -/

section
variable (E : StructEnv) (onlyTagged : Bool)

/-- The type or, for a pointer, the type it points to, is a struct type. -/
def StructTy (t : Ty) : Prop := ∃ fs, E.fieldsOf t = some fs

/-- The type itself, or for a pointer type the type it points to. -/
def bare : Ty → Ty
  | .ptr t => t
  | t => t

/-- The types with the option `string`: booleans, numbers and strings, and `json.Number`, which is a string. -/
inductive HasStringOption : Ty → Prop
  | bool : HasStringOption .bool
  | int (w : Jzon.Width) : HasStringOption (.int w)
  | uint (w : Jzon.Width) : HasStringOption (.uint w)
  | float32 : HasStringOption .float32
  | float64 : HasStringOption .float64
  | str : HasStringOption .str
  | number : HasStringOption .number

/-- The tag of the field gives it the name `n`. -/
def NamedBy (sf : SField) (n : List Byte) : Prop := ∃ tag, sf.tag = some tag ∧ TagName tag n ∧ ValidName E.letter n

/-- JSON ignores the field: it is not exported, unless it is an embedded struct; or its tag is `-`; or only tagged fields are
wanted. -/
def Ignored (sf : SField) : Prop :=
  (sf.exported = false ∧ ¬ (sf.anonymous = true ∧ StructTy E (bare sf.ty))) ∨ sf.tag = some [0x2D] ∨
    (onlyTagged = true ∧ sf.tag = none ∧ sf.anonymous = false)

/-- The fields of the struct type `t` count as fields of the struct that contains the field `sf`. -/
def Embeds (sf : SField) (t : Ty) : Prop :=
  ¬ Ignored E onlyTagged sf ∧ sf.anonymous = true ∧ (∀ n, ¬ NamedBy E sf n) ∧ t = bare sf.ty ∧ StructTy E t

/-- The embedded structs: by the member numbers `index` and the steps `path`, a struct of type `t` is reached from one of type
`root`. -/
inductive Reach (root : Ty) : List Nat → List PathStep → Ty → Prop
  | root : Reach root [] [] root
  | step {index : List Nat} {path : List PathStep} {s : Ty} {fs : List SField} {i : Nat} {sf : SField} {t : Ty}
      (h : Reach root index path s) (hf : E.fieldsOf s = some fs) (hi : fs[i]? = some sf) (he : Embeds E onlyTagged sf t) :
      Reach root (index ++ [i]) (path ++ (.member i :: if sf.ty.isPtr then [.deref sf.exported t] else [])) t

/-- The field `c` comes from the field `sf`. -/
structure From (sf : SField) (c : Cand) : Prop where
  shown : ¬ Ignored E onlyTagged sf
  notEmbedded : ∀ t, ¬ Embeds E onlyTagged sf t
  ty : c.ty = sf.ty
  name : (NamedBy E sf c.name ∧ c.tagged = true) ∨ ((∀ n, ¬ NamedBy E sf n) ∧ c.name = sf.name ∧ c.tagged = false)
  quoted : c.quoted = true ↔ HasStringOption (bare sf.ty) ∧ ∃ tag, sf.tag = some tag ∧ TagOption tag [0x73, 0x74, 0x72, 0x69, 0x6E, 0x67]
  omitEmpty : c.omitEmpty = true ↔ ∃ tag, sf.tag = some tag ∧ TagOption tag [0x6F, 0x6D, 0x69, 0x74, 0x65, 0x6D, 0x70, 0x74, 0x79]

/-- The fields of a struct type at all depths. -/
def Candidate (root : Ty) (c : Cand) : Prop :=
  ∃ index path s fs i sf, Reach E onlyTagged root index path s ∧ E.fieldsOf s = some fs ∧ fs[i]? = some sf ∧ From E onlyTagged sf c ∧
    c.index = index ++ [i] ∧ c.path = path ++ [.member i]

/-- A field comes before another of the same name: it is less deep, or equally deep and has its name from its tag, while the
other has not. -/
def Beats (c c' : Cand) : Prop :=
  c.index.length < c'.index.length ∨ (c.index.length = c'.index.length ∧ c.tagged = true ∧ c'.tagged = false)

/-- The rule of Go for embedded structs: the fields that come before all others of their name. -/
def Visible (root : Ty) (c : Cand) : Prop :=
  Candidate E onlyTagged root c ∧
    ∀ c', Candidate E onlyTagged root c' → c'.name = c.name → c'.index ≠ c.index → Beats c c'

/-- A shortest way to a struct type. -/
def Shortest (root : Ty) (index : List Nat) (t : Ty) : Prop :=
  (∃ path, Reach E onlyTagged root index path t) ∧
    ∀ index' path', Reach E onlyTagged root index' path' t → index.length ≤ index'.length

/-- A struct type to which several shortest ways lead embeds no structs itself. -/
def FlatDiamonds (root : Ty) : Prop :=
  ∀ t index index', Shortest E onlyTagged root index t → Shortest E onlyTagged root index' t → index ≠ index' →
    ∀ fs, E.fieldsOf t = some fs → ∀ sf ∈ fs, ∀ u, ¬ Embeds E onlyTagged sf u

/-- `x` comes before `y`: it is smaller where they first differ, or `y` continues it. -/
inductive IndexLt : List Nat → List Nat → Prop
  | nil (b : Nat) (y : List Nat) : IndexLt [] (b :: y)
  | lt (a b : Nat) (x y : List Nat) (h : a < b) : IndexLt (a :: x) (b :: y)
  | eq (a : Nat) (x y : List Nat) (h : IndexLt x y) : IndexLt (a :: x) (a :: y)

end

end Spec
