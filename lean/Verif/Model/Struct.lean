import Verif.Model.Typed

/-!
# The fields of a struct type

Model of `/repo/struct.go`, `/repo/struct_field.go` and `/repo/struct_tag.go`.
-/

namespace Jzon

/-! ## Tags -/

/-- `strings.Index(s, ",")`. -/
def indexComma (s : List Byte) : Option Nat := s.findIdx? fun c => c == b! ','

/-- `parseTag`, `/repo/struct_tag.go:19-24`. -/
def parseTag (tag : List Byte) : List Byte × List Byte :=
  match indexComma tag with
  | some idx => (tag.take idx, tag.drop (idx + 1))
  | none => (tag, [])

/-- The loop of `Contains`, `/repo/struct_tag.go:34-44`; the first argument bounds the number of rounds. -/
def tagContainsLoop (optionName : List Byte) : Nat → List Byte → Bool
  | 0, _ => false
  | n + 1, s =>
    if s = [] then false
    else
      match indexComma s with
      | some i => if s.take i = optionName then true else tagContainsLoop optionName n (s.drop (i + 1))
      | none => if s = optionName then true else tagContainsLoop optionName n []

/-- `tagOptions.Contains`, `/repo/struct_tag.go:29-46`. -/
def tagContains (o optionName : List Byte) : Bool :=
  if o.length = 0 then false else tagContainsLoop optionName (o.length + 1) o

/-- The loop of `isValidTag`, `/repo/struct_tag.go:52-61`; `letter` is `unicode.IsLetter` or `unicode.IsDigit`. -/
def isValidTagLoop (letter : Nat → Bool) : Nat → List Byte → Bool
  | 0, _ => true
  | n + 1, s =>
    if s = [] then true
    else
      let (c, size) := decodeRune s
      if (bs! "!#$%&()*+-./:<=>?@[]^_{|}~ ").any fun b => b.toNat == c then isValidTagLoop letter n (s.drop size)
      else if ¬ letter c then false
      else isValidTagLoop letter n (s.drop size)

/-- `isValidTag`, `/repo/struct_tag.go:48-63`. -/
def isValidTag (letter : Nat → Bool) (s : List Byte) : Bool :=
  if s = [] then false else isValidTagLoop letter s.length s

/-! ## Struct types -/

/-- `reflect.StructField`: what the code uses of it.  `exported` is `PkgPath == ""`; `tag` is the value for the key of the
configuration (`Tag.Lookup`). -/
structure SField where
  name : List Byte
  exported : Bool
  anonymous : Bool
  tag : Option (List Byte)
  ty : Ty

/-- The struct types of a program. -/
structure StructEnv where
  /-- the fields of a type of kind struct, `none` for the other types -/
  fieldsOf : Ty → Option (List SField)
  /-- a program has finitely many struct types -/
  all : List Ty
  complete : ∀ t, (fieldsOf t).isSome → t ∈ all
  /-- `unicode.IsLetter(c) || unicode.IsDigit(c)` -/
  letter : Nat → Bool
  /-- the replacement character, which stands for invalid UTF-8, is neither -/
  replacement : letter 0xFFFD = false

/-- The kinds with the option `string`, `/repo/struct.go:162-169`.  The kind of a type with an own decoding method is not
modelled; these methods do not get the option. -/
def Ty.quotable : Ty → Bool
  | .bool => true
  | .int _ => true
  | .uint _ => true
  | .float32 => true
  | .float64 => true
  | .str => true
  | .number => true
  | _ => false

/-- `if t.Kind() == reflect.Ptr { t = t.Elem() }`, `/repo/struct.go:67-69` and `120-122`. -/
def Ty.elem : Ty → Ty
  | .ptr t => t
  | t => t

/-- `Kind() == reflect.Ptr`. -/
def Ty.isPtr : Ty → Bool
  | .ptr _ => true
  | _ => false

/-- A `field` of the result, `/repo/struct_field.go:17-32`; `path` stands for `offsets`. -/
structure Cand where
  index : List Nat
  path : List PathStep
  name : List Byte
  tagged : Bool
  quoted : Bool
  omitEmpty : Bool
  ty : Ty
  deriving DecidableEq, Repr

/-- A `field` in the lists of embedded structs to explore, `/repo/struct.go:230-235`. -/
structure Embed where
  typ : Ty
  index : List Nat
  path : List PathStep
  deriving DecidableEq, Repr

/-- The variables of `describeStruct` during one level, `/repo/struct.go:15-35`. -/
structure DState where
  visited : List Ty
  fields : List Cand
  nextCount : Ty → Nat
  next : List Embed

/-- Name and options from the tag, `/repo/struct.go:85-102`. -/
def SField.nameAndOpts (letter : Nat → Bool) (sf : SField) : List Byte × List Byte :=
  match sf.tag with
  | some tag =>
    let (name, opts) := parseTag tag
    (if ¬ isValidTag letter name then [] else name, opts)
  | none => ([], [])

/-- The body of the loop over the fields of a struct, `/repo/struct.go:57-238`. -/
def DState.field (E : StructEnv) (onlyTagged : Bool) (count : Ty → Nat) (f : Embed) (st : DState) (x : SField × Nat) : DState :=
  let (sf, i) := x
  if ¬ sf.exported ∧ (¬ sf.anonymous ∨ (E.fieldsOf sf.ty.elem).isNone) then st
  else if sf.tag = some (bs! "-") then st
  else if sf.tag = none ∧ onlyTagged ∧ ¬ sf.anonymous then st
  else
    let (name, opts) := sf.nameAndOpts E.letter
    let index := f.index ++ [i]
    let ft := sf.ty.elem
    let path := f.path ++ [.member i]
    if name ≠ [] ∨ ¬ sf.anonymous ∨ (E.fieldsOf ft).isNone then
      let field : Cand :=
        { index := index, path := path, ty := sf.ty, omitEmpty := tagContains opts (bs! "omitempty"),
          name := if name = [] then sf.name else name, tagged := if name = [] then false else true,
          quoted := if tagContains opts (bs! "string") then ft.quotable else false }
      let fields := st.fields ++ [field]
      { st with fields := if count f.typ > 1 then fields ++ [field] else fields }
    else
      let nextCount := fun t => if t = ft then st.nextCount t + 1 else st.nextCount t
      if nextCount ft = 1 then
        let path := if sf.ty.isPtr then path ++ [.deref sf.exported ft] else path
        { st with nextCount := nextCount, next := st.next ++ [{ typ := ft, index := index, path := path }] }
      else { st with nextCount := nextCount }

/-- The body of the loop over the structs of a level, `/repo/struct.go:42-239`. -/
def DState.node (E : StructEnv) (onlyTagged : Bool) (count : Ty → Nat) (st : DState) (f : Embed) : DState :=
  if f.typ ∈ st.visited then st
  else
    let st := { st with visited := f.typ :: st.visited }
    (((E.fieldsOf f.typ).getD []).zipIdx).foldl (DState.field E onlyTagged count f) st

/-- The loop over the levels, `/repo/struct.go:37-240`.  The first argument bounds the number of levels; `none` if it does not
suffice. -/
def describeLevels (E : StructEnv) (onlyTagged : Bool) : Nat → List Embed → (Ty → Nat) → List Ty → List Cand → Option (List Cand)
  | 0, _, _, _, _ => none
  | n + 1, next, nextCount, visited, fields =>
    if next = [] then some fields
    else
      let st := next.foldl (DState.node E onlyTagged nextCount) ⟨visited, fields, fun _ => 0, []⟩
      describeLevels E onlyTagged n st.next st.nextCount st.visited st.fields

/-- `<` of strings. -/
def bytesLt : List Byte → List Byte → Bool
  | _, [] => false
  | [], _ :: _ => true
  | a :: s, b :: t => if a = b then bytesLt s t else a < b

/-- `byIndex.Less`, `/repo/struct_field.go:43-53`. -/
def indexLess : List Nat → List Nat → Bool
  | _ :: _, [] => false
  | [], y => y.length > 0
  | a :: x, b :: y => if a ≠ b then a < b else indexLess x y

/-- The order of `sort.Slice`, `/repo/struct.go:242-257`. -/
def candLess (x y : Cand) : Bool :=
  if x.name ≠ y.name then bytesLt x.name y.name
  else if x.index.length ≠ y.index.length then x.index.length < y.index.length
  else if x.tagged ≠ y.tagged then x.tagged
  else indexLess x.index y.index

/-- `dominantField`, `/repo/struct_field.go:56-64`. -/
def dominantField : List Cand → Option Cand
  | [] => none
  | [x] => some x
  | x :: y :: _ => if x.index.length = y.index.length ∧ x.tagged = y.tagged then none else some x

/-- The loop over the names, `/repo/struct.go:265-286`; the first argument bounds the number of rounds. -/
def pickFields : Nat → List Cand → List Cand
  | 0, _ => []
  | _, [] => []
  | n + 1, fi :: rest =>
    let same := rest.takeWhile fun fj => fj.name = fi.name
    let after := rest.dropWhile fun fj => fj.name = fi.name
    if same = [] then fi :: pickFields n after
    else
      match dominantField (fi :: same) with
      | some d => d :: pickFields n after
      | none => pickFields n after

/-- Insertion into a sorted list. -/
def insertBy {A : Type} (less : A → A → Bool) (x : A) : List A → List A
  | [] => [x]
  | y :: ys => if less y x then y :: insertBy less x ys else x :: y :: ys

/-- `sort.Slice` and `sort.Sort`. -/
def sortBy {A : Type} (less : A → A → Bool) : List A → List A
  | [] => []
  | x :: xs => insertBy less x (sortBy less xs)

/-- `describeStruct`, `/repo/struct.go:13-301`.  Go uses another algorithm to sort, but as elements that the orders do not
distinguish are equal, the result is the same. -/
def describeStruct (E : StructEnv) (onlyTagged : Bool) (st : Ty) : Option (List Cand) :=
  match describeLevels E onlyTagged (E.all.length + 2) [⟨st, [], []⟩] (fun _ => 0) [] [] with
  | none => none
  | some fields =>
    let fields := sortBy candLess fields
    let out := pickFields fields.length fields
    some (sortBy (fun x y => indexLess x.index y.index) out)

end Jzon
