import Verif.Model.Encode
import Verif.Model.Str

/-!
# Finding the struct field for an object key

Model of `/repo/struct_field_fold.go`, `/repo/struct_field_upper.go` and of the lookups of the three struct decoders.
The two functions of the Go standard library that contain the Unicode tables are a parameter.
-/

namespace Jzon

/-- What the code uses of `unicode` and `bytes`. -/
structure FoldLib where
  /-- `unicode.SimpleFold` -/
  simpleFold : Nat → Nat
  /-- `bytes.EqualFold` -/
  equalFold : List Byte → List Byte → Bool

/-- `caseMask`, `/repo/struct_field_fold.go:14`. -/
def caseMask : Byte := 0xDF

/-- `kelvin`, `/repo/struct_field_fold.go:15`. -/
def kelvin : Nat := 0x212A
/-- `smallLongEss`, `/repo/struct_field_fold.go:16`. -/
def smallLongEss : Nat := 0x17F

/-- `equalFoldRight`, `/repo/struct_field_fold.go:62-104`. -/
def equalFoldRight : List Byte → List Byte → Bool
  | [], t => t.isEmpty
  | _ :: _, [] => false
  | sb :: s, tb :: t =>
    if tb < 0x80 then
      if sb ≠ tb then
        let sbUpper := sb &&& caseMask
        if b! 'A' ≤ sbUpper ∧ sbUpper ≤ b! 'Z' then
          if sbUpper ≠ tb &&& caseMask then false else equalFoldRight s t
        else false
      else equalFoldRight s t
    else
      let (tr, size) := decodeRune (tb :: t)
      if sb = b! 's' ∨ sb = b! 'S' then
        if tr ≠ smallLongEss then false else equalFoldRight s ((tb :: t).drop size)
      else if sb = b! 'k' ∨ sb = b! 'K' then
        if tr ≠ kelvin then false else equalFoldRight s ((tb :: t).drop size)
      else false

/-- The loop of `asciiEqualFold`, `/repo/struct_field_fold.go:114-126`; the lengths are equal. -/
def asciiEqualFoldLoop : List Byte → List Byte → Bool
  | sb :: s, tb :: t =>
    if sb = tb then asciiEqualFoldLoop s t
    else if (b! 'a' ≤ sb ∧ sb ≤ b! 'z') ∨ (b! 'A' ≤ sb ∧ sb ≤ b! 'Z') then
      if sb &&& caseMask ≠ tb &&& caseMask then false else asciiEqualFoldLoop s t
    else false
  | _, _ => true

/-- `asciiEqualFold`, `/repo/struct_field_fold.go:110-128`. -/
def asciiEqualFold (s t : List Byte) : Bool :=
  if s.length ≠ t.length then false else asciiEqualFoldLoop s t

/-- The loop of `simpleLetterEqualFold`, `/repo/struct_field_fold.go:138-142`. -/
def simpleLetterLoop : List Byte → List Byte → Bool
  | b :: s, tb :: t => if b &&& caseMask ≠ tb &&& caseMask then false else simpleLetterLoop s t
  | _, _ => true

/-- `simpleLetterEqualFold`, `/repo/struct_field_fold.go:134-144`. -/
def simpleLetterEqualFold (s t : List Byte) : Bool :=
  if s.length ≠ t.length then false else simpleLetterLoop s t

/-- The loop of `foldFunc`, `/repo/struct_field_fold.go:37-48`, and the choice after it. -/
def foldFuncLoop (lib : FoldLib) : Bool → Bool → List Byte → List Byte → List Byte → Bool
  | nonLetter, special, [] =>
    if special then equalFoldRight else if nonLetter then asciiEqualFold else simpleLetterEqualFold
  | nonLetter, special, b :: s =>
    if b ≥ 0x80 then lib.equalFold
    else
      let upper := b &&& caseMask
      if upper < b! 'A' ∨ upper > b! 'Z' then foldFuncLoop lib true special s
      else if upper = b! 'K' ∨ upper = b! 'S' then foldFuncLoop lib nonLetter true s
      else foldFuncLoop lib nonLetter special s

/-- `foldFunc`, `/repo/struct_field_fold.go:34-56`. -/
def foldFunc (lib : FoldLib) (s : List Byte) : List Byte → List Byte → Bool := foldFuncLoop lib false false s

/-- The inner loop of `toUpper`, `/repo/struct_field_upper.go:13-15`; `none` if it does not end. -/
def foldDown (lib : FoldLib) (r : Nat) : Nat → Nat → Option Nat
  | 0, _ => none
  | n + 1, fr => if fr > r then foldDown lib r n (lib.simpleFold fr) else some fr

/-- The loop of `toUpper`, `/repo/struct_field_upper.go:10-18`; `inp` is `in[i:]`. -/
def toUpperLoop (lib : FoldLib) : Nat → List Byte → List Byte → Option (List Byte)
  | 0, inp, out => if inp = [] then some out else none
  | n + 1, inp, out =>
    if inp = [] then some out
    else
      let (r, size) := decodeRune inp
      match foldDown lib r 0x110000 (lib.simpleFold r) with
      | none => none
      | some fr => toUpperLoop lib n (inp.drop size) (appendRune out fr)

/-- `toUpper`, `/repo/struct_field_upper.go:8-20`. -/
def toUpper (lib : FoldLib) (inp out : List Byte) : Option (List Byte) := toUpperLoop lib inp.length inp out

/-- The two maps of `decoderFields`, `/repo/val_decoder_native_struct.go:43-47`, and `len(df.list)`. -/
structure FieldIndex where
  nameIndex : List Byte → Option Nat
  nameIndexUpper : List Byte → Option Nat
  len : Nat

/-- `decoderFields.add`, `/repo/val_decoder_native_struct.go:55-65`, with the upper case name computed as in
`/repo/struct.go:158`. -/
def FieldIndex.add (lib : FoldLib) (df : FieldIndex) (name : List Byte) : Option FieldIndex :=
  match toUpper lib name [] with
  | none => none
  | some nameUpper =>
    some {
      nameIndex := fun k => if k = name then some df.len else df.nameIndex k
      nameIndexUpper :=
        if df.nameIndexUpper nameUpper = none then
          fun k => if k = nameUpper then some df.len else df.nameIndexUpper k
        else df.nameIndexUpper
      len := df.len + 1 }

/-- The loop of `build`, `/repo/val_decoder_native_struct.go:19-26`. -/
def FieldIndex.addAll (lib : FoldLib) : List (List Byte) → FieldIndex → Option FieldIndex
  | [], df => some df
  | name :: names, df =>
    match df.add lib name with
    | none => none
    | some df => FieldIndex.addAll lib names df

/-- `structDecoder.build`, `/repo/val_decoder_native_struct.go:19-26`. -/
def FieldIndex.build (lib : FoldLib) (names : List (List Byte)) : Option FieldIndex :=
  FieldIndex.addAll lib names ⟨fun _ => none, fun _ => none, 0⟩

/-- `decoderFields.find`, `/repo/val_decoder_native_struct.go:68-93`, called with the same slice as key and buffer.  The
second loop of that function is unreachable. -/
def FieldIndex.find (lib : FoldLib) (df : FieldIndex) (key : List Byte) (caseSensitive : Bool) : Except Err (Option Nat) :=
  match df.nameIndex key with
  | some i => .ok (some i)
  | none =>
    if caseSensitive then .ok none
    else
      match toUpper lib key key with
      | none => .error .hang
      | some upper => .ok (df.nameIndexUpper (upper.drop key.length))

/-- `smallStructDecoder.find`, `/repo/val_decoder_native_struct_small.go:36-53`. -/
def smallFind (lib : FoldLib) (names : List (List Byte)) (key : List Byte) (caseSensitive : Bool) : Option Nat :=
  match names.findIdx? (fun name => name == key) with
  | some i => some i
  | none =>
    if caseSensitive then none else names.findIdx? (fun name => foldFunc lib name name key)

/-- The test of the one-field decoder, `/repo/val_decoder_native_struct_one_field.go:14-19` and `67`. -/
def oneFieldMatch (lib : FoldLib) (name key : List Byte) (caseSensitive : Bool) : Bool :=
  if caseSensitive then key == name else foldFunc lib name key name

/-- Which field a key selects, depending on the number of fields, `/repo/decoder_config.go:187-212`. -/
def findField (lib : FoldLib) (caseSensitive : Bool) (names : List (List Byte)) (key : List Byte) :
    Except Err (Option Nat) :=
  match names with
  | [] => .ok none
  | [name] => .ok (if oneFieldMatch lib name key caseSensitive then some 0 else none)
  | _ =>
    if names.length ≤ 10 then .ok (smallFind lib names key caseSensitive)
    else
      match FieldIndex.build lib names with
      | none => .error .hang
      | some df => df.find lib key caseSensitive

end Jzon
