import Verif.Spec.Encode
import Verif.Model.Streamer

/-!
# Specification: what a sequence of streamer calls describes
-/

namespace Spec

open Jzon (Byte Call FloatArg)

/-- `-1.5`, `100`, `0.25`: the format `'f'` of `strconv`. -/
def FixedText (t : List Byte) : Prop :=
  ∃ s i f, (s = [] ∨ s = [0x2D]) ∧ IntPart i ∧ FracPart f ∧ t = s ++ (i ++ f)

/-- `1.5e-07`, `1e+21`, `-2e-310`: the format `'e'` of `strconv`, with at least two digits in the exponent, the first of
them a zero only if there are just two. -/
def ExpText (t : List Byte) : Prop :=
  ∃ (s f ds : List Byte) (d sg x y : Byte), (s = [] ∨ s = [0x2D]) ∧ Digit d ∧ FracPart f ∧ (sg = 0x2B ∨ sg = 0x2D) ∧ Digit x ∧
    Digit y ∧ (∀ c ∈ ds, Digit c) ∧ (ds ≠ [] → x ≠ 0x30) ∧ t = s ++ d :: (f ++ 0x65 :: sg :: x :: y :: ds)

/-- What is assumed about the comparisons and about `strconv.AppendFloat`; `small` and `big` say that the absolute value is
less than `1e-6`, at least `1e21`. -/
structure FloatLaws (f : FloatArg) (small big : Bool) : Prop where
  posSmall : f.nonZero → f.pos → f.ltSmall = small
  posBig : f.nonZero → f.pos → f.geBig = big
  negSmall : f.nonZero → ¬ f.pos → f.gtNegSmall = small
  negBig : f.nonZero → ¬ f.pos → f.leNegBig = big
  fixed : FixedText f.fixed
  exponent : ExpText f.exponent

/-- `e-0d` at the end becomes `e-d`. -/
inductive Shortened : List Byte → List Byte → Prop
  | drop (m : List Byte) (d : Byte) (hd : Digit d) : Shortened (m ++ [0x65, 0x2D, 0x30, d]) (m ++ [0x65, 0x2D, d])
  | keep (t : List Byte) (h : ∀ m d, Digit d → t ≠ m ++ [0x65, 0x2D, 0x30, d]) : Shortened t t

/-- The text for a finite float: exponents are used exactly for nonzero numbers of absolute value below `1e-6` or from
`1e21`. -/
def FloatText (f : FloatArg) (small big : Bool) (t : List Byte) : Prop :=
  if f.nonZero && (small || big) then Shortened f.exponent t else t = f.fixed

mutual
/-- `Compact R t v`: `t` is a JSON text for `v` without any white space; texts related to a value by `R` (given by the
caller as raw values) may occur as they are. -/
inductive Compact (R : List Byte → JVal → Prop) : List Byte → JVal → Prop
  | null : Compact R [0x6E, 0x75, 0x6C, 0x6C] .null
  | true : Compact R [0x74, 0x72, 0x75, 0x65] (.bool true)
  | false : Compact R [0x66, 0x61, 0x6C, 0x73, 0x65] (.bool false)
  | num (l : List Byte) (h : Number l) : Compact R l (.num l)
  | str (l s : List Byte) (h : Str l s) : Compact R l (.str s)
  | raw (t : List Byte) (v : JVal) (h : R t v) : Compact R t v
  | arrEmpty : Compact R [0x5B, 0x5D] (.arr [])
  | arr (l : List Byte) (vs : List JVal) (h : CompactElems R l vs) : Compact R (0x5B :: (l ++ [0x5D])) (.arr vs)
  | objEmpty : Compact R [0x7B, 0x7D] (.obj [])
  | obj (l : List Byte) (ms : List (List Byte × JVal)) (h : CompactMembers R l ms) :
      Compact R (0x7B :: (l ++ [0x7D])) (.obj ms)
/-- Values separated by commas. -/
inductive CompactElems (R : List Byte → JVal → Prop) : List Byte → List JVal → Prop
  | one (t : List Byte) (v : JVal) (h : Compact R t v) : CompactElems R t [v]
  | cons (t r : List Byte) (v : JVal) (vs : List JVal) (h : Compact R t v) (hr : CompactElems R r vs) :
      CompactElems R (t ++ 0x2C :: r) (v :: vs)
/-- Members `string:value` separated by commas. -/
inductive CompactMembers (R : List Byte → JVal → Prop) : List Byte → List (List Byte × JVal) → Prop
  | single (k t key : List Byte) (v : JVal) (hk : Str k key) (h : Compact R t v) :
      CompactMembers R (k ++ 0x3A :: t) [(key, v)]
  | more (k t r key : List Byte) (v : JVal) (ms : List (List Byte × JVal)) (hk : Str k key) (h : Compact R t v)
      (hr : CompactMembers R r ms) : CompactMembers R (k ++ 0x3A :: (t ++ 0x2C :: r)) ((key, v) :: ms)
end

/-- The call writes one scalar with the value `v`. -/
inductive Scalars (R : List Byte → JVal → Prop) : Call → JVal → Prop
  | null : Scalars R .null .null
  | bool (b : Bool) : Scalars R (.bool b) (.bool b)
  | int8 (v : BitVec 8) : Scalars R (.int8 v) (.num (decimalInt v.toInt))
  | uint8 (v : BitVec 8) : Scalars R (.uint8 v) (.num (decimal v.toNat))
  | int16 (v : BitVec 16) : Scalars R (.int16 v) (.num (decimalInt v.toInt))
  | uint16 (v : BitVec 16) : Scalars R (.uint16 v) (.num (decimal v.toNat))
  | int32 (v : BitVec 32) : Scalars R (.int32 v) (.num (decimalInt v.toInt))
  | uint32 (v : BitVec 32) : Scalars R (.uint32 v) (.num (decimal v.toNat))
  | int64 (v : BitVec 64) : Scalars R (.int64 v) (.num (decimalInt v.toInt))
  | uint64 (v : BitVec 64) : Scalars R (.uint64 v) (.num (decimal v.toNat))
  | float (f : FloatArg) (small big : Bool) (t : List Byte) (hinf : f.isInf = false) (hnan : f.isNaN = false)
      (hf : FloatLaws f small big) (h : FloatText f small big t) : Scalars R (.float f) (.num t)
  | string (s s' : List Byte) (h : Sanitized s s') : Scalars R (.string s) (.str s')
  | raw (t : List Byte) (v : JVal) (h : R t v) : Scalars R (.raw t) v

/-- The call writes the member name `key`. -/
inductive Name : Call → List Byte → Prop
  | field (s key : List Byte) (h : Sanitized s key) : Name (.field s) key
  | rawField (t key : List Byte) (h : Str t key) : Name (.rawField t) key

mutual
/-- `Describes R cs v`: the calls `cs` are correctly nested and describe the value `v`. -/
inductive Describes (R : List Byte → JVal → Prop) : List Call → JVal → Prop
  | scalar (c : Call) (v : JVal) (h : Scalars R c v) : Describes R [c] v
  | arr (cs : List Call) (vs : List JVal) (h : DescribesElems R cs vs) :
      Describes R (.arrayStart :: (cs ++ [.arrayEnd])) (.arr vs)
  | obj (cs : List Call) (ms : List (List Byte × JVal)) (h : DescribesMembers R cs ms) :
      Describes R (.objectStart :: (cs ++ [.objectEnd])) (.obj ms)
inductive DescribesElems (R : List Byte → JVal → Prop) : List Call → List JVal → Prop
  | none : DescribesElems R [] []
  | elem (cs ds : List Call) (v : JVal) (vs : List JVal) (h : Describes R cs v) (hr : DescribesElems R ds vs) :
      DescribesElems R (cs ++ ds) (v :: vs)
inductive DescribesMembers (R : List Byte → JVal → Prop) : List Call → List (List Byte × JVal) → Prop
  | noMember : DescribesMembers R [] []
  | member (c : Call) (cs ds : List Call) (key : List Byte) (v : JVal) (ms : List (List Byte × JVal)) (hk : Name c key)
      (h : Describes R cs v) (hr : DescribesMembers R ds ms) : DescribesMembers R (c :: (cs ++ ds)) ((key, v) :: ms)
end

end Spec
