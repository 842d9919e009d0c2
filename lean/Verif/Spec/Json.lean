import Verif.Basic

/-!
# Specification: JSON texts (RFC 8259) and what they denote

Independent of the model of the code.  Texts are byte strings; as in the code, bytes above 0x7F inside strings are
not required to be valid UTF-8.
-/

namespace Spec

open Jzon (Byte)

/-- `ws = *( %x20 / %x09 / %x0A / %x0D )` -/
def Ws (l : List Byte) : Prop := ∀ c ∈ l, c = 0x20 ∨ c = 0x09 ∨ c = 0x0A ∨ c = 0x0D

def Digit (c : Byte) : Prop := 0x30 ≤ c ∧ c ≤ 0x39

instance (c : Byte) : Decidable (Digit c) := by unfold Digit; infer_instance

/-- `1*DIGIT` -/
def Digits (l : List Byte) : Prop := l ≠ [] ∧ ∀ c ∈ l, Digit c

/-- `int = zero / ( digit1-9 *DIGIT )` -/
inductive IntPart : List Byte → Prop
  | zero : IntPart [0x30]
  | pos (d : Byte) (ds : List Byte) (hd : 0x31 ≤ d ∧ d ≤ 0x39) (hds : ∀ c ∈ ds, Digit c) : IntPart (d :: ds)

/-- `[ frac ]`, `frac = decimal-point 1*DIGIT` -/
inductive FracPart : List Byte → Prop
  | none : FracPart []
  | some (ds : List Byte) (h : Digits ds) : FracPart (0x2E :: ds)

/-- `[ exp ]`, `exp = e [ minus / plus ] 1*DIGIT` -/
inductive ExpPart : List Byte → Prop
  | none : ExpPart []
  | some (e : Byte) (sign ds : List Byte) (he : e = 0x65 ∨ e = 0x45)
      (hs : sign = [] ∨ sign = [0x2B] ∨ sign = [0x2D]) (h : Digits ds) : ExpPart (e :: (sign ++ ds))

/-- `int [ frac ] [ exp ]` -/
def Unsigned (l : List Byte) : Prop :=
  ∃ i f e, l = i ++ (f ++ e) ∧ IntPart i ∧ FracPart f ∧ ExpPart e

/-- `number = [ minus ] int [ frac ] [ exp ]` -/
def Number (l : List Byte) : Prop := Unsigned l ∨ ∃ u, l = 0x2D :: u ∧ Unsigned u

/-- The literal `t`, followed by the input `r`, is complete: no number literal begins with `t` and the next byte
of `r`. -/
def Final (t r : List Byte) : Prop := ∀ c r', r = c :: r' → ∀ s, ¬ Number (t ++ c :: s)

/-- Value of a hexadecimal digit. -/
def hexDigit (c : Byte) : Option Nat :=
  if 0x30 ≤ c ∧ c ≤ 0x39 then some (c.toNat - 0x30)
  else if 0x41 ≤ c ∧ c ≤ 0x46 then some (c.toNat - 0x41 + 10)
  else if 0x61 ≤ c ∧ c ≤ 0x66 then some (c.toNat - 0x61 + 10)
  else none

/-- Meaning of a two-character escape `\c`. -/
def shortEscape (c : Byte) : Option Byte :=
  match c with
  | 0x22 => some 0x22  -- quotation mark
  | 0x5C => some 0x5C  -- reverse solidus
  | 0x2F => some 0x2F  -- solidus
  | 0x62 => some 0x08  -- b
  | 0x66 => some 0x0C  -- f
  | 0x6E => some 0x0A  -- n
  | 0x72 => some 0x0D  -- r
  | 0x74 => some 0x09  -- t
  | _ => none

/-- One `char` of a string: an unescaped byte, a short escape, or `\uXXXX` with its four digits. -/
inductive Chr where
  | raw (c : Byte)
  | esc (c : Byte)
  | uni (a b c d : Byte)
  deriving DecidableEq, Repr

/-- The bytes of a `char`. -/
def Chr.text : Chr → List Byte
  | .raw c => [c]
  | .esc c => [0x5C, c]
  | .uni a b c d => [0x5C, 0x75, a, b, c, d]

/-- Which `char`s are legal. -/
def Chr.Ok : Chr → Prop
  | .raw c => 0x20 ≤ c ∧ c ≠ 0x22 ∧ c ≠ 0x5C
  | .esc c => (shortEscape c).isSome
  | .uni a b c d => (hexDigit a).isSome ∧ (hexDigit b).isSome ∧ (hexDigit c).isSome ∧ (hexDigit d).isSome

/-- The UTF-16 code unit of `\uXXXX`. -/
def codeUnit (a b c d : Byte) : Nat :=
  (((hexDigit a).getD 0 * 16 + (hexDigit b).getD 0) * 16 + (hexDigit c).getD 0) * 16 + (hexDigit d).getD 0

/-- UTF-8 of a scalar value (RFC 3629). -/
def utf8 (n : Nat) : List Byte :=
  if n < 0x80 then [UInt8.ofNat n]
  else if n < 0x800 then [UInt8.ofNat (0xC0 + n / 0x40), UInt8.ofNat (0x80 + n % 0x40)]
  else if n < 0x10000 then
    [UInt8.ofNat (0xE0 + n / 0x1000), UInt8.ofNat (0x80 + n / 0x40 % 0x40), UInt8.ofNat (0x80 + n % 0x40)]
  else
    [UInt8.ofNat (0xF0 + n / 0x40000), UInt8.ofNat (0x80 + n / 0x1000 % 0x40),
      UInt8.ofNat (0x80 + n / 0x40 % 0x40), UInt8.ofNat (0x80 + n % 0x40)]

def isHigh (n : Nat) : Bool := 0xD800 ≤ n && n ≤ 0xDBFF
def isLow (n : Nat) : Bool := 0xDC00 ≤ n && n ≤ 0xDFFF

/-- U+FFFD in UTF-8, the replacement of an unpaired surrogate. -/
def replacement : List Byte := [0xEF, 0xBF, 0xBD]

/-- The bytes a sequence of `char`s denotes: a high surrogate directly followed by a low surrogate is one
character, every other surrogate is replaced by U+FFFD. -/
def decodeChrs : List Chr → List Byte
  | [] => []
  | .raw c :: t => c :: decodeChrs t
  | .esc c :: t => (shortEscape c).getD 0 :: decodeChrs t
  | .uni a b c d :: .uni a' b' c' d' :: t =>
    let hi := codeUnit a b c d
    let lo := codeUnit a' b' c' d'
    if isHigh hi && isLow lo then utf8 (0x10000 + (hi - 0xD800) * 0x400 + (lo - 0xDC00)) ++ decodeChrs t
    else if isHigh hi || isLow hi then replacement ++ decodeChrs (.uni a' b' c' d' :: t)
    else utf8 hi ++ decodeChrs (.uni a' b' c' d' :: t)
  | .uni a b c d :: t =>
    let hi := codeUnit a b c d
    if isHigh hi || isLow hi then replacement ++ decodeChrs t
    else utf8 hi ++ decodeChrs t

/-- `l` is the part of a string between its quotation marks, denoting the bytes `s`. -/
def StrBody (l s : List Byte) : Prop :=
  ∃ cs : List Chr, (∀ c ∈ cs, c.Ok) ∧ l = cs.flatMap Chr.text ∧ s = decodeChrs cs

/-- `string = quotation-mark *char quotation-mark`, with the denoted bytes. -/
def Str (l s : List Byte) : Prop := ∃ b, StrBody b s ∧ l = 0x22 :: (b ++ [0x22])

/-- JSON values; numbers are kept as their literal. -/
inductive JVal where
  | null
  | bool (b : Bool)
  | num (lit : List Byte)
  | str (s : List Byte)
  | arr (l : List JVal)
  | obj (l : List (List Byte × JVal))

mutual
/-- `Value t v`: the text `t` is a JSON value (without surrounding white space) and denotes `v`. -/
inductive Value : List Byte → JVal → Prop
  | null : Value [0x6E, 0x75, 0x6C, 0x6C] .null
  | true : Value [0x74, 0x72, 0x75, 0x65] (.bool true)
  | false : Value [0x66, 0x61, 0x6C, 0x73, 0x65] (.bool false)
  | num (l : List Byte) (h : Number l) : Value l (.num l)
  | str (l s : List Byte) (h : Str l s) : Value l (.str s)
  | arrEmpty (w : List Byte) (hw : Ws w) : Value (0x5B :: (w ++ [0x5D])) (.arr [])
  | arr (l : List Byte) (vs : List JVal) (h : Elems l vs) : Value (0x5B :: (l ++ [0x5D])) (.arr vs)
  | objEmpty (w : List Byte) (hw : Ws w) : Value (0x7B :: (w ++ [0x7D])) (.obj [])
  | obj (l : List Byte) (ms : List (List Byte × JVal)) (h : Members l ms) : Value (0x7B :: (l ++ [0x7D])) (.obj ms)
/-- A non-empty list of values separated by commas. -/
inductive Elems : List Byte → List JVal → Prop
  | one (w1 t w2 : List Byte) (v : JVal) (h1 : Ws w1) (h : Value t v) (h2 : Ws w2) :
      Elems (w1 ++ (t ++ w2)) [v]
  | cons (w1 t w2 r : List Byte) (v : JVal) (vs : List JVal) (h1 : Ws w1) (h : Value t v) (h2 : Ws w2)
      (hr : Elems r vs) : Elems (w1 ++ (t ++ (w2 ++ 0x2C :: r))) (v :: vs)
/-- A non-empty list of members `string : value` separated by commas. -/
inductive Members : List Byte → List (List Byte × JVal) → Prop
  | single (w1 k w2 w3 t w4 : List Byte) (key : List Byte) (v : JVal) (h1 : Ws w1) (hk : Str k key) (h2 : Ws w2)
      (h3 : Ws w3) (h : Value t v) (h4 : Ws w4) :
      Members (w1 ++ (k ++ (w2 ++ 0x3A :: (w3 ++ (t ++ w4))))) [(key, v)]
  | more (w1 k w2 w3 t w4 r : List Byte) (key : List Byte) (v : JVal) (ms : List (List Byte × JVal)) (h1 : Ws w1)
      (hk : Str k key) (h2 : Ws w2) (h3 : Ws w3) (h : Value t v) (h4 : Ws w4) (hr : Members r ms) :
      Members (w1 ++ (k ++ (w2 ++ 0x3A :: (w3 ++ (t ++ (w4 ++ 0x2C :: r)))))) ((key, v) :: ms)
end

/-- `JSON-text = ws value ws`. -/
def Text (l : List Byte) (v : JVal) : Prop :=
  ∃ w1 t w2, l = w1 ++ (t ++ w2) ∧ Ws w1 ∧ Value t v ∧ Ws w2

/-- `l` is a JSON text. -/
def IsJson (l : List Byte) : Prop := ∃ v, Text l v

end Spec
