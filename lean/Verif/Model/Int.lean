import Verif.Model.Num

/-!
# Reading integers

Model of `/repo/iterator_int.go`, `/repo/iterator_int8.go`, `/repo/iterator_int16.go`, `/repo/iterator_int32.go`,
`/repo/iterator_int64.go`.  The last three are the same code with other constants; machine integers are bit vectors.
-/

namespace Jzon

/-- The constants of the three files for `w` bits, for example `/repo/iterator_int16.go:9-13`. -/
def maxDiv10 (w : Nat) : BitVec w := BitVec.ofNat w ((2 ^ w - 1) / 10)
def maxMod10 (w : Nat) : Nat := (2 ^ w - 1) - (2 ^ w - 1) / 10 * 10

/-- Loop body of `readUint16` (32, 64), `/repo/iterator_int16.go:38-54`; the state is `ret` and `numDigit`, `k` is
`maxUint16Div10NumDigits`.  (On overflow the Go code also moves `it.head` to the offending digit.) -/
def uintBody (w k : Nat) (s : BitVec w × Nat) (c : Byte) : Act (BitVec w × Nat) (BitVec w) :=
  match intDigit c with
  | none => .stop s.1
  | some digit =>
    if s.2 ≥ k ∧ (s.1.toNat > (maxDiv10 w).toNat ∨ (s.1 = maxDiv10 w ∧ digit > maxMod10 w)) then .err (.intOverflow [] none)
    else .cont ((s.1 <<< 3) + (s.1 <<< 1) + BitVec.ofNat w digit, s.2 + 1)

/-- `readUint16` (32, 64), `/repo/iterator_int16.go:25-63`, called behind the first byte `c`. -/
def readUint (w k : Nat) (c : Byte) : Prog (BitVec w) :=
  match intDigit c with
  | none => .throw (.invalidDigit c)
  | some 0 => pure 0
  | some u => scan (uintBody w k) (fun s => .ok s.1) (BitVec.ofNat w u, 1)

/-- `readInt16` (32, 64), `/repo/iterator_int16.go:65-93`, given the unsigned reader; also `readInt8`,
`/repo/iterator_int8.go:66-94`. -/
def readInt (w : Nat) (typ : List Byte) (uint : Byte → Prog (BitVec w)) (c : Byte) : Prog (BitVec w) :=
  if c = b! '-' then do
    let c ← nextByteTake
    let v ← uint c
    if v.toNat > 2 ^ (w - 1) - 1 + 1 then .throw (.intOverflow typ (some (-(v.toNat : Int))))
    else pure (-v)
  else do
    let v ← uint c
    if v.toNat > 2 ^ (w - 1) - 1 then .throw (.intOverflow typ (some v.toNat))
    else pure v

/-- `ReadUint16`, `/repo/iterator_int16.go:16-23`. -/
def ReadUint16 : Prog (BitVec 16) := do readUint 16 4 (← nextTokenTake)
/-- `ReadUint32`, `/repo/iterator_int32.go:16-23`. -/
def ReadUint32 : Prog (BitVec 32) := do readUint 32 9 (← nextTokenTake)
/-- `ReadUint64`, `/repo/iterator_int64.go:16-23`. -/
def ReadUint64 : Prog (BitVec 64) := do readUint 64 19 (← nextTokenTake)
/-- `ReadInt16`, `/repo/iterator_int16.go:97-104`. -/
def ReadInt16 : Prog (BitVec 16) := do readInt 16 (bs! "int16") (readUint 16 4) (← nextTokenTake)
/-- `ReadInt32`, `/repo/iterator_int32.go:97-104`. -/
def ReadInt32 : Prog (BitVec 32) := do readInt 32 (bs! "int32") (readUint 32 9) (← nextTokenTake)
/-- `ReadInt64`, `/repo/iterator_int64.go:98-105`. -/
def ReadInt64 : Prog (BitVec 64) := do readInt 64 (bs! "int64") (readUint 64 19) (← nextTokenTake)

/-- `ReadInt`, `/repo/iterator_int.go:25-32`, on platforms with 64-bit `int`. -/
def ReadInt : Prog (BitVec 64) := ReadInt64
/-- `ReadUint`, `/repo/iterator_int.go:35-42`, on platforms with 64-bit `uint`. -/
def ReadUint : Prog (BitVec 64) := ReadUint64

/-- `maxUint8Div10` and `maxUint8Mod10`, `/repo/iterator_int8.go:9-12`. -/
def uint8Overflow (ret : BitVec 8) (u : Nat) : Bool := ret.toNat > 25 || (ret == 25 && decide (u > 5))

/-- `readUint8`, `/repo/iterator_int8.go:24-67`, called behind the first byte `c`: three digits at most. -/
def readUint8 (c : Byte) : Prog (BitVec 8) :=
  match intDigit c with
  | some 0 => pure 0
  | none => .throw (.invalidDigit c)
  | some u => do
    let ret := BitVec.ofNat 8 u
    match ← byteEOF (fun c => intDigit c ≠ none) with
    | none => pure ret
    | some c2 =>
      match intDigit c2 with
      | none => pure ret
      | some u => do
        let ret := (ret <<< 3) + (ret <<< 1) + BitVec.ofNat 8 u
        match ← byteEOF (fun c => intDigit c ≠ none) with
        | none => pure ret
        | some c3 =>
          match intDigit c3 with
          | none => pure ret
          | some u =>
            if uint8Overflow ret u then .throw (.intOverflow [] none)
            else pure ((ret <<< 3) + (ret <<< 1) + BitVec.ofNat 8 u)

/-- `ReadUint8`, `/repo/iterator_int8.go:15-22`. -/
def ReadUint8 : Prog (BitVec 8) := do readUint8 (← nextTokenTake)
/-- `ReadInt8`, `/repo/iterator_int8.go:102-109`. -/
def ReadInt8 : Prog (BitVec 8) := do readInt 8 (bs! "int8") readUint8 (← nextTokenTake)

end Jzon
