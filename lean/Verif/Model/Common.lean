import Verif.Py
import Mathlib.Data.Nat.Digits.Defs
import Mathlib.Data.Nat.Size

/-!
# Model of `poc/vdaf_poc/common.py`
-/

namespace Vdaf

/-- common.py:8 -/
def VERSION : Nat := 18

/-- common.py:27-31 `assert_power_of_2`.  `math.log2` is a float logarithm that is exact at
powers of two; the final comparison `n == 1 << log_n` is exact, so the function returns
`log2 n` iff `n` is a power of two.  `math.log2(0)` raises `ValueError`. Arguments are
never negative in the code base. -/
def assertPowerOf2 (n : Nat) : Res Nat :=
  if n = 0 then .error (.value "math domain error")
  else if n = 2 ^ (Nat.log2 n) then .ok (Nat.log2 n)
  else .error (.assertion "n must be a power of 2.")

/-- common.py:34-37 `next_power_of_2`.  `int.bit_length` is `Nat.size`. -/
def nextPowerOf2 (n : Nat) : Res Nat :=
  if n > 0 then .ok (2 ^ Nat.size (n - 1)) else .error (.assertion "")

/-- `bin(n)[2:][::-1]` as a list of bits, least significant first; `bin(0) = '0b0'`. -/
def binRev (n : Nat) : List Nat :=
  if n = 0 then [0] else Nat.digits 2 n

/-- `int(s, 2)` for a string of bits, most significant first. -/
def parseBin (s : List Nat) : Nat :=
  s.foldl (fun acc d => acc * 2 + d) 0

/-- common.py:40-46 `bitrev` -/
def bitrev (k n : Nat) : Res Nat :=
  let maxnum := 2 ^ k
  if n < maxnum then
    let rev := binRev n
    let padded := rev ++ List.replicate (k - rev.length) 0
    .ok (parseBin padded)
  else .error (.assertion "out of range")

/-- common.py:49-51 `zeros` -/
def zeros (length : Nat) : Bytes := List.replicate length 0

/-- common.py:59-61 `byte`: `int.to_bytes` raises `OverflowError` when out of range. -/
def byte (number : Nat) : Res Bytes :=
  if number < 256 then .ok [UInt8.ofNat number] else .error .overflow

/-- common.py:64-66 `xor` (truncates to the shorter input, like `zip`). -/
def xor (left right : Bytes) : Bytes :=
  List.zipWith (fun x y => x ^^^ y) left right

section
variable {F : Type} [Add F] [Sub F] [Neg F]

/-- common.py:74-80 `vec_sub` -/
def vecSub (left right : List F) : Res (List F) :=
  if left.length ≠ right.length then .error (.value "mismatched vector sizes")
  else .ok (List.zipWith (fun x y => x - y) left right)

/-- common.py:83-87 `vec_add` -/
def vecAdd (left right : List F) : Res (List F) :=
  if left.length ≠ right.length then .error (.value "mismatched vector sizes")
  else .ok (List.zipWith (fun x y => x + y) left right)

/-- common.py:90-92 `vec_neg` -/
def vecNeg (vec : List F) : List F := vec.map (fun x => -x)
end

/-- `val.to_bytes(length, byteorder='little')` for `val` in range. -/
def natToLe : Nat → Nat → Bytes
  | _, 0 => []
  | v, len + 1 => UInt8.ofNat (v % 256) :: natToLe (v / 256) len

/-- `int.from_bytes(encoded, byteorder='little')` -/
def natOfLe : Bytes → Nat
  | [] => 0
  | b :: bs => b.toNat + 256 * natOfLe bs

/-- common.py:95-104 `to_le_bytes` -/
def toLeBytes (val : Int) (length : Nat) : Res Bytes :=
  if val < 0 ∨ val ≥ 2 ^ (8 * length) then .error (.value "bad to_le_bytes call")
  else .ok (natToLe val.toNat length)

/-- common.py:107-109 `from_le_bytes` -/
def fromLeBytes (encoded : Bytes) : Nat := natOfLe encoded

/-- common.py:112-121 `to_be_bytes` -/
def toBeBytes (val : Int) (length : Nat) : Res Bytes :=
  if val < 0 ∨ val ≥ 2 ^ (8 * length) then .error (.value "bad to_be_bytes call")
  else .ok (natToLe val.toNat length).reverse

/-- common.py:124-126 `from_be_bytes` -/
def fromBeBytes (encoded : Bytes) : Nat := natOfLe encoded.reverse

/-- common.py:129-131 `concat` -/
def concat (parts : List Bytes) : Bytes := parts.flatten

/-- common.py:147-157 `front` -/
def front {α : Type} (length : Nat) (vec : List α) : Res (List α × List α) :=
  if length ≤ vec.length then .ok (vec.take length, vec.drop length)
  else .error (.assertion "front")

/-- common.py:163-180 `format_dst` -/
def formatDst (algoClass algo usage : Nat) : Res Bytes := do
  let v ← toBeBytes VERSION 1
  let c ← toBeBytes algoClass 1
  let a ← toBeBytes algo 4
  let u ← toBeBytes usage 2
  return concat [v, c, a, u]

end Vdaf
