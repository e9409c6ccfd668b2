import Verif.Model.Xof
import Mathlib.Data.Set.Card

/-!
# Specification vocabulary for the XOF properties
-/

namespace Vdaf.Spec

/-- Call `next(n)` for each `n` of a list of lengths; all the outputs and the final state. -/
def readAll (X : Xof) : X.State → List Nat → Res (List Bytes × X.State)
  | st, [] => .ok ([], st)
  | st, n :: ns =>
    match X.next st n with
    | .error e => .error e
    | .ok (b, st) =>
      match readAll X st ns with
      | .error e => .error e
      | .ok (bs, st) => .ok (b :: bs, st)

/-- The first `n` bytes of an infinite stream. -/
def firstBytes (s : Nat → UInt8) (n : Nat) : Bytes := (List.range n).map s

/-- The exclusive or of two byte strings of the same length, byte by byte. -/
def xorBytes (a b : Bytes) : Bytes := (List.range a.length).map fun i => a.getD i 0 ^^^ b.getD i 0

/-- `sigma(x)` of [GKWWY20]: the halves `lo || hi` become `hi || (hi xor lo)`. -/
def sigma (block : Bytes) : Bytes :=
  block.drop 8 ++ xorBytes (block.drop 8) (block.take 8)

/-- Byte `i` of the output of `XofFixedKeyAes128`: block `i / 16` is
`AES(key, s) xor s` with `s = sigma(seed xor (i / 16 in little-endian))`. -/
def aesByte (P : Prims) (key seed : Bytes) (i : Nat) : UInt8 :=
  let s := sigma (xorBytes seed (natToLe (i / 16) 16))
  (P.aes key s).getD (i % 16) 0 ^^^ s.getD (i % 16) 0

/-- What rejection sampling makes of one chunk of `ENCODED_SIZE` bytes: the integer is reduced
modulo the least power of two that is at least `MODULUS`, and dropped if it is not below
`MODULUS`. -/
def sample (F : Type) [PyField F] (chunk : Bytes) : Option F :=
  let x := fromLeBytes chunk % 2 ^ Nat.size (PyField.modulus F - 1)
  if x < PyField.modulus F then some (x : F) else none

end Vdaf.Spec
