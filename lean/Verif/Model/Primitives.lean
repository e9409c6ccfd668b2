import Verif.Model.Xof

/-!
# TurboSHAKE128 and AES-128

Executable definitions of the two primitives that xof.py takes from pycryptodome (xof.py:8-9), written from
RFC 9861 and FIPS 197.  They are not part of the repository.  The theorems hold for arbitrary `Prims`; this instance is
only used to run the model on the test vectors of the repository (`Verif/Vectors`).
-/

namespace Vdaf
namespace Primitives

/-! ### TurboSHAKE128 (RFC 9861, Section 2) -/

def rotl (x : UInt64) (n : Nat) : UInt64 :=
  if n = 0 then x else (x <<< UInt64.ofNat n) ||| (x >>> UInt64.ofNat (64 - n))

/-- The round constants of the last 12 rounds of Keccak-f[1600] -/
def roundConstants : List UInt64 :=
  [0x000000008000808B, 0x800000000000008B, 0x8000000000008089, 0x8000000000008003,
   0x8000000000008002, 0x8000000000000080, 0x000000000000800A, 0x800000008000000A,
   0x8000000080008081, 0x8000000000008080, 0x0000000080000001, 0x8000000080008008]

/-- The rotation offsets, indexed by `x + 5 * y` -/
def rotations : List Nat :=
  [0, 1, 62, 28, 27, 36, 44, 6, 55, 20, 3, 10, 43, 25, 39, 41, 45, 15, 21, 8, 18, 2, 61, 56, 14]

/-- Lane `x + 5 * y` of a state -/
def lane (a : Array UInt64) (x y : Nat) : UInt64 := a.getD (x % 5 + 5 * (y % 5)) 0

/-- One round of Keccak-p[1600] -/
def keccakRound (a : Array UInt64) (rc : UInt64) : Array UInt64 :=
  -- theta
  let c := (Array.range 5).map fun x => lane a x 0 ^^^ lane a x 1 ^^^ lane a x 2 ^^^ lane a x 3 ^^^ lane a x 4
  let d := (Array.range 5).map fun x => c.getD ((x + 4) % 5) 0 ^^^ rotl (c.getD ((x + 1) % 5) 0) 1
  let a := (Array.range 25).map fun i => a.getD i 0 ^^^ d.getD (i % 5) 0
  -- rho and pi: lane (x, y) moves to (y, 2x + 3y), so that (X, Y) comes from (X + 3Y, X)
  let b := (Array.range 25).map fun i =>
    let j := (i % 5 + 3 * (i / 5)) % 5 + 5 * (i % 5)
    rotl (a.getD j 0) (rotations.getD j 0)
  -- chi
  let e := (Array.range 25).map fun i =>
    lane b i (i / 5) ^^^ ((~~~ (lane b (i % 5 + 1) (i / 5))) &&& lane b (i % 5 + 2) (i / 5))
  -- iota
  e.set! 0 (e.getD 0 0 ^^^ rc)

/-- Keccak-p[1600, 12] -/
def keccakP (a : Array UInt64) : Array UInt64 := roundConstants.foldl keccakRound a

/-- Little-endian lane from 8 bytes -/
def toLane (b : Bytes) : UInt64 :=
  b.foldr (fun x acc => (acc <<< 8) ||| x.toUInt64) 0

def xorBlock (a : Array UInt64) (block : Bytes) : Array UInt64 :=
  (Array.range 25).map fun i => a.getD i 0 ^^^ toLane ((block.drop (8 * i)).take 8)

/-- The rate in bytes -/
def rate : Nat := 168

def absorb (a : Array UInt64) : List Bytes → Array UInt64
  | [] => a
  | block :: t => absorb (keccakP (xorBlock a block)) t

/-- The padded message: the domain byte, zeros up to a multiple of the rate, and the last bit set. -/
def pad (m : Bytes) (d : Nat) : Bytes :=
  let m := m ++ [UInt8.ofNat d]
  let m := m ++ List.replicate ((rate - m.length % rate) % rate) 0
  m.dropLast ++ [m.getLastD 0 ^^^ 0x80]

def blocks (m : Bytes) : List Bytes :=
  (List.range (m.length / rate)).map fun i => (m.drop (rate * i)).take rate

/-- The state after absorbing `m` and squeezing `k` blocks -/
def sponge (m : Bytes) (d k : Nat) : Array UInt64 :=
  (List.range k).foldl (fun a _ => keccakP a) (absorb (Array.replicate 25 0) (blocks (pad m d)))

/-- Byte `i` of the output stream of TurboSHAKE128 for the message `m` and the domain `d` -/
def turboShake128 (m : Bytes) (d i : Nat) : UInt8 :=
  let a := sponge m d (i / rate)
  let j := i % rate
  ((a.getD (j / 8) 0) >>> UInt64.ofNat (8 * (j % 8))).toUInt8

/-! ### AES-128 (FIPS 197) -/

def sbox : Array UInt8 := #[
  0x63, 0x7c, 0x77, 0x7b, 0xf2, 0x6b, 0x6f, 0xc5, 0x30, 0x01, 0x67, 0x2b, 0xfe, 0xd7, 0xab, 0x76,
  0xca, 0x82, 0xc9, 0x7d, 0xfa, 0x59, 0x47, 0xf0, 0xad, 0xd4, 0xa2, 0xaf, 0x9c, 0xa4, 0x72, 0xc0,
  0xb7, 0xfd, 0x93, 0x26, 0x36, 0x3f, 0xf7, 0xcc, 0x34, 0xa5, 0xe5, 0xf1, 0x71, 0xd8, 0x31, 0x15,
  0x04, 0xc7, 0x23, 0xc3, 0x18, 0x96, 0x05, 0x9a, 0x07, 0x12, 0x80, 0xe2, 0xeb, 0x27, 0xb2, 0x75,
  0x09, 0x83, 0x2c, 0x1a, 0x1b, 0x6e, 0x5a, 0xa0, 0x52, 0x3b, 0xd6, 0xb3, 0x29, 0xe3, 0x2f, 0x84,
  0x53, 0xd1, 0x00, 0xed, 0x20, 0xfc, 0xb1, 0x5b, 0x6a, 0xcb, 0xbe, 0x39, 0x4a, 0x4c, 0x58, 0xcf,
  0xd0, 0xef, 0xaa, 0xfb, 0x43, 0x4d, 0x33, 0x85, 0x45, 0xf9, 0x02, 0x7f, 0x50, 0x3c, 0x9f, 0xa8,
  0x51, 0xa3, 0x40, 0x8f, 0x92, 0x9d, 0x38, 0xf5, 0xbc, 0xb6, 0xda, 0x21, 0x10, 0xff, 0xf3, 0xd2,
  0xcd, 0x0c, 0x13, 0xec, 0x5f, 0x97, 0x44, 0x17, 0xc4, 0xa7, 0x7e, 0x3d, 0x64, 0x5d, 0x19, 0x73,
  0x60, 0x81, 0x4f, 0xdc, 0x22, 0x2a, 0x90, 0x88, 0x46, 0xee, 0xb8, 0x14, 0xde, 0x5e, 0x0b, 0xdb,
  0xe0, 0x32, 0x3a, 0x0a, 0x49, 0x06, 0x24, 0x5c, 0xc2, 0xd3, 0xac, 0x62, 0x91, 0x95, 0xe4, 0x79,
  0xe7, 0xc8, 0x37, 0x6d, 0x8d, 0xd5, 0x4e, 0xa9, 0x6c, 0x56, 0xf4, 0xea, 0x65, 0x7a, 0xae, 0x08,
  0xba, 0x78, 0x25, 0x2e, 0x1c, 0xa6, 0xb4, 0xc6, 0xe8, 0xdd, 0x74, 0x1f, 0x4b, 0xbd, 0x8b, 0x8a,
  0x70, 0x3e, 0xb5, 0x66, 0x48, 0x03, 0xf6, 0x0e, 0x61, 0x35, 0x57, 0xb9, 0x86, 0xc1, 0x1d, 0x9e,
  0xe1, 0xf8, 0x98, 0x11, 0x69, 0xd9, 0x8e, 0x94, 0x9b, 0x1e, 0x87, 0xe9, 0xce, 0x55, 0x28, 0xdf,
  0x8c, 0xa1, 0x89, 0x0d, 0xbf, 0xe6, 0x42, 0x68, 0x41, 0x99, 0x2d, 0x0f, 0xb0, 0x54, 0xbb, 0x16]

def subByte (x : UInt8) : UInt8 := sbox.getD x.toNat 0

/-- Multiplication by `x` in GF(2^8) -/
def xtime (x : UInt8) : UInt8 := if x &&& 0x80 = 0 then x <<< 1 else (x <<< 1) ^^^ 0x1b

def xorBytes (a b : Bytes) : Bytes := List.zipWith (· ^^^ ·) a b

/-- The next round key, of 16 bytes -/
def nextKey (k : Bytes) (rcon : UInt8) : Bytes :=
  let w := fun i => (k.drop (4 * i)).take 4
  let t := match w 3 with
    | [a, b, c, d] => [subByte b ^^^ rcon, subByte c, subByte d, subByte a]
    | _ => []
  let w0 := xorBytes (w 0) t
  let w1 := xorBytes (w 1) w0
  let w2 := xorBytes (w 2) w1
  let w3 := xorBytes (w 3) w2
  w0 ++ w1 ++ w2 ++ w3

def shiftRows (s : Bytes) : Bytes :=
  (List.range 16).map fun i => s.getD ((i + 4 * (i % 4)) % 16) 0

def mixColumns (s : Bytes) : Bytes :=
  (List.range 16).map fun i =>
    let a := fun j => s.getD (4 * (i / 4) + (i + j) % 4) 0
    xtime (a 0) ^^^ (xtime (a 1) ^^^ a 1) ^^^ a 2 ^^^ a 3

/-- Rounds 1 to 9: the round constant determines the next round key. -/
def aesRounds : List UInt8 → Bytes → Bytes → Bytes × Bytes
  | [], k, s => (k, s)
  | rcon :: t, k, s =>
    let k := nextKey k rcon
    aesRounds t k (xorBytes (mixColumns (shiftRows (s.map subByte))) k)

/-- AES-128 encryption of a block -/
def aes128 (key block : Bytes) : Bytes :=
  let (k, s) := aesRounds [0x01, 0x02, 0x04, 0x08, 0x10, 0x20, 0x40, 0x80, 0x1b] key (xorBytes block key)
  let out := shiftRows (s.map subByte)
  let k := nextKey k 0x36
  (List.range 16).map fun i => out.getD i 0 ^^^ k.getD i 0

/-- The primitives of the repository -/
def prims : Prims where
  turboShake := turboShake128
  aes := aes128
  aes_length k b _ := by simp [aes128]

end Primitives
end Vdaf
