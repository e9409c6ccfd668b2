import Verif.Model.Field

/-!
# Model of `poc/vdaf_poc/xof.py`

The primitives come from pycryptodome, which is not part of the repository.  They are
arbitrary functions (`Prims`); everything proved about the XOFs holds for every choice.
-/

namespace Vdaf

/-- The primitives used by xof.py: `turboShake m d i` is byte `i` of the (infinite) output
stream of TurboSHAKE128 for message `m` and domain `d`; `aes k b` is the AES-128 encryption
of the block `b` with key `k` (`AES.new(k, AES.MODE_ECB).encrypt(b)`). -/
structure Prims where
  turboShake : Bytes → Nat → Nat → UInt8
  aes : Bytes → Bytes → Bytes
  /-- a block is encrypted to a block -/
  aes_length : ∀ k b, b.length = 16 → (aes k b).length = 16

/-- xof.py:16-104, class `Xof`.  `fuel` bounds the number of iterations of one run of the
rejection-sampling loop of `next_vec` in the model (any number; Python has no bound). -/
structure Xof where
  /-- `SEED_SIZE` -/
  seedSize : Nat
  /-- the attributes of an instance -/
  State : Type
  /-- `__init__(seed, dst, binder)` -/
  init : Bytes → Bytes → Bytes → Res State
  /-- `next(length)`: the bytes and the updated instance -/
  next : State → Nat → Res (Bytes × State)
  fuel : Nat

namespace Xof

/-- xof.py:54-67 `derive_seed` -/
def deriveSeed (X : Xof) (seed dst binder : Bytes) : Res Bytes := do
  let xof ← X.init seed dst binder
  let (b, _) ← X.next xof X.seedSize
  return b

/-- xof.py:79-85, the `while` loop of `next_vec` -/
def nextVecLoop (X : Xof) (F : Type) [PyField F] (m length : Nat) :
    Nat → X.State → List F → Res (List F × X.State)
  | 0, xof, vec => if vec.length < length then .error .fuel else .ok (vec, xof)
  | fuel + 1, xof, vec =>
    if vec.length < length then do
      let (b, xof) ← X.next xof (PyField.encSize F)
      let x := fromLeBytes b
      let x := x &&& m
      if x < PyField.modulus F then do
        let fx ← ofInt F x
        nextVecLoop X F m length fuel xof (vec ++ [fx])
      else nextVecLoop X F m length fuel xof vec
    else .ok (vec, xof)

/-- xof.py:69-85 `next_vec` -/
def nextVec (X : Xof) (F : Type) [PyField F] (fuel : Nat) (xof : X.State) (length : Nat) :
    Res (List F × X.State) := do
  let n ← nextPowerOf2 (PyField.modulus F)
  X.nextVecLoop F (n - 1) length fuel xof []

/-- xof.py:87-104 `expand_into_vec` -/
def expandIntoVec (X : Xof) (F : Type) [PyField F] (seed dst binder : Bytes) (length : Nat) :
    Res (List F) := do
  let xof ← X.init seed dst binder
  let (vec, _) ← X.nextVec F X.fuel xof length
  return vec

end Xof

/-- A hash object after `read` was called: the message absorbed and the number of bytes
squeezed. -/
structure TurboShakeState where
  m : Bytes
  pos : Nat

/-- xof.py:115-154 `XofTurboShake128`.  Successive `update` calls absorb the concatenation of
their arguments; successive `read` calls walk the output stream (pycryptodome's contract). -/
def XofTurboShake128 (P : Prims) (fuel : Nat) : Xof where
  seedSize := 32
  State := TurboShakeState
  init seed dst binder := do
    let dl ← toLeBytes dst.length 2
    let sl ← toLeBytes seed.length 1
    return ⟨dl ++ dst ++ sl ++ seed ++ binder, 0⟩
  next h length :=
    .ok ((List.range length).map (fun i => P.turboShake h.m 1 (h.pos + i)), ⟨h.m, h.pos + length⟩)
  fuel := fuel

/-- The attributes of an `XofFixedKeyAes128` (`self.cipher` is determined by its key). -/
structure FixedKeyAesState where
  lengthConsumed : Nat
  fixedKey : Bytes
  seed : Bytes

/-- xof.py:233-252 `hash_block` -/
def hashBlock (P : Prims) (fixedKey block : Bytes) : Bytes :=
  let lo := block.take 8
  let hi := block.drop 8
  let sigmaBlock := concat [hi, xor hi lo]
  xor (P.aes fixedKey sigmaBlock) sigmaBlock

/-- xof.py:165-252 `XofFixedKeyAes128` -/
def XofFixedKeyAes128 (P : Prims) (fuel : Nat) : Xof where
  seedSize := 16
  State := FixedKeyAesState
  init seed dst binder := do
    raiseIf (seed.length ≠ 16) "incorrect seed size"
    let dl ← toLeBytes dst.length 2
    let m := dl ++ dst ++ binder
    return ⟨0, (List.range 16).map (P.turboShake m 2), seed⟩
  next xof length := do
    let offset := xof.lengthConsumed % 16
    let newLength := xof.lengthConsumed + length
    let first := xof.lengthConsumed / 16
    let blockRange := List.range' first (newLength / 16 + 1 - first)
    let hashedBlocks ← mapRes (fun (i : Nat) => do
      let b ← toLeBytes i 16
      return hashBlock P xof.fixedKey (xor xof.seed b)) blockRange
    return (slice (concat hashedBlocks) offset (offset + length),
      ⟨newLength, xof.fixedKey, xof.seed⟩)
  fuel := fuel

end Vdaf
