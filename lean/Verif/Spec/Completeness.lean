import Verif.Spec.RandomOracle

/-!
# Specification vocabulary for the probability that an honest execution of Prio3 fails

The honest parties compute with a random oracle in place of TurboSHAKE128.  An execution fails if the rejection sampler
does not produce enough field elements from a bounded number of chunks, or if a test point is a root of unity.
-/

namespace Vdaf.Spec
open Finset

section
variable (F : Type) [PyField F]

/-- The probability that a random chunk is rejected by `next_vec`: a chunk stands for a uniformly random number smaller
than the next power of two, which is accepted if it is smaller than the modulus. -/
def rejectRate : ℚ := 1 - PyField.modulus F / 2 ^ Nat.size (PyField.modulus F - 1)

/-- The probability that fewer than `n` of `k` independent chunks are accepted (the binomial distribution) -/
def shortfall (k n : ℕ) : ℚ := ∑ i ∈ range n, k.choose i * (1 - rejectRate F) ^ i * rejectRate F ^ (k - i)

end

section
variable {F : Type} [NttField F] {Meas Agg : Type} {prims : Prims} {fuel : ℕ}
  (P : Prio3 (XofTurboShake128 prims fuel) F Meas Agg)

/-- The inputs of TurboSHAKE128 from which the parties expand field elements for an honest report: the shares of the
Helpers, the Client's randomness for the proofs, the joint randomness (for any seed), and the query randomness -/
def honestInputs (verifyKey ctx nonce rand : Bytes) : Set Bytes :=
  {m | (∃ j, 0 < j ∧ j < P.shares ∧
      (m = xofInput (shareSeed P rand j) (tag P.id 1 ctx) [UInt8.ofNat j] ∨
        m = xofInput (shareSeed P rand j) (tag P.id 2 ctx) [UInt8.ofNat P.proofs, UInt8.ofNat j])) ∨
    m = xofInput (proveSeed P rand) (tag P.id 4 ctx) [UInt8.ofNat P.proofs] ∨
    (∃ seed : Bytes, seed.length = 32 ∧ m = xofInput seed (tag P.id 3 ctx) [UInt8.ofNat P.proofs]) ∨
    m = xofInput verifyKey (tag P.id 5 ctx) (UInt8.ofNat P.proofs :: nonce)}

/-- The bound on the probability that one report fails: for some proof and some gadget the test point is a root of unity
(there are as many of them as the wire polynomial has coefficients), or one of the expansions finds too few field
elements in `fuel` chunks. -/
def reportError : ℚ :=
  P.proofs * ((P.flp.gadgetCalls.map fun calls => 2 ^ Nat.size calls).sum : ℕ) / PyField.modulus F +
  ((P.shares - 1 : ℕ) * (shortfall F fuel P.flp.measLen + shortfall F fuel (P.proofLen * P.proofs)) +
    shortfall F fuel (P.flp.proveRandLen * P.proofs) + shortfall F fuel (P.flp.jointRandLen * P.proofs) +
    shortfall F fuel (P.flp.queryRandLen * P.proofs))

/-- The probability, over the first `N` bytes of the values of TurboSHAKE128 at the inputs in `S`, that the result of
`run_vdaf` is not `result` -/
noncomputable def failProbability (verifyKey ctx : Bytes) (batch : List (Meas × Bytes × Bytes)) (result : Agg)
    (S : Set Bytes) (N : ℕ) : ℚ :=
  (Set.ncard {T ∈ oracles prims S N | runVdaf (runWith P T).vdaf verifyKey () ctx batch ≠ .ok result} : ℚ) /
  Set.ncard (oracles prims S N)

end
end Vdaf.Spec
