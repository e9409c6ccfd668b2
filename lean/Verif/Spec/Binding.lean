import Verif.Spec.PingPong
import Verif.Spec.RandomOracle

/-!
# Specification vocabulary for the binding of reports to the application context and to the nonce

A Client makes a report for one application context and one nonce, and somebody presents it to the Aggregators for
another application context, or with another nonce.
-/

namespace Vdaf.Spec

section
variable {Meas AggParam PubShare InShare OutShare AggShare AggRes VState VShare VMsg : Type}

/-- The Client shards the measurement for the application context `ctx` and the nonce `nonce`.  The Aggregators verify the
report for the application context `ctx'` and the nonce `nonce'`.  The result is the output shares. -/
def crossOutShares (V : VdafImpl Meas AggParam PubShare InShare OutShare AggShare AggRes VState VShare VMsg)
    (verifyKey : Bytes) (aggParam : AggParam) (m : Meas) (rand ctx nonce ctx' nonce' : Bytes) : Res (List OutShare) := do
  let (publicShare, inputShares) ← V.shard ctx m nonce rand
  broadcast V verifyKey aggParam ctx' nonce' publicShare inputShares

/-- The probability, over the first `N` bytes of the values of TurboSHAKE128 at the inputs in `S`, that all the Aggregators
accept the report; `V O` computes with the oracle `O`. -/
noncomputable def crossProbability
    (V : (Bytes → ℕ → UInt8) → VdafImpl Meas AggParam PubShare InShare OutShare AggShare AggRes VState VShare VMsg)
    (prims : Prims) (verifyKey : Bytes) (aggParam : AggParam) (m : Meas) (rand ctx nonce ctx' nonce' : Bytes)
    (S : Set Bytes) (N : ℕ) : ℚ :=
  (Set.ncard {O ∈ oracles prims S N |
    ∃ outs, crossOutShares (V O) verifyKey aggParam m rand ctx nonce ctx' nonce' = .ok outs} : ℚ) /
    Set.ncard (oracles prims S N)

end

section
variable {F : Type} [NttField F] {Meas Agg : Type} {prims : Prims} {fuel : ℕ}

/-- The input of TurboSHAKE128 for the proof share of the first Helper -/
def firstProofInput (P : Prio3 (XofTurboShake128 prims fuel) F Meas Agg) (rand ctx : Bytes) : Bytes :=
  xofInput (seedAt P rand 0) (tag P.id 2 ctx) [UInt8.ofNat P.proofs, 1]

end

/-- The input of TurboSHAKE128 for the correlated randomness of the first Aggregator, for this level (of a tree with `bits`
levels).  The third part of the Client's random bytes is the seed. -/
def firstCorrInput (bits : ℕ) (rand ctx nonce : Bytes) (level : ℕ) : Bytes :=
  xofInput (slice rand 32 64) (tag 6 (if level + 1 < bits then 2 else 3) ctx) (0 :: nonce)

end Vdaf.Spec
