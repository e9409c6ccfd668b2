import Verif.Spec.Prio3

/-!
# Specification vocabulary for the agreement of all Aggregators

All Aggregators receive all verifier shares (vdaf.py:314-357), so that all of them know the same verifier message.
-/

namespace Vdaf.Spec
variable {F : Type} [NttField F] {Meas Agg : Type} {X : Xof}

/-- `verify_init` returns the states `st j` and the verifier shares `sh j`, and these combine to the verifier message
`msg`. -/
def Combined (P : Prio3 X F Meas Agg) (verifyKey ctx nonce : Bytes) (pub : Option (List Bytes))
    (ish : ℕ → Prio3InputShare F) (st sh : ℕ → List F × Option Bytes) (msg : Option Bytes) : Prop :=
  (∀ j < P.shares, P.verifyInit verifyKey ctx j () nonce pub (ish j) = .ok (st j, sh j)) ∧
  P.sharesToMessage ctx () ((List.range P.shares).map sh) = .ok msg

/-- The Aggregator with the state `st` accepts the report, given the verifier message. -/
def AcceptsMessage (ctx : Bytes) (st : List F × Option Bytes) (msg : Option Bytes) : Prop :=
  ∃ outShare, Prio3.verifyNext ctx st msg = .ok (.out outShare)

/-- The parts of the joint randomness that Aggregator `j` uses: its own one, and the published ones of the others -/
def partsOf (parts : List Bytes) (own : ℕ → Bytes) (j : ℕ) : List Bytes := parts.set j (own j)

/-- The seed of an Aggregator is the one of the verifier message only if both are derived from the same bytes. -/
def NoSeedCollision (P : Prio3 X F Meas Agg) (ctx : Bytes) (parts : List Bytes) (own : ℕ → Bytes) : Prop :=
  ∀ j < P.shares, jointRandSeed P ctx (partsOf parts own j) = jointRandSeed P ctx ((List.range P.shares).map own) →
    (partsOf parts own j).flatten = ((List.range P.shares).map own).flatten

end Vdaf.Spec
