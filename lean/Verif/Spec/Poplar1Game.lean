import Verif.Spec.Poplar1
import Verif.Spec.RandomOracle

/-!
# Specification vocabulary for the robustness of Poplar1 in the random oracle model

The Aggregators are honest, a Client is not, and neither is the Collector, which chooses the aggregation parameters.  They
evaluate TurboSHAKE128 at inputs of their choice, they have reports, which are bytes, verified for aggregation
parameters of their choice, and learn which of them are accepted.  TurboSHAKE128 is a random oracle.  The verification key
is random, and neither the Client nor the Collector knows it.
-/

namespace Vdaf.Spec

/-- The Aggregators decode a report and verify it; the result is the two output shares. -/
def poplar1Outputs (P : Poplar1) (prims : Prims) (fuel : ℕ) (verifyKey ctx : Bytes) (e : EncodedReport)
    (a : Poplar1AggParam) : Res (FieldVec × FieldVec) := do
  let pub ← P.decodePublicShare e.publicShare
  let b0 ← getI e.inputShares 0
  let s0 ← P.decodeInputShare prims fuel 0 b0
  let b1 ← getI e.inputShares 1
  let s1 ← P.decodeInputShare prims fuel 1 b1
  poplar1Verify P prims fuel verifyKey ctx a e.nonce pub s0 s1

/-- The output shares for `n` prefixes sum to zero or to a unit vector. -/
def CountsAtMostOnce (n : ℕ) (outs : FieldVec × FieldVec) : Prop :=
  ∃ (κ : Kind) (u0 u1 u : List (Fk κ)), outs = (⟨κ, u0⟩, ⟨κ, u1⟩) ∧ u.length = n ∧ IsSum ![u0, u1] u ∧ ZeroOrUnit u

/-- What the Client and the Collector can do next: evaluate TurboSHAKE128 (with the domain byte of the XOF), or have a
report verified for an aggregation parameter -/
inductive Poplar1Move where
  | query (input : Bytes)
  | submit (e : EncodedReport) (a : Poplar1AggParam)

/-- What they learn: the output of TurboSHAKE128, that the Aggregators refuse to verify the report for the aggregation
parameter, or whether the report is accepted -/
inductive Poplar1Reply where
  | output (stream : ℕ → UInt8)
  | refused
  | verdict (accepted : Bool)

/-- The Client and the Collector: from the replies up to now they decide on the next move. -/
abbrev Poplar1Strategy : Type := List Poplar1Reply → Poplar1Move

/-- The aggregation parameters for which reports with the nonce were verified, in this order -/
def previousParams (nonce : Bytes) (hist : List (Poplar1Move × Poplar1Reply)) : List Poplar1AggParam :=
  hist.filterMap fun
    | (.submit e a, .verdict _) => if e.nonce = nonce then some a else none
    | _ => none

section
variable (P : Poplar1) (prims : Prims) (fuel : ℕ)

/-- The reply to a move.  The Aggregators refuse nonces of the wrong size, and aggregation parameters for which
`is_valid` does not return `True`. -/
def poplar1Respond (verifyKey ctx : Bytes) (hist : List (Poplar1Move × Poplar1Reply)) : Poplar1Move → Poplar1Reply
  | .query m => .output (prims.turboShake m 1)
  | .submit e a =>
    if e.nonce.length = 16 ∧ Poplar1.isValid a (previousParams e.nonce hist) = .ok true then
      .verdict (match poplar1Outputs P prims fuel verifyKey ctx e a with
        | .ok _ => true
        | .error _ => false)
    else .refused

/-- The first `q` moves and the replies -/
def poplar1Run (verifyKey ctx : Bytes) (σ : Poplar1Strategy) : ℕ → List (Poplar1Move × Poplar1Reply)
  | 0 => []
  | q + 1 =>
    let hist := poplar1Run verifyKey ctx σ q
    let move := σ (hist.map Prod.snd)
    hist ++ [(move, poplar1Respond P prims fuel verifyKey ctx hist move)]

/-- The Client wins: a report is accepted although its output shares do not sum to zero or to a unit vector. -/
def Poplar1Wins (verifyKey ctx : Bytes) (hist : List (Poplar1Move × Poplar1Reply)) : Prop :=
  ∃ e a, (.submit e a, .verdict true) ∈ hist ∧ ∃ outs, poplar1Outputs P prims fuel verifyKey ctx e a = .ok outs ∧
    ¬ CountsAtMostOnce a.2.length outs

end

/-- The input of TurboSHAKE128 for the verification randomness -/
def verifyRandInput (verifyKey ctx nonce : Bytes) (level : ℕ) : Bytes :=
  xofInput verifyKey (tag 6 4 ctx) (nonce ++ [UInt8.ofNat (level / 2 ^ 8), UInt8.ofNat level])

/-- The inputs of TurboSHAKE128 for the verification randomness -/
def verifyRandInputs (verifyKey ctx : Bytes) : Set Bytes :=
  {m | ∃ (nonce : Bytes) (level : ℕ), nonce.length = 16 ∧ level < 2 ^ 16 ∧ m = verifyRandInput verifyKey ctx nonce level}

/-- The Client and the Collector never evaluate TurboSHAKE128 at an input for the verification randomness, all of which
contain the verification key. -/
def Poplar1IgnoresKey (verifyKey ctx : Bytes) (σ : Poplar1Strategy) : Prop :=
  ∀ replies, ∀ m ∈ verifyRandInputs verifyKey ctx, σ replies ≠ .query m

section
variable (P : Poplar1) (prims : Prims) (fuel : ℕ)

/-- The probability, over the first `N` bytes of the values of TurboSHAKE128 at the inputs in `S`, that the Client wins
with `q` moves -/
noncomputable def poplar1WinProbability (verifyKey ctx : Bytes) (σ : Poplar1Strategy) (q : ℕ) (S : Set Bytes) (N : ℕ) : ℚ :=
  (Set.ncard {O ∈ oracles prims S N | Poplar1Wins P (withOracle prims O) fuel verifyKey ctx
    (poplar1Run P (withOracle prims O) fuel verifyKey ctx σ q)} : ℚ) / Set.ncard (oracles prims S N)

/-- The probability, over the verification key and over the first `N` bytes of the values of TurboSHAKE128 at the inputs in
`S`, that the Client wins with `q` moves -/
noncomputable def poplar1KeyedWinProbability (ctx : Bytes) (σ : Poplar1Strategy) (q : ℕ) (S : Set Bytes) (N : ℕ) : ℚ :=
  (Set.ncard {x : Bytes × (Bytes → ℕ → UInt8) | x.1.length = 32 ∧ x.2 ∈ oracles prims S N ∧
    Poplar1Wins P (withOracle prims x.2) fuel x.1 ctx (poplar1Run P (withOracle prims x.2) fuel x.1 ctx σ q)} : ℚ) /
  Set.ncard {x : Bytes × (Bytes → ℕ → UInt8) | x.1.length = 32 ∧ x.2 ∈ oracles prims S N}

end
end Vdaf.Spec
