import Verif.Spec.HeavyHitters
import Verif.Spec.Poplar1Game

/-!
# Specification vocabulary for the heavy hitters protocol in the random oracle model

Someone who controls all the malicious Clients evaluates TurboSHAKE128 at inputs of their choice, and then decides on the whole
batch: the reports in it are bytes; some of them may be reports that `shard` returns, the others may be anything.  Then the
Aggregators run the heavy hitters protocol.  TurboSHAKE128 is a random oracle at the inputs for the verification
randomness, and any function elsewhere.  The verification key is random, and is not known to the one who chooses the batch.
-/

namespace Vdaf.Spec

/-- Who chooses the batch: from the values of TurboSHAKE128 up to now, the next input, and in the end the reports -/
structure BatchChooser where
  ask : List (ℕ → UInt8) → Bytes
  batch : List (ℕ → UInt8) → List EncodedReport

/-- The first `q` values of TurboSHAKE128 that they learn -/
def BatchChooser.answers (A : BatchChooser) (T : Bytes → ℕ → UInt8) : ℕ → List (ℕ → UInt8)
  | 0 => []
  | q + 1 => A.answers T q ++ [T (A.ask (A.answers T q))]

section
variable (P : Poplar1) (prims : Prims) (fuel : ℕ)

/-- The Aggregators decode a report. -/
def poplar1Decode (e : EncodedReport) : Res Poplar1Report := do
  let pub ← P.decodePublicShare e.publicShare
  let b0 ← getI e.inputShares 0
  let s0 ← P.decodeInputShare prims fuel 0 b0
  let b1 ← getI e.inputShares 1
  let s1 ← P.decodeInputShare prims fuel 1 b1
  return ⟨e.nonce, pub, s0, s1⟩

/-- The reports that the Aggregators keep: those that they can decode -/
def poplar1Received (batch : List EncodedReport) : List Poplar1Report :=
  batch.filterMap fun e => (poplar1Decode P prims fuel e).toOption

/-- The heavy hitters protocol does what it should for these reports and this threshold: it does not fail, and however the
reports are divided into those of honest Clients, with the measurements `meas r`, and the others,
- all the strings that at least `T` honest Clients hold are in the result,
- each string in the result is held by at least `T` minus the number of the other reports honest Clients,
- the number of strings in the result is at most the number of reports divided by `T`.
(If the sampler runs out of its bound for the report of an honest Client, nothing is claimed.) -/
def HeavyRight (bits : ℕ) (verifyKey ctx : Bytes) (T : ℕ) (reports : List Poplar1Report) : Prop :=
  ∃ hist hh, heavyHitters bits (P.vdaf prims fuel).isValid (poplar1Counts P prims fuel verifyKey ctx reports) T = .ok (hist, hh) ∧
    hh.Pairwise LexLt ∧ (∀ s ∈ hh, s.length = bits) ∧
    ∀ meas : Poplar1Report → Option (List Bool),
      (∀ r ∈ reports, ∀ m, meas r = some m → m.length = bits ∧ FromHonestClient P prims fuel ctx r m) →
      (∀ a ∈ hist, ∀ r ∈ reports, meas r ≠ none →
        poplar1Verify P prims fuel verifyKey ctx a r.nonce r.pub r.share0 r.share1 ≠ .error .fuel) →
      (∀ s, s.length = bits → T ≤ (reports.filterMap meas).count s → s ∈ hh) ∧
      (∀ s ∈ hh, T ≤ (reports.filterMap meas).count s + (reports.filter fun r => (meas r).isNone).length) ∧
      T * hh.length ≤ reports.length

/-- The inputs of TurboSHAKE128 for the verification randomness, for all the verification keys -/
def allVerifyRandInputs (ctx : Bytes) : Set Bytes :=
  {m | ∃ verifyKey : Bytes, verifyKey.length = 32 ∧ m ∈ verifyRandInputs verifyKey ctx}

/-- The probability, over the verification key and over the first `N` bytes of the values of TurboSHAKE128 at the inputs for the
verification randomness, that the heavy hitters protocol does not do what it should, for the batch that was chosen after `q`
evaluations of TurboSHAKE128 -/
noncomputable def heavyWrongProbability (bits : ℕ) (ctx : Bytes) (T : ℕ) (A : BatchChooser) (q N : ℕ) : ℚ :=
  (Set.ncard {x : Bytes × (Bytes → ℕ → UInt8) | x.1.length = 32 ∧ x.2 ∈ oracles prims (allVerifyRandInputs ctx) N ∧
    ¬ HeavyRight P (withOracle prims x.2) fuel bits x.1 ctx T
      (poplar1Received P (withOracle prims x.2) fuel (A.batch (A.answers x.2 q)))} : ℚ) /
  Set.ncard {x : Bytes × (Bytes → ℕ → UInt8) | x.1.length = 32 ∧ x.2 ∈ oracles prims (allVerifyRandInputs ctx) N}

end
end Vdaf.Spec
