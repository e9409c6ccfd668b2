import Verif.Model.TestHarness
import Verif.Spec.Circuit
import Mathlib.Data.Set.Card
import Mathlib.SetTheory.Cardinal.Finite

/-!
# Specification vocabulary for the test harnesses
-/

namespace Vdaf.Spec
variable {F : Type} [NttField F] {Meas Agg : Type}

/-- The probability of the event `S`, if all the elements of the finite type `Ω` are equally likely. -/
noncomputable def prob {Ω : Type} (S : Set Ω) : ℚ := (S.ncard : ℚ) / Nat.card Ω

/-- The random elements that a test case of `run_flp_test` draws, in the order in which it draws them, for a circuit
whose proofs have length `n`: the joint randomness of the direct evaluation, the joint randomness, the prove randomness and
the query randomness of `run_flp`, and the shares of the measurement and of the proof. -/
abbrev CaseCoins (V : Valid F Meas Agg) (n : ℕ) : Type :=
  (Fin V.jointRandLen → F) × (Fin V.jointRandLen → F) × (Fin V.proveRandLen → F) × (Fin V.queryRandLen → F) ×
    (Fin V.measLen → F) × (Fin n → F)

/-- The test case `(meas, expected)` with the random elements `x`. -/
def testCase (V : Valid F Meas Agg) (n : ℕ) (meas : List F) (expected : Bool) (x : CaseCoins V n) : FlpTestCase F where
  meas := meas
  expected := expected
  evalJointRand := List.ofFn x.1
  jointRand := List.ofFn x.2.1
  proveRand := List.ofFn x.2.2.1
  queryRand := List.ofFn x.2.2.2.1
  measRands := [List.ofFn x.2.2.2.2.1]
  proofRands := [List.ofFn x.2.2.2.2.2]

/-- The random elements for the tests of the gadgets in `run_flp_test` have the right numbers and lengths. -/
def GadgetCoins (V : Valid F Meas Agg) (rands : List (F × List (List F))) : Prop :=
  rands.length = V.gadgets.length ∧ ∀ (i : ℕ) (g : Gadget F) (calls p : ℕ) (r : F × List (List F)),
    V.gadgets[i]? = some g → V.gadgetCalls[i]? = some calls → wirePolyLen calls = .ok p → rands[i]? = some r →
    r.2.length = g.arity ∧ ∀ w ∈ r.2, w.length = p

/-- The test failed: an assertion does not hold. -/
def Fails (r : Res Unit) : Prop := ∃ msg, r = .error (.assertion msg)

end Vdaf.Spec
