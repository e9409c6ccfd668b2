import Verif.Spec.Circuit
import Mathlib.Data.Rat.Defs
import Mathlib.Algebra.Field.Rat
import Mathlib.Data.Set.Card

/-!
# Specification vocabulary for the robustness bounds
-/

namespace Vdaf.Spec
variable {F : Type} [NttField F] {Meas Agg : Type}

/-- The probability, over uniformly random query randomness, that the FLP accepts the measurement `meas` with the proof
`π` -/
noncomputable def acceptProbability (V : Valid F Meas Agg) (meas π jr : List F) : ℚ :=
  (Set.ncard {qr : Fin V.queryRandLen → F |
    ∃ v, V.query meas π (List.ofFn qr) jr 1 = .ok v ∧ V.decide v = .ok true} : ℚ) /
    (PyField.modulus F : ℚ) ^ V.queryRandLen

/-- The probability, over uniformly random joint randomness and query randomness, that the FLP accepts the measurement
`meas`, where the prover chooses the proof depending on the joint randomness -/
noncomputable def acceptProbabilityJoint (V : Valid F Meas Agg) (meas : List F)
    (π : (Fin V.jointRandLen → F) → List F) : ℚ :=
  (Set.ncard {r : (Fin V.jointRandLen → F) × (Fin V.queryRandLen → F) |
    ∃ v, V.query meas (π r.1) (List.ofFn r.2) (List.ofFn r.1) 1 = .ok v ∧ V.decide v = .ok true} : ℚ) /
    ((PyField.modulus F : ℚ) ^ V.jointRandLen * (PyField.modulus F : ℚ) ^ V.queryRandLen)

/-- The bound for the polynomials of the code, whose wire polynomials are padded to the length `2 ^ k`, the
least power of two greater than the number of calls: the sum of `DEGREE * (2 ^ k - 1) / MODULUS` -/
def paddedSoundness (V : Valid F Meas Agg) : ℚ :=
  ((List.zip V.gadgets V.gadgetCalls).map fun x =>
    ((x.1.degree * (2 ^ Nat.size x.2 - 1) : ℕ) : ℚ) / (PyField.modulus F : ℚ)).sum

/-- No padding is needed: one plus the number of calls is a power of two, for every gadget. -/
def Unpadded (V : Valid F Meas Agg) : Prop := ∀ c ∈ V.gadgetCalls, ∃ k, c + 1 = 2 ^ k

end Vdaf.Spec
