import Verif.Model.Circuits
import Mathlib.Data.Rat.Defs
import Mathlib.Algebra.Field.Rat

/-!
# The robustness bounds of `plot_prio3_multiproof_robustness.py`

Python's floats are modelled as exact rational numbers.
-/

namespace Vdaf
variable {F : Type} [NttField F] {Meas Agg : Type}

/-- plot_prio3_multiproof_robustness.py:17-22 `base_soundness`.  Python raises `ZeroDivisionError` if a gadget has
`MODULUS` calls; no circuit for which the FLP can be used has as many. -/
def baseSoundness (V : Valid F Meas Agg) : ℚ :=
  ((List.zip V.gadgets V.gadgetCalls).map fun x =>
    ((x.2 * x.1.degree : ℕ) : ℚ) / ((PyField.modulus F : ℚ) - (x.2 : ℚ))).sum

/-- plot_prio3_multiproof_robustness.py:25-45 `robustness` -/
def robustness (soundness : ℚ) (roQueries verifyQueries numProofs : ℕ) : ℚ :=
  ((roQueries + verifyQueries : ℕ) : ℚ) * soundness ^ numProofs

/-- plot_prio3_multiproof_robustness.py:48-61 `sum_vec`, the number `soundness`.  The script takes the square root of
`length` for `chunk_length`, which need not be an integer; here it is an argument. -/
def sumVecSoundness (V : Valid F (List Int) (List Nat)) (chunkLength : ℕ) : ℚ :=
  (chunkLength : ℚ) / (PyField.modulus F : ℚ) + baseSoundness V

end Vdaf
