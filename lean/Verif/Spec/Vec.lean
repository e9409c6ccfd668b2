import Mathlib.Algebra.BigOperators.Group.Finset.Basic
import Mathlib.Data.Fintype.BigOperators

/-!
# Specification vocabulary for vectors and additive shares
-/

namespace Vdaf.Spec
variable {F : Type}

/-- The vector `v` is the coordinatewise sum of the vectors `vs i`, all of the same length. -/
def IsSum [AddCommMonoid F] {ι : Type} [Fintype ι] (vs : ι → List F) (v : List F) : Prop :=
  (∀ i, (vs i).length = v.length) ∧ ∀ j, v.getD j 0 = ∑ i, (vs i).getD j 0

end Vdaf.Spec
