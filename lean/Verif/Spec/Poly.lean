import Mathlib.Algebra.Polynomial.Eval.Degree
import Mathlib.Algebra.Polynomial.BigOperators

/-!
# Specification vocabulary for polynomials

`Spec.poly p` is the polynomial with coefficient list `p` (lowest degree first);
`Spec.evals P w n` is the list of its values at `1, w, ..., w^(n-1)`.
-/

namespace Vdaf.Spec
open Polynomial
variable {F : Type} [Field F]

/-- The polynomial `p[0] + p[1] X + p[2] X^2 + ...` -/
noncomputable def poly (p : List F) : F[X] := ∑ i : Fin p.length, C p[i] * X ^ (i : ℕ)

/-- `[P(1), P(w), ..., P(w^(n-1))]` -/
noncomputable def evals (P : F[X]) (w : F) (n : Nat) : List F :=
  (List.range n).map fun i => P.eval (w ^ i)

end Vdaf.Spec
