import Verif.Model.Fields
import Verif.Proofs.Mono

/-!
# Properties C05 - C10: NTT and polynomial arithmetic

Specification vocabulary: `Spec.poly p` (the Mathlib polynomial with coefficient list `p`),
`Spec.evals P w n = [P(1), P(w), ..., P(w^(n-1))]`, `Polynomial.eval`, `Polynomial.degree`.
`nthRoot F k` is the model of `nth_root(2^k)`; C04 proves that it has order exactly `2^k`.
-/

namespace Vdaf
open Polynomial

/-! ## C05 -/

/-- C05 (`set_s = False`): `ntt(p, n)` is the list of `P(w^i)`. -/
theorem C05_ntt_evaluates {F : Type} [NttField F] (p : List F) (k : Nat)
    (hk : k ≤ NttField.logOrder F) (hp : p.length ≤ 2 ^ k) :
    ntt p (2 ^ k) = .ok ((List.range (2 ^ k)).map fun i =>
      (Spec.poly p).eval (nthRoot F k ^ i)) :=
  ntt_evals p hp hk

/-- C05 (`set_s = True`): `ntt(p, n, True)` is the list of `P(s * w^i)` where `s` is the
`2n`-th root of unity. -/
theorem C05_ntt_evaluates_shifted {F : Type} [NttField F] (p : List F) (k : Nat)
    (hk : k + 1 ≤ NttField.logOrder F) (hp : p.length ≤ 2 ^ k) :
    ntt p (2 ^ k) true = .ok ((List.range (2 ^ k)).map fun i =>
      (Spec.poly p).eval (nthRoot F (k + 1) * nthRoot F k ^ i)) := by
  rw [ntt_eq true p hp (by simpa using hk)]
  rfl

example : ntt [(1 : Field64), 2, 3] 4 = .ok [6, -2 + 2 * nthRoot Field64 2, 2, -2 - 2 * nthRoot Field64 2] := by
  decide +kernel

example : 32 = NttField.logOrder Field64 ∧ 65 < NttField.logOrder Field128 := by decide

/-! ## C06 -/

/-- C06: `inv_ntt` and `ntt` are mutually inverse on vectors of length `n`. -/
theorem C06_ntt_inverse {F : Type} [NttField F] (p : List F) (k : Nat)
    (hk : k ≤ NttField.logOrder F) (hp : p.length = 2 ^ k) :
    (∃ q, ntt p (2 ^ k) = .ok q ∧ q.length = 2 ^ k ∧ invNtt q (2 ^ k) = .ok p) ∧
    (∃ q, invNtt p (2 ^ k) = .ok q ∧ q.length = 2 ^ k ∧ ntt q (2 ^ k) = .ok p) := by
  constructor
  · refine ⟨_, ntt_evals p hp.le hk, evals_length _ _ _, ?_⟩
    obtain ⟨q, hq, hl, hP⟩ := invNtt_evals (Spec.poly p)
      (by have := poly_degree_lt p; rw [hp] at this; exact_mod_cast this) hk
    rw [hq]
    congr 1
    apply List.ext_getElem (by omega)
    intro i h1 h2
    rw [← coef_of_lt h1, ← coef_of_lt h2, ← poly_coeff, ← poly_coeff, hP]
  · obtain ⟨P, hP, rfl⟩ := exists_evals hk p hp
    obtain ⟨q, hq, hl, hqP⟩ := invNtt_evals P (by exact_mod_cast hP) hk
    refine ⟨q, hq, hl, ?_⟩
    rw [ntt_evals q hl.le hk, hqP]

example : invNtt [(6 : Field64), -2 + 2 * nthRoot Field64 2, 2, -2 - 2 * nthRoot Field64 2] 4 =
    .ok [1, 2, 3, 0] := by decide +kernel

/-! ## C07 -/

/-- The representation used in C07 - C09: a vector of length `n = 2^k` is the vector of
evaluations of exactly one polynomial of degree `< n`. -/
theorem C07_lagrange_representation {F : Type} [NttField F] (v : List F) (k : Nat)
    (hk : k ≤ NttField.logOrder F) (hv : v.length = 2 ^ k) :
    ∃! P : F[X], P.degree < ((2 ^ k : ℕ) : WithBot ℕ) ∧
      v = Spec.evals P (nthRoot F k) (2 ^ k) := by
  obtain ⟨P, hP, h⟩ := exists_evals hk v hv
  refine ⟨P, ⟨hP, h⟩, ?_⟩
  rintro Q ⟨hQ, hQv⟩
  apply poly_unique hQ hP (root_inj hk)
  intro i hi
  have h1 := evals_getElem P (nthRoot F k) (2 ^ k) i (by rw [evals_length]; exact hi)
  have h2 := evals_getElem Q (nthRoot F k) (2 ^ k) i (by rw [evals_length]; exact hi)
  rw [← h1, ← h2]
  simp only [← h, ← hQv]

/-- C07: `double_evaluations` re-evaluates the same polynomial on the twice as large set. -/
theorem C07_double_evaluations {F : Type} [NttField F] (k : Nat)
    (hk : k + 1 ≤ NttField.logOrder F) (P : F[X]) (hP : P.degree < ((2 ^ k : ℕ) : WithBot ℕ)) :
    doubleEvaluations (Spec.evals P (nthRoot F k) (2 ^ k)) =
      .ok (Spec.evals P (nthRoot F (k + 1)) (2 ^ (k + 1))) :=
  doubleEvaluations_evals hk P hP

/-- C07: `Lagrange.poly_mul` evaluates the product polynomial on the twice as large set. -/
theorem C07_poly_mul {F : Type} [NttField F] (k : Nat)
    (hk : k + 1 ≤ NttField.logOrder F) (P Q : F[X])
    (hP : P.degree < ((2 ^ k : ℕ) : WithBot ℕ)) (hQ : Q.degree < ((2 ^ k : ℕ) : WithBot ℕ)) :
    lagPolyMul (Spec.evals P (nthRoot F k) (2 ^ k)) (Spec.evals Q (nthRoot F k) (2 ^ k)) =
      .ok (Spec.evals (P * Q) (nthRoot F (k + 1)) (2 ^ (k + 1))) :=
  lagPolyMul_evals hk P Q hP hQ

-- `1 + X` has values `2, 0` at `1, -1`; its square has values `4, 2i, 0, -2i`
example : lagPolyMul [(2 : Field64), 0] [2, 0] =
    .ok [4, 2 * nthRoot Field64 2, 0, -(2 * nthRoot Field64 2)] := by decide +kernel

/-! ## C08 -/

/-- C08: `extend_values_to_power_of_2` extends a list of values of a polynomial of degree
below the number of values to all its values. -/
theorem C08_extend_values {F : Type} [NttField F] (k m : Nat) (hk : k ≤ NttField.logOrder F)
    (hm : m ≤ 2 ^ k) (P : F[X]) (hP : P.degree < (m : WithBot ℕ)) :
    extendValues (Spec.evals P (nthRoot F k) m) (2 ^ k) =
      .ok (Spec.evals P (nthRoot F k) (2 ^ k)) :=
  extendValues_evals hk hm P hP

/-- C08, from the caller's side: for any `m ≤ n` values there is exactly one polynomial of
degree `< m` through them, the result is its list of values, and the given values are
unchanged. -/
theorem C08_extend_values_any {F : Type} [NttField F] (k : Nat) (hk : k ≤ NttField.logOrder F)
    (v : List F) (hv : v.length ≤ 2 ^ k) :
    ∃! P : F[X], P.degree < (v.length : WithBot ℕ) ∧
      v = Spec.evals P (nthRoot F k) v.length ∧
      ∃ r, extendValues v (2 ^ k) = .ok r ∧ r = Spec.evals P (nthRoot F k) (2 ^ k) ∧
        v <+: r := by
  have hinj : ∀ i < v.length, ∀ j < v.length, nthRoot F k ^ i = nthRoot F k ^ j → i = j :=
    fun i hi j hj => root_inj hk i (by omega) j (by omega)
  obtain ⟨P, hP, h⟩ := exists_interp v (nthRoot F k) hinj
  have hext := extendValues_evals hk hv P hP
  rw [← h] at hext
  refine ⟨P, ⟨hP, h, _, hext, rfl, ?_⟩, ?_⟩
  · conv_lhs => rw [h]
    refine ⟨(List.range' v.length (2 ^ k - v.length)).map fun i => P.eval (nthRoot F k ^ i), ?_⟩
    rw [Spec.evals, Spec.evals, ← List.map_append, List.range_eq_range', List.range_eq_range']
    have := List.range'_append_1 (s := 0) (m := v.length) (n := 2 ^ k - v.length)
    rw [Nat.zero_add] at this
    rw [this, show v.length + (2 ^ k - v.length) = 2 ^ k by omega]
  · rintro Q ⟨hQ, hQv, _⟩
    apply poly_unique hQ hP hinj
    intro i hi
    have h1 := evals_getElem P (nthRoot F k) v.length i (by rw [evals_length]; exact hi)
    have h2 := evals_getElem Q (nthRoot F k) v.length i (by rw [evals_length]; exact hi)
    rw [← h1, ← h2]
    simp only [← h, ← hQv]

-- the values 5, 5, 5 belong to the constant polynomial; two values extend linearly
example : extendValues [(5 : Field64), 5, 5] 4 = .ok [5, 5, 5, 5] := by decide +kernel
example : extendValues ([] : List Field64) 2 = .ok [0, 0] := by decide +kernel

/-! ## C09 -/

/-- C09: batched evaluation in the Lagrange basis is exact at every point `x`. -/
theorem C09_poly_eval_batched {F : Type} [NttField F] (k : Nat) (hk : k ≤ NttField.logOrder F)
    (Ps : List F[X]) (hne : Ps ≠ []) (hP : ∀ P ∈ Ps, P.degree < ((2 ^ k : ℕ) : WithBot ℕ))
    (x : F) :
    polyEvalBatched (Ps.map fun P => Spec.evals P (nthRoot F k) (2 ^ k)) x =
      .ok (Ps.map fun P => P.eval x) :=
  polyEvalBatched_evals hk Ps hne hP x

/-- C09 for a single polynomial. -/
theorem C09_poly_eval {F : Type} [NttField F] (k : Nat) (hk : k ≤ NttField.logOrder F)
    (P : F[X]) (hP : P.degree < ((2 ^ k : ℕ) : WithBot ℕ)) (x : F) :
    lagPolyEval (Spec.evals P (nthRoot F k) (2 ^ k)) x = .ok (P.eval x) :=
  lagPolyEval_evals hk P hP x

-- `1 + X` evaluated at 10 and, at a node, at -1
example : lagPolyEval [(2 : Field64), 0] 10 = .ok 11 ∧ lagPolyEval [(2 : Field64), 0] (-1) = .ok 0 := by
  decide +kernel

/-! ## C10 -/

/-- C10: `poly_strip` removes exactly the trailing zeros. -/
theorem C10_poly_strip {F : Type} [PyField F] (p : List F) :
    ∃ q m, polyStrip p = .ok q ∧ p = q ++ List.replicate m 0 ∧ q.getLast? ≠ some 0 :=
  polyStrip_eq p

/-- C10: `poly_mul` computes the product, in trimmed form. -/
theorem C10_poly_mul {F : Type} [PyField F] (p q : List F) :
    ∃ r, polyMul p q = .ok r ∧ Spec.poly r = Spec.poly p * Spec.poly q ∧ r.getLast? ≠ some 0 :=
  polyMul_eq p q

/-- C10: `poly_add` computes the sum, in trimmed form. -/
theorem C10_poly_add {F : Type} [PyField F] (p q : List F) :
    ∃ r, polyAdd p q = .ok r ∧ Spec.poly r = Spec.poly p + Spec.poly q ∧ r.getLast? ≠ some 0 :=
  polyAdd_eq p q

/-- C10, the claim for `poly_eval`, which fails: on a non-empty list of zeros the code
raises `IndexError` instead of returning `0`. -/
theorem C10_poly_eval_counterexample :
    ¬ ∀ (p : List Field64) (x : Field64), polyEval p x = .ok ((Spec.poly p).eval x) := by
  intro h
  have h1 : polyEval [(0 : Field64)] 0 = .error .index := by decide +kernel
  rw [h [0] 0] at h1
  cases h1

/-- C10, the strongest true version: `poly_eval` is exact except that it raises
`IndexError` on non-empty all-zero lists.  Missing from the full claim: exactly that case. -/
theorem C10_poly_eval_partial {F : Type} [PyField F] (p : List F) (x : F) :
    polyEval p x = if p ≠ [] ∧ ∀ c ∈ p, c = 0 then .error .index
      else .ok ((Spec.poly p).eval x) :=
  polyEval_eq p x

/-- C10: `poly_interp` on at least one point with pairwise distinct nodes returns at most
`len(xs)` coefficients of a polynomial through all the points. -/
theorem C10_poly_interp {F : Type} [PyField F] (xs ys : List F) (hlen : xs.length = ys.length)
    (hpos : 0 < xs.length) (hnd : xs.Nodup) :
    ∃ p, polyInterp xs ys = .ok p ∧ p.length ≤ xs.length ∧
      ∀ i (h : i < xs.length), (Spec.poly p).eval xs[i] = ys[i] :=
  polyInterp_eq xs ys hlen hpos hnd

example : polyInterp [(1 : Field255), 2, 4] [3, 5, 9] = .ok [1, 2] := by decide +kernel
example : polyMul [(1 : Field255), 1] [1, 1, 0] = .ok [1, 2, 1] := by decide +kernel
example : polyAdd [(1 : Field255), 1] [1, -1] = .ok [2] := by decide +kernel
example : polyEval [(1 : Field255), 1, 0] 3 = .ok 4 := by decide +kernel

end Vdaf
