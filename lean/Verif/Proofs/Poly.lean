import Verif.Spec.Poly
import Mathlib.LinearAlgebra.Lagrange

/-! Lemmas about the polynomial vocabulary. -/

namespace Vdaf
open Polynomial Finset
variable {F : Type} [Field F]

/-- Coefficient `i` of a coefficient list, zero beyond its end. -/
def coef (p : List F) (i : Nat) : F := p.getD i 0

theorem coef_of_lt {p : List F} {i : Nat} (h : i < p.length) : coef p i = p[i] := by
  simp [coef, h]
theorem coef_of_le {p : List F} {i : Nat} (h : p.length ≤ i) : coef p i = 0 := by
  simp [coef, h]

theorem poly_eq_sum (p : List F) (n : Nat) (h : p.length ≤ n) :
    Spec.poly p = ∑ i ∈ range n, C (coef p i) * X ^ i := by
  unfold Spec.poly
  rw [← sum_range_add_sum_Ico _ h, Finset.sum_eq_zero (s := Ico _ _), add_zero,
    Finset.sum_range]
  · apply Finset.sum_congr rfl
    intro i _
    rw [coef_of_lt i.2]; rfl
  · intro i hi
    rw [coef_of_le (by simp at hi; omega)]; simp

theorem poly_coeff (p : List F) (i : Nat) : (Spec.poly p).coeff i = coef p i := by
  rw [poly_eq_sum p _ (le_refl _), finsetSum_coeff]
  simp only [coeff_C_mul, coeff_X_pow, mul_ite, mul_one, mul_zero]
  rw [Finset.sum_ite_eq]
  split
  · rfl
  · rename_i h; rw [coef_of_le (by simpa using h)]

theorem poly_eval (p : List F) (n : Nat) (h : p.length ≤ n) (x : F) :
    (Spec.poly p).eval x = ∑ i ∈ range n, coef p i * x ^ i := by
  rw [poly_eq_sum p n h, eval_finsetSum]
  simp

theorem poly_degree_lt (p : List F) : (Spec.poly p).degree < p.length := by
  rw [degree_lt_iff_coeff_zero]
  intro m hm
  rw [poly_coeff, coef_of_le hm]

theorem poly_nil : Spec.poly ([] : List F) = 0 := by simp [Spec.poly]

theorem poly_cons (a : F) (p : List F) : Spec.poly (a :: p) = C a + X * Spec.poly p := by
  ext i
  rw [poly_coeff, coeff_add]
  cases i with
  | zero => simp [coef]
  | succ i => rw [coeff_X_mul, poly_coeff, coeff_C_succ, zero_add]; simp [coef]

theorem poly_append (p q : List F) :
    Spec.poly (p ++ q) = Spec.poly p + X ^ p.length * Spec.poly q := by
  induction p with
  | nil => simp [poly_nil]
  | cons a p ih => rw [List.cons_append, poly_cons, ih, poly_cons, List.length_cons, pow_succ]; ring

theorem poly_replicate_zero (n : Nat) : Spec.poly (List.replicate n (0 : F)) = 0 := by
  induction n with
  | zero => simp [poly_nil]
  | succ n ih => rw [List.replicate_succ, poly_cons, ih]; simp

theorem evals_length (P : F[X]) (w : F) (n : Nat) : (Spec.evals P w n).length = n := by
  simp [Spec.evals]

theorem evals_getElem (P : F[X]) (w : F) (n i : Nat) (h : i < (Spec.evals P w n).length) :
    (Spec.evals P w n)[i] = P.eval (w ^ i) := by simp [Spec.evals]

/-- Two polynomials of degree below `n` that agree on `n` points coincide. -/
theorem poly_unique {P Q : F[X]} {n : Nat} {w : F} (hP : P.degree < n) (hQ : Q.degree < n)
    (hw : ∀ i < n, ∀ j < n, w ^ i = w ^ j → i = j)
    (h : ∀ i < n, P.eval (w ^ i) = Q.eval (w ^ i)) : P = Q := by
  apply Polynomial.eq_of_degrees_lt_of_eval_index_eq (range n) (v := fun i => w ^ i)
  · intro i hi j hj hij
    exact hw i (by simpa using hi) j (by simpa using hj) hij
  · simpa using hP
  · simpa using hQ
  · intro i hi; exact h i (by simpa using hi)

/-- Interpolation exists: every list of `n` values is a list of evaluations. -/
theorem exists_interp (v : List F) (w : F)
    (hw : ∀ i < v.length, ∀ j < v.length, w ^ i = w ^ j → i = j) :
    ∃ P : F[X], P.degree < v.length ∧ v = Spec.evals P w v.length := by
  have hinj : Set.InjOn (fun i : ℕ => w ^ i) (range v.length : Finset ℕ) := by
    intro i hi j hj hij
    exact hw i (by simpa using hi) j (by simpa using hj) hij
  refine ⟨Lagrange.interpolate (range v.length) (fun i => w ^ i) (fun i => coef v i), ?_, ?_⟩
  · have := Lagrange.degree_interpolate_lt (fun i => coef v i) hinj
    simpa using this
  · apply List.ext_getElem
    · simp [evals_length]
    · intro i h1 h2
      rw [evals_getElem]
      rw [Lagrange.eval_interpolate_at_node (fun i => coef v i) hinj (by simpa using h1),
        coef_of_lt h1]

end Vdaf
