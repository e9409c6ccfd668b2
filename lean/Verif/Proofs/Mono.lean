import Verif.Proofs.Lagrange

/-! Correctness of the monomial-basis functions of field.py. -/

set_option linter.unusedSectionVars false

namespace Vdaf
open Polynomial Finset

variable {F : Type} [PyField F]

/-- No trailing zero coefficient. -/
def Trimmed (p : List F) : Prop := p.getLast? ≠ some 0

theorem polyStripLoop_eq (p : List F) (k : Nat) (hk : k ≤ p.length)
    (hz : ∀ i (h : i < p.length), k ≤ i → p[i] = 0) :
    ∃ q m, polyStripLoop p k = .ok q ∧ p = q ++ List.replicate m 0 ∧ Trimmed q := by
  induction k with
  | zero =>
    refine ⟨[], p.length, rfl, ?_, by simp [Trimmed]⟩
    apply List.ext_getElem
    · simp
    · intro i h1 h2; simp [hz i h1 (Nat.zero_le _)]
  | succ k ih =>
    unfold polyStripLoop
    rw [getI_of_lt (by omega : k < p.length)]
    simp only [Except.ok_bind']
    by_cases h0 : p[k] = 0
    · rw [if_neg (by simpa using h0)]
      apply ih (by omega)
      intro i h hki
      rcases Nat.eq_or_lt_of_le hki with rfl | hlt
      · exact h0
      · exact hz i h hlt
    · rw [if_pos h0]
      refine ⟨p.take (k + 1), p.length - (k + 1), rfl, ?_, ?_⟩
      · conv_lhs => rw [← List.take_append_drop (k + 1) p]
        congr 1
        apply List.ext_getElem
        · simp
        · intro i h1 h2
          simp only [List.getElem_drop, List.getElem_replicate]
          exact hz _ _ (by omega)
      · unfold Trimmed
        rw [List.getLast?_eq_getElem?]
        have : (p.take (k + 1)).length = k + 1 := by simp; omega
        rw [this]
        simp only [Nat.add_sub_cancel]
        rw [List.getElem?_take_of_lt (by omega), List.getElem?_eq_getElem (by omega)]
        simpa using h0

theorem polyStrip_eq (p : List F) :
    ∃ q m, polyStrip p = .ok q ∧ p = q ++ List.replicate m 0 ∧ Trimmed q :=
  polyStripLoop_eq p p.length le_rfl (fun i h h' => absurd h (by omega))

theorem poly_append_zeros (q : List F) (m : Nat) :
    Spec.poly (q ++ List.replicate m 0) = Spec.poly q := by
  rw [poly_append, poly_replicate_zero]; simp

theorem poly_polyStrip {p q : List F} (h : polyStrip p = .ok q) : Spec.poly q = Spec.poly p := by
  obtain ⟨q', m, h1, h2, _⟩ := polyStrip_eq p
  rw [h] at h1
  cases h1
  conv_rhs => rw [h2]
  rw [poly_append_zeros]

theorem poly_set_add (r : List F) (i : Nat) (h : i < r.length) (c : F) :
    Spec.poly (r.set i (r[i] + c)) = Spec.poly r + C c * X ^ i := by
  ext k
  simp only [poly_coeff, coeff_add, coeff_C_mul, coeff_X_pow]
  by_cases hk : k < r.length
  · rw [coef_of_lt (by simpa using hk), coef_of_lt hk, List.getElem_set]
    by_cases hik : i = k
    · subst hik; simp
    · rw [if_neg hik, if_neg (Ne.symm hik)]; simp
  · rw [coef_of_le (by simp; omega), coef_of_le (by omega), if_neg (by omega)]; simp

theorem poly_replicate (n : Nat) : Spec.poly (List.replicate n (0 : F)) = 0 :=
  poly_replicate_zero n

theorem poly_range_sum (p : List F) :
    Spec.poly p = ∑ i ∈ range p.length, C (coef p i) * X ^ i := poly_eq_sum p _ le_rfl

theorem polyMul_eq (p q : List F) :
    ∃ r, polyMul p q = .ok r ∧ Spec.poly r = Spec.poly p * Spec.poly q ∧ Trimmed r := by
  unfold polyMul
  simp only
  set n := p.length + q.length - 1 with hn
  obtain ⟨b, hb, hlen, hpoly⟩ := forFold_range p.length (List.replicate n (0 : F))
    (fun r i => forFold (List.range q.length) r fun r j => do
      let rij ← getI r (i + j)
      let pi ← getI p i
      let qj ← getI q j
      setI r (i + j) (rij + pi * qj))
    (fun i r => r.length = n ∧ Spec.poly r = (∑ t ∈ range i, C (coef p t) * X ^ t) * Spec.poly q)
    ⟨by simp, by simp [poly_replicate]⟩
    (by
      intro i hi r ⟨hrl, hr⟩
      obtain ⟨b, hb, hlen, hpoly⟩ := forFold_range q.length r
        (fun r j => do
          let rij ← getI r (i + j)
          let pi ← getI p i
          let qj ← getI q j
          setI r (i + j) (rij + pi * qj))
        (fun j r' => r'.length = n ∧ Spec.poly r' =
          Spec.poly r + C (coef p i) * X ^ i * ∑ t ∈ range j, C (coef q t) * X ^ t)
        ⟨hrl, by simp⟩
        (by
          intro j hj r' ⟨hl', hr'⟩
          rw [getI_of_lt (by omega : i + j < r'.length), getI_of_lt hi, getI_of_lt hj]
          simp only [Except.ok_bind']
          rw [setI_of_lt (by omega)]
          refine ⟨_, rfl, by simpa using hl', ?_⟩
          rw [poly_set_add _ _ (by omega), hr', sum_range_succ, coef_of_lt hi, coef_of_lt hj, C_mul,
            pow_add]
          ring)
      refine ⟨b, hb, hlen, ?_⟩
      rw [hpoly, hr, sum_range_succ, poly_range_sum q]
      ring)
  rw [hb]
  simp only [Except.ok_bind']
  obtain ⟨s, m, h1, h2, h3⟩ := polyStrip_eq b
  refine ⟨s, h1, ?_, h3⟩
  rw [poly_polyStrip h1, hpoly, ← poly_range_sum]

theorem polyAdd_eq (p q : List F) :
    ∃ r, polyAdd p q = .ok r ∧ Spec.poly r = Spec.poly p + Spec.poly q ∧ Trimmed r := by
  unfold polyAdd
  simp only
  set n := max p.length q.length with hn
  obtain ⟨b, hb, hlen, hpoly, hz⟩ := forFold_inv p.zipIdx (List.replicate n (0 : F))
    (fun r (pi : F × Nat) => setI r pi.2 pi.1)
    (fun i r => r.length = n ∧ Spec.poly r = (∑ t ∈ range i, C (coef p t) * X ^ t) ∧
      ∀ j (h : j < r.length), i ≤ j → r[j] = 0)
    ⟨by simp, by simp [poly_replicate], by simp⟩
    (by
      intro i hi r ⟨hrl, hr, hz⟩
      have hi' : i < p.length := by simpa using hi
      have hir : i < r.length := by omega
      have hzi : p.zipIdx[i] = (p[i], i) := by simp
      rw [hzi]
      simp only
      rw [setI_of_lt hir]
      refine ⟨_, rfl, by simpa using hrl, ?_, ?_⟩
      · have := poly_set_add r i hir p[i]
        rw [hz i hir le_rfl, zero_add] at this
        rw [this, hr, sum_range_succ, coef_of_lt hi']
      · intro j h hij
        have hj : j < r.length := by simpa using h
        rw [List.getElem_set, if_neg (by omega)]
        exact hz j hj (by omega))
  have hb' : (forFold p.zipIdx (List.replicate n (0 : F)) fun r x => match x with
      | (pi, i) => setI r i pi) = .ok b := hb
  rw [hb']
  simp only [Except.ok_bind']
  obtain ⟨b2, hb2, hlen2, hpoly2⟩ := forFold_inv q.zipIdx b
    (fun r (qi : F × Nat) => do
      let ri ← getI r qi.2
      setI r qi.2 (ri + qi.1))
    (fun i r => r.length = n ∧ Spec.poly r = Spec.poly b + ∑ t ∈ range i, C (coef q t) * X ^ t)
    ⟨hlen, by simp⟩
    (by
      intro i hi r ⟨hrl, hr⟩
      have hi' : i < q.length := by simpa using hi
      have hir : i < r.length := by omega
      have hzi : q.zipIdx[i] = (q[i], i) := by simp
      rw [hzi]
      simp only
      rw [getI_of_lt hir]
      simp only [Except.ok_bind']
      rw [setI_of_lt hir]
      refine ⟨_, rfl, by simpa using hrl, ?_⟩
      rw [poly_set_add r i hir, hr, sum_range_succ, coef_of_lt hi']
      ring)
  have hb2' : (forFold q.zipIdx b fun r x => match x with
      | (qi, i) => do
        let ri ← getI r i
        setI r i (ri + qi)) = .ok b2 := hb2
  rw [hb2']
  simp only [Except.ok_bind']
  obtain ⟨s, m, h1, h2, h3⟩ := polyStrip_eq b2
  refine ⟨s, h1, ?_, h3⟩
  rw [poly_polyStrip h1, hpoly2, hpoly]
  rw [poly_range_sum p, poly_range_sum q]
  simp

theorem horner (l : List F) (x acc : F) :
    l.reverse.foldl (fun result c => result * x + c) acc = acc * x ^ l.length +
      (Spec.poly l).eval x := by
  induction l generalizing acc with
  | nil => simp [poly_nil]
  | cons a l ih =>
    rw [List.reverse_cons, List.foldl_append, ih]
    simp [poly_cons]
    ring

theorem polyEval_eq (p : List F) (x : F) :
    polyEval p x = if p ≠ [] ∧ ∀ c ∈ p, c = 0 then .error .index
      else .ok ((Spec.poly p).eval x) := by
  unfold polyEval
  by_cases hp : p = []
  · subst hp; simp [poly_nil]
  · rw [if_neg (by simpa using hp)]
    obtain ⟨q, m, h1, h2, h3⟩ := polyStrip_eq p
    rw [h1]
    simp only [Except.ok_bind']
    have hpq : Spec.poly p = Spec.poly q := (poly_polyStrip h1).symm
    rcases List.eq_nil_or_concat q with rfl | ⟨q', a, rfl⟩
    · rw [if_pos]
      · rfl
      · refine ⟨hp, ?_⟩
        intro c hc
        rw [h2] at hc
        simp only [List.nil_append] at hc
        exact List.eq_of_mem_replicate hc
    · simp only [List.concat_eq_append] at *
      have ha : a ≠ 0 := by simpa [Trimmed] using h3
      rw [if_neg]
      · simp only [List.getLast?_append, List.getLast?_singleton, 
          List.dropLast_concat, Except.pure_eq', Option.some_or]
        rw [horner, hpq, poly_append]
        simp [poly_cons, poly_nil]
        ring
      · rintro ⟨_, h⟩
        exact ha (h a (by rw [h2]; simp))

theorem trimmed_length {p : List F} (h : Trimmed p) {n : Nat}
    (hd : (Spec.poly p).degree < (n : WithBot ℕ)) : p.length ≤ n := by
  rcases List.eq_nil_or_concat p with rfl | ⟨q, a, rfl⟩
  · simp
  · simp only [List.concat_eq_append] at *
    have ha : a ≠ 0 := by simpa [Trimmed] using h
    by_contra hlen
    simp only [List.length_append, List.length_singleton] at hlen
    have h0 := coeff_eq_zero_of_degree_lt (lt_of_lt_of_le hd
      (show ((n : ℕ) : WithBot ℕ) ≤ (q.length : ℕ) by exact_mod_cast (by omega)))
    rw [poly_coeff, coef_of_lt (by simp)] at h0
    exact ha (by simpa using h0)

/-! ### Newton interpolation -/

section newton
variable (x y : Nat → F)

/-- The interpolant through points `k .. k+i`. -/
noncomputable def newtI (k i : Nat) : F[X] := Lagrange.interpolate (Finset.Icc k (k + i)) x y

/-- Divided difference of points `k .. k+i`. -/
noncomputable def newtD (i k : Nat) : F := (newtI x y k i).coeff i

variable {x y}
variable {n : Nat} (hx : ∀ i < n, ∀ j < n, x i = x j → i = j)
include hx

theorem newt_injOn {k i : Nat} (h : k + i < n) :
    Set.InjOn x (Finset.Icc k (k + i) : Finset ℕ) := by
  intro a ha b hb hab
  simp only [coe_Icc, Set.mem_Icc] at ha hb
  exact hx a (by omega) b (by omega) hab

theorem newtI_degree {k i : Nat} (h : k + i < n) :
    (newtI x y k i).degree < ((i + 1 : ℕ) : WithBot ℕ) := by
  have := Lagrange.degree_interpolate_lt (r := y) (newt_injOn hx h)
  have hc : (Finset.Icc k (k + i)).card = i + 1 := by simp; omega
  rwa [hc] at this

theorem newtI_eval {k i j : Nat} (h : k + i < n) (h1 : k ≤ j) (h2 : j ≤ k + i) :
    (newtI x y k i).eval (x j) = y j :=
  Lagrange.eval_interpolate_at_node y (newt_injOn hx h) (by simp [h1, h2])

theorem newtI_unique {k i : Nat} (h : k + i < n) {Q : F[X]}
    (hd : Q.degree < ((i + 1 : ℕ) : WithBot ℕ))
    (he : ∀ j, k ≤ j → j ≤ k + i → Q.eval (x j) = y j) : Q = newtI x y k i := by
  apply Lagrange.eq_interpolate_of_eval_eq y (newt_injOn hx h)
  · have hc : (Finset.Icc k (k + i)).card = i + 1 := by simp; omega
    rwa [hc]
  · intro j hj
    simp only [mem_Icc] at hj
    exact he j hj.1 hj.2

theorem newtD_zero {k : Nat} (h : k < n) : newtD x y 0 k = y k := by
  have h1 : C (y k) = newtI x y k 0 := newtI_unique hx (by omega)
    (lt_of_le_of_lt degree_C_le (by norm_num)) (by
      intro j h1 h2
      have : j = k := by omega
      subst this; simp)
  rw [newtD, ← h1]; simp

theorem newtI_zero {k : Nat} (h : k < n) : newtI x y k 0 = C (y k) :=
  (newtI_unique hx (by omega)
    (lt_of_le_of_lt degree_C_le (by norm_num)) (by
      intro j h1 h2
      have : j = k := by omega
      subst this; simp)).symm

theorem newtD_succ {i k : Nat} (h : k + (i + 1) < n) :
    newtD x y (i + 1) k =
      (newtD x y i k - newtD x y i (k + 1)) * (x k - x (k + (i + 1)))⁻¹ := by
  set Q : F[X] := C ((x k - x (k + (i + 1)))⁻¹) *
    ((X - C (x (k + (i + 1)))) * newtI x y k i - (X - C (x k)) * newtI x y (k + 1) i) with hQ
  have hne : x k - x (k + (i + 1)) ≠ 0 := by
    rw [sub_ne_zero]; intro he
    have := hx k (by omega) _ h he
    omega
  have d1 := newtI_degree (y := y) hx (show k + i < n by omega)
  have d2 := newtI_degree (y := y) hx (show k + 1 + i < n by omega)
  have dX : ∀ (c : F) (P : F[X]), P.degree < ((i + 1 : ℕ) : WithBot ℕ) →
      ((X - C c) * P).degree < ((i + 1 + 1 : ℕ) : WithBot ℕ) := by
    intro c P hP
    by_cases hP0 : P = 0
    · subst hP0; simp
    · rw [degree_mul, degree_X_sub_C, degree_eq_natDegree hP0] at *
      norm_cast at *
      omega
  have hQd : Q.degree < ((i + 1 + 1 : ℕ) : WithBot ℕ) := by
    rw [hQ]
    refine lt_of_le_of_lt ((degree_mul_le _ _).trans (add_le_add degree_C_le le_rfl)) ?_
    rw [zero_add]
    exact lt_of_le_of_lt (degree_sub_le _ _) (max_lt (dX _ _ d1) (dX _ _ d2))
  have hQI : Q = newtI x y k (i + 1) := by
    apply newtI_unique hx h hQd
    intro j h1 h2
    rw [hQ]
    simp only [eval_mul, eval_C, eval_sub, eval_X]
    by_cases hjk : j = k
    · subst hjk
      rw [newtI_eval hx (by omega) le_rfl (by omega), sub_self, zero_mul, sub_zero, ← mul_assoc,
        inv_mul_cancel₀ hne, one_mul]
    · by_cases hjl : j = k + (i + 1)
      · subst hjl
        rw [newtI_eval (k := k + 1) hx (by omega) (by omega) (by omega), sub_self, zero_mul,
          zero_sub, ← neg_mul, neg_sub, ← mul_assoc, inv_mul_cancel₀ hne, one_mul]
      · rw [newtI_eval hx (by omega) h1 (by omega), newtI_eval hx (by omega) (by omega) (by omega)]
        rw [← sub_mul, sub_sub_sub_cancel_left, ← mul_assoc, inv_mul_cancel₀ hne, one_mul]
  have hc : ∀ (c : F) (P : F[X]), P.degree < ((i + 1 : ℕ) : WithBot ℕ) →
      ((X - C c) * P).coeff (i + 1) = P.coeff i := by
    intro c P hP
    rw [sub_mul, coeff_sub, coeff_X_mul, coeff_C_mul, coeff_eq_zero_of_degree_lt hP]; simp
  rw [newtD, ← hQI, hQ, coeff_C_mul, coeff_sub, hc _ _ d1, hc _ _ d2]
  simp only [newtD]
  ring

omit hx in
theorem newt_prod_degree (i : Nat) :
    (∏ j ∈ range i, (X - C (x j))).degree = (i : WithBot ℕ) := by
  rw [degree_prod]; simp

theorem newt_step {i : Nat} (h : i + 1 < n) :
    newtI x y 0 (i + 1) = newtI x y 0 i +
      C (newtD x y (i + 1) 0) * ∏ j ∈ range (i + 1), (X - C (x j)) := by
  set M : F[X] := ∏ j ∈ range (i + 1), (X - C (x j)) with hM
  have hMd : M.degree = ((i + 1 : ℕ) : WithBot ℕ) := newt_prod_degree (i + 1)
  have hMm : M.Monic := monic_prod_of_monic _ _ fun j _ => monic_X_sub_C _
  have d1 := newtI_degree (y := y) hx (show 0 + (i + 1) < n by omega)
  have d2 := newtI_degree (y := y) hx (show 0 + i < n by omega)
  set D := newtI x y 0 (i + 1) - (newtI x y 0 i + C (newtD x y (i + 1) 0) * M) with hD
  have hDd : D.degree < ((i + 1 : ℕ) : WithBot ℕ) := by
    rw [degree_lt_iff_coeff_zero]
    intro m hm
    rcases Nat.eq_or_lt_of_le hm with rfl | hlt
    · rw [hD, coeff_sub, coeff_add, coeff_C_mul, coeff_eq_zero_of_degree_lt d2]
      have : M.coeff (i + 1) = 1 := by
        have h1 := hMm.coeff_natDegree
        rwa [natDegree_eq_of_degree_eq_some hMd] at h1
      rw [this]
      simp [newtD]
    · rw [hD, coeff_sub, coeff_add, coeff_C_mul]
      rw [coeff_eq_zero_of_degree_lt (lt_of_lt_of_le d1 (by exact_mod_cast hlt)),
        coeff_eq_zero_of_degree_lt (lt_of_lt_of_le d2 (by exact_mod_cast hm)),
        coeff_eq_zero_of_degree_lt (lt_of_eq_of_lt hMd (by exact_mod_cast hlt))]
      simp
  have hD0 : D = 0 := by
    apply Polynomial.eq_zero_of_degree_lt_of_eval_index_eq_zero (s := range (i + 1)) (v := x)
    · intro a ha b hb hab
      simp only [coe_range, Set.mem_Iio] at ha hb
      exact hx a (by omega) b (by omega) hab
    · simpa using hDd
    · intro j hj
      have hj' : j < i + 1 := by simpa using hj
      rw [hD, eval_sub, eval_add, eval_mul, newtI_eval hx (by omega) (by omega) (by omega),
        newtI_eval hx (by omega) (by omega) (by omega), hM, eval_prod,
        Finset.prod_eq_zero hj (by simp)]
      simp
  exact sub_eq_zero.1 hD0

end newton

theorem polyInterp_trimmed (xs ys : List F) (hlen : xs.length = ys.length) (hpos : 0 < xs.length)
    (hnd : xs.Nodup) :
    ∃ p, polyInterp xs ys = .ok p ∧ p.length ≤ xs.length ∧
      (∀ i (h : i < xs.length), (Spec.poly p).eval xs[i] = ys[i]) ∧ (2 ≤ xs.length → Trimmed p) := by
  set x : Nat → F := coef xs with hx0
  set y : Nat → F := coef ys with hy0
  set n := xs.length with hn
  have hx : ∀ i < n, ∀ j < n, x i = x j → i = j := by
    intro i hi j hj hij
    rw [hx0, coef_of_lt hi, coef_of_lt hj] at hij
    exact (hnd.getElem_inj_iff).1 hij
  have hys : ys = tab n (newtD x y 0) := by
    apply List.ext_getElem
    · simp [← hlen]
    · intro i h1 h2
      rw [tab_getElem, newtD_zero hx (by omega), hy0, coef_of_lt h1]
  unfold polyInterp
  rw [pyAssert_of' hlen]
  simp only [Except.ok_bind']
  rw [getI_of_lt (by omega : 0 < ys.length)]
  simp only [Except.ok_bind']
  obtain ⟨st, hst, h1, h2, h3, h4, h5⟩ := forFold_range' 1 (n - 1)
    (([1], ys, [ys[0]]) : List F × List F × List F)
    (fun x i => do
      let xPrev ← getI xs (i - 1)
      let nextBasis ← polyMul x.1 [-xPrev, 1]
      let nextDd ← mapRes (fun k => do
          let a ← getI x.2.1 k
          let b ← getI x.2.1 (k + 1)
          let xk ← getI xs k
          let xki ← getI xs (k + i)
          pure ((a - b) * (xk - xki)⁻¹)) (List.range (x.2.1.length - 1))
      let d0 ← getI nextDd 0
      let term ← polyMul [d0] nextBasis
      let output ← polyAdd x.2.2 term
      pure (nextBasis, nextDd, output))
    (fun i st => Spec.poly st.1 = ∏ j ∈ range (i - 1), (X - C (x j)) ∧
      st.2.1 = tab (n - (i - 1)) (newtD x y (i - 1)) ∧
      Spec.poly st.2.2 = newtI x y 0 (i - 1) ∧ st.2.2.length ≤ n ∧ (2 ≤ i → Trimmed st.2.2))
    (by
      refine ⟨by simp [poly_cons, poly_nil], by simpa using hys, ?_, by simp; omega, by omega⟩
      simp only [Nat.sub_self]
      rw [newtI_zero hx hpos, hy0, coef_of_lt (by omega)]
      simp [poly_cons, poly_nil])
    (by
      rintro i hi1 hi2 ⟨pb, pd, out⟩ ⟨h1, h2, h3, h4, -⟩
      obtain ⟨i, rfl⟩ : ∃ i', i = i' + 1 := ⟨i - 1, by omega⟩
      simp only [Nat.add_sub_cancel] at h1 h2 h3 h4 ⊢
      rw [getI_of_lt (by omega : i < xs.length)]
      simp only [Except.ok_bind']
      obtain ⟨nb, hnb, hnbp, hnbt⟩ := polyMul_eq pb [-xs[i], 1]
      rw [hnb]
      simp only [Except.ok_bind']
      subst h2
      rw [tab_length, mapRes_pure _ (newtD x y (i + 1))]
      swap
      · intro k hk
        have hk' : k < n - i - 1 := by simpa using hk
        rw [getI_tab (by omega)]
        simp only [Except.ok_bind']
        rw [getI_tab (by omega)]
        simp only [Except.ok_bind']
        rw [getI_of_lt (by omega : k < xs.length), getI_of_lt (by omega : k + (i + 1) < xs.length)]
        simp only [Except.ok_bind', Except.pure_eq']
        rw [newtD_succ hx (by omega), hx0, coef_of_lt (by omega : k < xs.length),
          coef_of_lt (by omega : k + (i + 1) < xs.length)]
      simp only [Except.ok_bind']
      have htab : List.map (newtD x y (i + 1)) (List.range (n - i - 1)) =
        tab (n - (i + 1)) (newtD x y (i + 1)) := by rw [Nat.sub_sub]; rfl
      rw [htab, getI_tab (by omega)]
      simp only [Except.ok_bind']
      obtain ⟨tm, htm, htmp, _⟩ := polyMul_eq [newtD x y (i + 1) 0] nb
      rw [htm]
      simp only [Except.ok_bind']
      obtain ⟨o, ho, hop, hot⟩ := polyAdd_eq out tm
      rw [ho]
      simp only [Except.ok_bind', Except.pure_eq']
      have hb : Spec.poly nb = ∏ j ∈ range (i + 1), (X - C (x j)) := by
        rw [hnbp, h1, Finset.prod_range_succ]
        congr 1
        rw [hx0, coef_of_lt (by omega)]
        simp [poly_cons, poly_nil]
        ring
      have hO : Spec.poly o = newtI x y 0 (i + 1) := by
        rw [hop, h3, htmp, hb, newt_step hx (by omega)]
        simp [poly_cons, poly_nil]
      refine ⟨_, rfl, hb, rfl, hO, ?_, fun _ => hot⟩
      apply trimmed_length hot
      rw [hO]
      exact lt_of_lt_of_le (newtI_degree hx (by omega)) (by exact_mod_cast (by omega : i + 1 + 1 ≤ n)))
  obtain ⟨pb, pd, out⟩ := st
  refine ⟨out, by rw [← hn, hst]; rfl, h4, ?_, fun h => h5 (by omega)⟩
  intro i hi
  simp only at h3
  rw [h3, show 1 + (n - 1) - 1 = n - 1 by omega]
  have := newtI_eval (y := y) hx (show 0 + (n - 1) < n by omega) (Nat.zero_le i) (by omega)
  rwa [hx0, hy0, coef_of_lt hi, coef_of_lt (by omega)] at this

theorem polyInterp_eq (xs ys : List F) (hlen : xs.length = ys.length) (hpos : 0 < xs.length)
    (hnd : xs.Nodup) :
    ∃ p, polyInterp xs ys = .ok p ∧ p.length ≤ xs.length ∧
      ∀ i (h : i < xs.length), (Spec.poly p).eval xs[i] = ys[i] := by
  obtain ⟨p, h1, h2, h3, -⟩ := polyInterp_trimmed xs ys hlen hpos hnd
  exact ⟨p, h1, h2, h3⟩

end Vdaf
