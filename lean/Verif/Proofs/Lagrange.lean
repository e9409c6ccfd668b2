import Verif.Proofs.Ntt
import Mathlib.LinearAlgebra.Lagrange

/-! Correctness of the Lagrange-basis functions. -/

namespace Vdaf
open Polynomial Finset

section tab
variable {α β : Type}

theorem tab_succ (n : Nat) (f : Nat → α) : tab (n + 1) f = tab n f ++ [f n] := by
  simp [tab, List.range_succ]

theorem tab_zero (f : Nat → α) : tab 0 f = [] := rfl

theorem zip_tab (n : Nat) (f : Nat → α) (g : Nat → β) :
    List.zip (tab n f) (tab n g) = tab n (fun i => (f i, g i)) := by
  apply List.ext_getElem
  · simp
  · intro i h1 h2; simp [tab_getElem]

theorem zipWith_tab {γ : Type} (n : Nat) (f : Nat → α) (g : Nat → β) (h : α → β → γ) :
    List.zipWith h (tab n f) (tab n g) = tab n (fun i => h (f i) (g i)) := by
  apply List.ext_getElem
  · simp
  · intro i h1 h2; simp [tab_getElem]

theorem flatMap_pairs (n : Nat) (f : Nat → α) (h0 : Nat → α × α)
    (h : ∀ i, h0 i = (f (2 * i), f (2 * i + 1))) :
    (tab n h0).flatMap (fun (a, b) => [a, b]) = tab (2 * n) f := by
  induction n with
  | zero => rfl
  | succ n ih =>
    rw [tab_succ, List.flatMap_append, ih, show 2 * (n + 1) = 2 * n + 1 + 1 by ring, tab_succ,
      tab_succ]
    simp [h]

theorem zipIdx_tab_getElem (n : Nat) (f : Nat → α) (i : Nat) (h : i < (tab n f).zipIdx.length) :
    (tab n f).zipIdx[i] = (f i, i) := by
  simp [tab_getElem]

end tab

variable {F : Type} [NttField F]

theorem root_inj {L : Nat} (hL : L ≤ NttField.logOrder F) :
    ∀ i < 2 ^ L, ∀ j < 2 ^ L, nthRoot F L ^ i = nthRoot F L ^ j → i = j :=
  fun _ hi _ hj h => nthRoot_pow_inj hL hi hj h

/-- Every vector of length `2^L` is the list of evaluations of a polynomial. -/
theorem exists_evals {L : Nat} (hL : L ≤ NttField.logOrder F) (v : List F)
    (hv : v.length = 2 ^ L) :
    ∃ P : F[X], P.degree < ((2 ^ L : ℕ) : WithBot ℕ) ∧ v = Spec.evals P (nthRoot F L) (2 ^ L) := by
  have := exists_interp v (nthRoot F L) (by rw [hv]; exact root_inj hL)
  rwa [hv] at this

theorem doubleEvaluations_evals {L : Nat} (hL : L + 1 ≤ NttField.logOrder F) (P : F[X])
    (hP : P.degree < ((2 ^ L : ℕ) : WithBot ℕ)) :
    doubleEvaluations (Spec.evals P (nthRoot F L) (2 ^ L)) =
      .ok (Spec.evals P (nthRoot F (L + 1)) (2 ^ (L + 1))) := by
  unfold doubleEvaluations
  simp only [evals_length]
  rw [assertPowerOf2_pow]
  obtain ⟨q, hq, hlen, hqP⟩ := invNtt_evals P (by exact_mod_cast hP)
    (by omega : L ≤ NttField.logOrder F)
  simp only [Except.ok_bind', hq]
  rw [ntt_eq true q (by omega) (by simpa using hL)]
  simp only [Except.ok_bind', Except.pure_eq']
  congr 1
  rw [evals_eq_tab, zip_tab, pow_succ', evals_eq_tab]
  apply flatMap_pairs
  intro i
  have hsq := nthRoot_succ_sq hL
  rw [hqP]
  simp only [nttShift, if_true]
  rw [pow_mul, hsq, pow_succ, pow_mul, hsq, mul_comm]

theorem lagPolyMul_evals {L : Nat} (hL : L + 1 ≤ NttField.logOrder F) (P Q : F[X])
    (hP : P.degree < ((2 ^ L : ℕ) : WithBot ℕ)) (hQ : Q.degree < ((2 ^ L : ℕ) : WithBot ℕ)) :
    lagPolyMul (Spec.evals P (nthRoot F L) (2 ^ L)) (Spec.evals Q (nthRoot F L) (2 ^ L)) =
      .ok (Spec.evals (P * Q) (nthRoot F (L + 1)) (2 ^ (L + 1))) := by
  unfold lagPolyMul
  simp only [evals_length]
  rw [assertPowerOf2_pow, pyAssert_of' (by simp)]
  simp only [Except.ok_bind', doubleEvaluations_evals hL P hP, doubleEvaluations_evals hL Q hQ,
    Except.pure_eq']
  congr 1
  rw [evals_eq_tab, evals_eq_tab, evals_eq_tab, zipWith_tab]
  apply tab_congr
  intro i _
  simp

/-! ### evaluation at a point -/

theorem nodal_eq {L : Nat} (hL : L ≤ NttField.logOrder F) :
    Lagrange.nodal (range (2 ^ L)) (fun i => nthRoot F L ^ i) = X ^ 2 ^ L - 1 := by
  have hinj : Set.InjOn (fun i : ℕ => nthRoot F L ^ i) (range (2 ^ L) : Finset ℕ) := by
    intro i hi j hj hij
    exact root_inj hL i (by simpa using hi) j (by simpa using hj) hij
  apply Polynomial.eq_of_degree_sub_lt_of_eval_index_eq (range (2 ^ L)) hinj
  · rw [card_range]
    have hpos : 0 < 2 ^ L := by positivity
    have h1 : (Lagrange.nodal (range (2 ^ L)) (fun i => nthRoot F L ^ i)).degree =
        ((2 ^ L : ℕ) : WithBot ℕ) := by rw [Lagrange.degree_nodal, card_range]
    have h2 : (X ^ 2 ^ L - 1 : F[X]).degree = ((2 ^ L : ℕ) : WithBot ℕ) := by
      have := degree_X_pow_sub_C (R := F) hpos 1
      simpa using this
    have := degree_sub_lt_left (h1.trans h2.symm) (Lagrange.nodal_ne_zero)
      (by
        rw [(Lagrange.nodal_monic).leadingCoeff]
        have := (monic_X_pow_sub_C (R := F) 1 hpos.ne').leadingCoeff
        simpa using this.symm)
    rwa [h1] at this
  · intro i hi
    rw [Lagrange.eval_nodal_at_node hi]
    simp only [eval_sub, eval_pow, eval_X, eval_one]
    rw [← pow_mul, Nat.mul_comm, pow_mul, nthRoot_pow_eq_one hL, one_pow, sub_self]

theorem prod_root_diff {L i : Nat} (hL : L ≤ NttField.logOrder F) (hi : i < 2 ^ L) :
    nthRoot F L ^ i * ∏ j ∈ (range (2 ^ L)).erase i, (nthRoot F L ^ i - nthRoot F L ^ j) =
      ((2 ^ L : ℕ) : F) := by
  have h := Lagrange.eval_nodal_derivative_eval_node_eq (v := fun i => nthRoot F L ^ i)
    (show i ∈ range (2 ^ L) by simpa using hi)
  rw [nodal_eq hL, Lagrange.eval_nodal] at h
  rw [← h]
  simp only [derivative_sub, derivative_X_pow, derivative_one, sub_zero, eval_mul, eval_C,
    eval_pow, eval_X]
  have hpos : 0 < 2 ^ L := by positivity
  obtain ⟨m, hm⟩ : ∃ m, 2 ^ L = m + 1 := ⟨2 ^ L - 1, by omega⟩
  have h1 : (nthRoot F L ^ i) * (nthRoot F L ^ i) ^ (2 ^ L - 1) = 1 := by
    rw [← pow_succ', show 2 ^ L - 1 + 1 = 2 ^ L by omega, ← pow_mul, Nat.mul_comm, pow_mul,
      nthRoot_pow_eq_one hL, one_pow]
  rw [mul_left_comm, h1, mul_one]

/-- The value computed by the main loop of `poly_eval_batched` after processing index `i`. -/
def evalAcc (w x : F) (f : Nat → F) (i : Nat) : F :=
  ∑ t ∈ range (i + 1), f t * w ^ t * ∏ s ∈ (range (i + 1)).erase t, (w ^ s - x)

theorem evalAcc_zero (w x : F) (f : Nat → F) : evalAcc w x f 0 = f 0 := by
  simp [evalAcc]

theorem evalAcc_succ (w x : F) (f : Nat → F) (i : Nat) :
    evalAcc w x f (i + 1) = evalAcc w x f i * (w ^ (i + 1) - x) +
      (∏ s ∈ range (i + 1), (w ^ s - x)) * w ^ (i + 1) * f (i + 1) := by
  unfold evalAcc
  rw [sum_range_succ _ (i + 1), Finset.sum_mul]
  congr 1
  · apply Finset.sum_congr rfl
    intro t ht
    have hne : i + 1 ≠ t := by simp at ht; omega
    rw [range_add_one (n := i + 1), erase_insert_of_ne hne, Finset.prod_insert (by simp)]
    ring
  · rw [range_add_one (n := i + 1), erase_insert (by simp)]
    ring

theorem evalAcc_final {L : Nat} (hL : L ≤ NttField.logOrder F) (P : F[X])
    (hP : P.degree < ((2 ^ L : ℕ) : WithBot ℕ)) (x : F) :
    evalAcc (nthRoot F L) x (fun i => P.eval (nthRoot F L ^ i)) (2 ^ L - 1) *
      ((-1) ^ (2 ^ L - 1) * (((2 ^ L : ℕ) : F))⁻¹) = P.eval x := by
  set w := nthRoot F L with hw
  set n := 2 ^ L with hn
  have hnpos : 0 < n := by positivity
  set Q : F[X] := C ((-1) ^ (n - 1) * ((n : F))⁻¹) *
    ∑ t ∈ range n, C (P.eval (w ^ t) * w ^ t) * ∏ s ∈ (range n).erase t, (C (w ^ s) - X) with hQ
  have hQx : ∀ y, Q.eval y = evalAcc w y (fun i => P.eval (w ^ i)) (n - 1) *
      ((-1) ^ (n - 1) * ((n : F))⁻¹) := by
    intro y
    rw [hQ, evalAcc, show n - 1 + 1 = n by omega]
    simp only [eval_mul, eval_C, eval_finsetSum, eval_prod, eval_sub, eval_X]
    ring
  have hQdeg : Q.degree < (n : WithBot ℕ) := by
    have hle : Q.degree ≤ ((n - 1 : ℕ) : WithBot ℕ) := by
      rw [hQ]
      refine le_trans (degree_mul_le _ _) ?_
      refine le_trans (add_le_add degree_C_le le_rfl) ?_
      rw [zero_add]
      refine le_trans (degree_sum_le _ _) (Finset.sup_le ?_)
      intro t ht
      refine le_trans (degree_mul_le _ _) ?_
      refine le_trans (add_le_add degree_C_le le_rfl) ?_
      rw [zero_add]
      refine le_trans (degree_prod_le _ _) ?_
      refine le_trans (Finset.sum_le_card_nsmul _ _ 1 ?_) ?_
      · intro s _
        refine le_trans (degree_sub_le _ _) ?_
        rw [max_le_iff]
        exact ⟨le_trans degree_C_le (by norm_num), degree_X_le⟩
      · rw [card_erase_of_mem ht, card_range]
        simp
    refine lt_of_le_of_lt hle ?_
    exact_mod_cast (by omega : n - 1 < n)
  have hQP : Q = P := by
    apply poly_unique hQdeg hP (root_inj hL)
    intro i hi
    rw [hQx, evalAcc, show n - 1 + 1 = n by omega]
    rw [Finset.sum_eq_single i]
    · have hprod := prod_root_diff hL hi
      rw [← hw, ← hn] at hprod
      have hneg : ∏ s ∈ (range n).erase i, (w ^ s - w ^ i) =
          (-1) ^ (n - 1) * ∏ s ∈ (range n).erase i, (w ^ i - w ^ s) := by
        have hcard : ((range n).erase i).card = n - 1 := by
          rw [card_erase_of_mem (by simpa using hi), card_range]
        rw [← hcard, ← Finset.prod_const, ← Finset.prod_mul_distrib]
        apply Finset.prod_congr rfl
        intro s _; ring
      rw [hneg]
      have hn0 : ((n : ℕ) : F) ≠ 0 := by rw [hn]; exact two_pow_ne_zero' hL
      have hsign : ((-1 : F) ^ (n - 1)) * (-1) ^ (n - 1) = 1 := by
        rw [← mul_pow]; simp
      calc eval (w ^ i) P * w ^ i * ((-1) ^ (n - 1) * ∏ s ∈ (range n).erase i, (w ^ i - w ^ s)) *
            ((-1) ^ (n - 1) * (n : F)⁻¹)
          = eval (w ^ i) P * ((w ^ i * ∏ s ∈ (range n).erase i, (w ^ i - w ^ s)) * (n : F)⁻¹) *
            (((-1 : F) ^ (n - 1)) * (-1) ^ (n - 1)) := by ring
        _ = eval (w ^ i) P := by rw [hprod, hsign, mul_inv_cancel₀ hn0]; ring
    · intro t ht hti
      rw [Finset.prod_eq_zero (i := i), mul_zero]
      · simp only [mem_erase, mem_range]; exact ⟨Ne.symm hti, hi⟩
      · rw [sub_self]
    · intro h; exact absurd (by simpa using hi) h
  rw [← hQx, hQP]

theorem dedup_lengths {n : Nat} (l : List Nat) (hl : l ≠ []) (h : ∀ a ∈ l, a = n) :
    l.dedup.length = 1 := by
  have : l.dedup = [n] := by
    induction l with
    | nil => exact absurd rfl hl
    | cons a t ih =>
      have ha : a = n := h a (by simp)
      subst ha
      by_cases ht : t = []
      · subst ht; rfl
      · have hmem : a ∈ t := by
          obtain ⟨b, t', rfl⟩ := List.exists_cons_of_ne_nil ht
          have := h b (by simp)
          simp [this]
        rw [List.dedup_cons_of_mem hmem]
        exact ih ht fun b hb => h b (by simp [hb])
  rw [this]; rfl

theorem polyEvalBatched_evals {L : Nat} (hL : L ≤ NttField.logOrder F) (Ps : List F[X])
    (hne : Ps ≠ []) (hP : ∀ P ∈ Ps, P.degree < ((2 ^ L : ℕ) : WithBot ℕ)) (x : F) :
    polyEvalBatched (Ps.map fun P => Spec.evals P (nthRoot F L) (2 ^ L)) x =
      .ok (Ps.map fun P => P.eval x) := by
  set w := nthRoot F L with hw
  set n := 2 ^ L with hn
  have hnpos : 0 < n := by positivity
  set polys := Ps.map fun P => Spec.evals P w n with hpolys
  have hlen : ∀ p ∈ polys, p.length = n := by
    intro p hp
    obtain ⟨P, _, rfl⟩ := List.mem_map.1 hp
    exact evals_length _ _ _
  have hpl : polys.length = Ps.length := by simp [hpolys]
  have hpos : 0 < Ps.length := List.length_pos_of_ne_nil hne
  have hget : ∀ j (h : j < polys.length), polys[j] = Spec.evals (Ps[j]'(by omega)) w n := by
    intro j h; simp [hpolys]
  unfold polyEvalBatched
  rw [pyAssert_of' (dedup_lengths (n := n) _ (by simpa [hpolys] using hne) (by
    intro a ha
    obtain ⟨p, hp, rfl⟩ := List.mem_map.1 ha
    exact hlen p hp))]
  simp only [Except.ok_bind']
  rw [getI_of_lt (by omega : 0 < polys.length)]
  simp only [Except.ok_bind']
  rw [hlen _ (List.getElem_mem _), hn, assertPowerOf2_pow, nthRootPowers_eq, ← hn]
  simp only [Except.ok_bind']
  change (mapRes (fun p => getI p 0) polys >>= fun u => _) = _
  rw [mapRes_pure _ (fun p => coef p 0)]
  swap
  · intro p hp
    have : 0 < p.length := by rw [hlen p hp]; exact hnpos
    rw [getI_of_lt this, coef_of_lt this]
  simp only [Except.ok_bind']
  have hnodes : List.map (fun i => w ^ i) (List.range n) = tab n (fun i => w ^ i) := rfl
  rw [hnodes, getI_tab hnpos]
  simp only [Except.ok_bind']
  obtain ⟨st, hst, hinv⟩ := forFold_range' 1 (n - 1)
    ((1 : F), List.map (fun p => coef p 0) polys, w ^ 0 - x)
    (polyEvalBatchedStep polys (tab n (fun i => w ^ i)) x)
    (fun i st => st = (∏ s ∈ range (i - 1), (w ^ s - x),
      Ps.map (fun P => evalAcc w x (fun t => P.eval (w ^ t)) (i - 1)), w ^ (i - 1) - x))
    (by
      simp only [Nat.sub_self, range_zero, Finset.prod_empty, Prod.mk.injEq, true_and, and_true]
      apply List.ext_getElem
      · simp [hpl]
      · intro j h1 h2
        have hj : j < polys.length := by simpa using h1
        simp only [List.getElem_map]
        rw [evalAcc_zero, hget j hj, coef_of_lt (by rw [evals_length]; exact hnpos),
          evals_getElem])
    (by
      intro i hi1 hi2 st hst
      subst hst
      obtain ⟨i, rfl⟩ : ∃ i', i = i' + 1 := ⟨i - 1, by omega⟩
      simp only [Nat.add_sub_cancel]
      have hin : i + 1 < n := by omega
      unfold polyEvalBatchedStep
      simp only
      rw [getI_tab hin]
      simp only [Except.ok_bind']
      rw [← Finset.prod_range_succ]
      -- inner loop over the polynomials
      obtain ⟨u, hu, hinv⟩ := forFold_inv polys.zipIdx
        (Ps.map (fun P => evalAcc w x (fun t => P.eval (w ^ t)) i))
        (fun u (pj : List F × Nat) => do
          let uj ← getI u pj.2
          let u ← setI u pj.2 (uj * (w ^ (i + 1) - x))
          if i + 1 < pj.1.length then
            let uj ← getI u pj.2
            let pi ← getI pj.1 (i + 1)
            setI u pj.2 (uj + (∏ s ∈ range (i + 1), (w ^ s - x)) * w ^ (i + 1) * pi)
          else return u)
        (fun j u => u.length = Ps.length ∧ ∀ l (hl : l < Ps.length), u[l]? =
          some (evalAcc w x (fun t => Ps[l].eval (w ^ t)) (if l < j then i + 1 else i)))
        (by
          refine ⟨by simp, ?_⟩
          intro l hl
          simp [hl])
        (by
          intro j hj u ⟨hul, hu⟩
          have hjp : j < polys.length := by simpa using hj
          have hjP : j < Ps.length := by omega
          have hz : polys.zipIdx[j] = (polys[j], j) := by simp
          rw [hz]
          simp only
          have huj := hu j hjP
          rw [if_neg (by omega)] at huj
          rw [getI_of_some huj]
          simp only [Except.ok_bind']
          rw [setI_of_lt (by omega)]
          simp only [Except.ok_bind']
          have hplen : polys[j].length = n := hlen _ (List.getElem_mem _)
          rw [if_pos (by omega), getI_of_lt (by simp; omega), getI_of_lt (by omega)]
          simp only [Except.ok_bind', List.getElem_set_self]
          rw [setI_of_lt (by simp; omega)]
          refine ⟨_, rfl, by simpa using hul, ?_⟩
          intro l hl
          by_cases hlj : l = j
          · subst hlj
            rw [List.getElem?_set_self (by simp; omega), if_pos (by omega), evalAcc_succ]
            congr 2
            congr 1
            simp only [hget l hjp]
            rw [evals_getElem]
          · rw [List.getElem?_set_ne (Ne.symm hlj), List.getElem?_set_ne (Ne.symm hlj), hu l hl]
            congr 2
            by_cases h1 : l < j
            · rw [if_pos h1, if_pos (by omega)]
            · rw [if_neg h1, if_neg (by omega)])
      have hu' : forFold polys.zipIdx (Ps.map (fun P => evalAcc w x (fun t => P.eval (w ^ t)) i))
        (fun u (x_1 : List F × Nat) => match x_1 with
          | (p, j) => do
          let uj ← getI u j
          let u ← setI u j (uj * (w ^ (i + 1) - x))
          if i + 1 < p.length then
            let uj ← getI u j
            let pi ← getI p (i + 1)
            setI u j (uj + (∏ s ∈ range (i + 1), (w ^ s - x)) * w ^ (i + 1) * pi)
          else return u) = .ok u := hu
      refine ⟨_, by rw [hu']; rfl, ?_⟩
      simp only [Prod.mk.injEq, true_and, and_true]
      apply List.ext_getElem?
      intro l
      by_cases hl : l < Ps.length
      · rw [hinv.2 l hl, if_pos (by simp; omega)]
        simp [hl]
      · rw [List.getElem?_eq_none (by omega), List.getElem?_eq_none (by simp; omega)])
  rw [hst, hinv]
  simp only [Except.ok_bind']
  rw [ofInt_neg_one, ofInt_nat (by rw [hn]; exact two_pow_lt_modulus hL)]
  simp only [Except.ok_bind']
  rw [forFold_update_all _ (fun u => u * ((-1) ^ (n - 1) * ((n : F))⁻¹)), List.map_map]
  congr 1
  apply List.map_congr_left
  intro P hPmem
  simp only [Function.comp]
  have h1 : 1 + (n - 1) - 1 = n - 1 := by omega
  rw [h1]
  exact evalAcc_final hL P (hP P hPmem) x

theorem lagPolyEval_evals {L : Nat} (hL : L ≤ NttField.logOrder F) (P : F[X])
    (hP : P.degree < ((2 ^ L : ℕ) : WithBot ℕ)) (x : F) :
    lagPolyEval (Spec.evals P (nthRoot F L) (2 ^ L)) x = .ok (P.eval x) := by
  unfold lagPolyEval
  have := polyEvalBatched_evals hL [P] (by simp) (by simpa using hP) x
  simp only [List.map_cons, List.map_nil] at this
  rw [this]
  rfl

/-! ### extending evaluations -/

theorem diffProd_eq {n i m : Nat} (g : Nat → F) (hi : i < n) (hm : m ≤ n) :
    diffProd (tab n g) i (List.range m) = .ok (∏ j ∈ (range m).erase i, (g i - g j)) := by
  unfold diffProd
  rw [getI_tab hi]
  simp only [Except.ok_bind']
  rw [mapRes_pure _ (fun j => g i - g j)]
  swap
  · intro j hj
    have hj' : j < m := by
      have := (List.mem_filter.1 hj).1; simpa using this
    rw [getI_tab (by omega)]; rfl
  simp only [Except.ok_bind', Except.pure_eq']
  congr 1
  have hfold : ∀ l : List F, l.foldl (fun a b => a * b) 1 = l.prod := by
    intro l; exact List.prod_eq_foldl.symm
  rw [hfold, ← List.prod_toFinset _ (List.nodup_range.filter _)]
  apply Finset.prod_congr
  · ext j; simp; tauto
  · intro j _; rfl

theorem extendStep_eq {L k : Nat} (hL : L ≤ NttField.logOrder F) (hk : k < 2 ^ L) (P : F[X])
    (hP : P.degree < (k : WithBot ℕ)) (wf : Nat → F)
    (hwf : ∀ i < k, wf i = ∏ j ∈ (range k).erase i, (nthRoot F L ^ i - nthRoot F L ^ j)) :
    ∃ wf' : Nat → F,
      extendStep (tab (2 ^ L) (fun i => nthRoot F L ^ i))
        (tab (2 ^ L) wf, Spec.evals P (nthRoot F L) k) k =
        .ok (tab (2 ^ L) wf', Spec.evals P (nthRoot F L) (k + 1)) ∧
      ∀ i < k + 1, wf' i = ∏ j ∈ (range (k + 1)).erase i, (nthRoot F L ^ i - nthRoot F L ^ j) := by
  set w := nthRoot F L with hw
  set n := 2 ^ L with hn
  have hinjw : ∀ i < n, ∀ j < n, w ^ i = w ^ j → i = j := root_inj hL
  set g : Nat → F := fun i => w ^ i with hg
  -- new weights
  set wf1 : Nat → F := fun i => if i < k then wf i * (g i - g k) else wf i with hwf1
  have hwf1v : ∀ i < k, wf1 i = ∏ j ∈ (range (k + 1)).erase i, (g i - g j) := by
    intro i hi
    rw [hwf1]
    simp only [hi, if_true]
    rw [hwf i hi, range_add_one, erase_insert_of_ne (by omega), Finset.prod_insert (by simp)]
    ring
  have hwf1ne : ∀ i < k, wf1 i ≠ 0 := by
    intro i hi
    rw [hwf1v i hi, Finset.prod_ne_zero_iff]
    intro j hj
    simp only [mem_erase, mem_range] at hj
    rw [sub_ne_zero]
    intro h
    exact hj.1 (hinjw i (by omega) j (by omega) h).symm
  set wk : F := ∏ j ∈ (range k).erase k, (g k - g j) with hwk
  have herase : (range k).erase k = range k := by
    apply Finset.erase_eq_of_notMem; simp
  refine ⟨Function.update wf1 k wk, ?_, ?_⟩
  · unfold extendStep
    simp only
    rw [getI_tab hk]
    simp only [Except.ok_bind']
    obtain ⟨b, hb, hbP⟩ := forFold_range k (tab n wf)
      (fun w i => do
        let wi ← getI w i
        let xi ← getI (tab n g) i
        setI w i (wi * (xi - g k)))
      (fun i q => q = tab n (fun z => if z < i then wf z * (g z - g k) else wf z))
      (by simp)
      (by
        intro i hi q hq
        subst hq
        rw [getI_tab (by omega)]
        simp only [Except.ok_bind']
        rw [getI_tab (by omega)]
        simp only [Except.ok_bind']
        rw [setI_tab (by omega)]
        refine ⟨_, rfl, ?_⟩
        apply tab_congr
        intro z hz
        by_cases hzi : z = i
        · subst hzi; simp
        · rw [Function.update_of_ne hzi]
          by_cases h1 : z < i
          · rw [if_pos h1, if_pos (by omega)]
          · rw [if_neg h1, if_neg (by omega)])
    rw [hb, hbP]
    simp only [Except.ok_bind']
    change ((forFold (Spec.evals P w k).zipIdx (0, 1) fun x_1 x_2 => _) >>= fun _ => _) = _
    obtain ⟨b2, hb2, hb2P⟩ := forFold_inv (Spec.evals P w k).zipIdx ((0 : F), (1 : F))
      (fun (y : F × F) (vi : F × Nat) => do
        let wi ← getI (tab n wf1) vi.2
        return (y.1 * wi + y.2 * vi.1, y.2 * wi))
      (fun i y => y.2 ≠ 0 ∧ y.1 = y.2 * ∑ t ∈ range i, P.eval (g t) * (wf1 t)⁻¹)
      (by simp)
      (by
        intro i hi y ⟨hy1, hy2⟩
        have hik : i < k := by simpa [evals_length] using hi
        have hz : (Spec.evals P w k).zipIdx[i] = (P.eval (g i), i) := by
          simp [Spec.evals, hg]
        rw [hz]
        simp only
        rw [getI_tab (by omega)]
        refine ⟨_, rfl, mul_ne_zero hy1 (hwf1ne i hik), ?_⟩
        simp only
        rw [sum_range_succ, hy2]
        have := hwf1ne i hik
        field_simp)
    have hb2' : (forFold (Spec.evals P w k).zipIdx ((0 : F), (1 : F))
        fun (x : F × F) (x_1 : F × Nat) => match x with
          | (yNum, yDen) => match x_1 with
            | (v, i) => do
              let wi ← getI (tab n wf1) i
              return (yNum * wi + yDen * v, yDen * wi)) = .ok b2 := hb2
    rw [hb2']
    simp only [Except.ok_bind']
    obtain ⟨yNum, yDen⟩ := b2
    simp only at hb2P ⊢
    rw [diffProd_eq g hk hk.le, ← hwk]
    simp only [Except.ok_bind']
    rw [setI_tab hk]
    simp only [Except.ok_bind', Except.pure_eq']
    congr 2
    rw [evals_eq_tab, evals_eq_tab, tab_succ]
    congr 2
    -- the new value
    have hlen : (Spec.evals P w k).zipIdx.length = k := by simp [evals_length]
    rw [hlen] at hb2P
    obtain ⟨hd, hnum⟩ := hb2P
    rw [hnum]
    have hinj : Set.InjOn g (range k : Finset ℕ) := by
      intro i hi j hj hij
      exact hinjw i (by simp at hi; omega) j (by simp at hj; omega) hij
    have hPeq : P = Lagrange.interpolate (range k) g (fun i => P.eval (g i)) :=
      Lagrange.eq_interpolate_of_eval_eq _ hinj (by simpa using hP) (fun i _ => rfl)
    have hkg : ∀ i ∈ range k, g k ≠ g i := by
      intro i hi h
      have hi' : i < k := by simpa using hi
      have := hinjw k (by omega) i (by omega) h
      omega
    have heval := Lagrange.eval_interpolate_not_at_node (s := range k) (v := g)
      (fun i => P.eval (g i)) hkg
    rw [← hPeq, Lagrange.eval_nodal] at heval
    change _ = P.eval (g k)
    rw [heval, hwk, herase, mul_comm yDen, ← mul_assoc, mul_assoc _ yDen, mul_inv_cancel₀ hd,
      mul_one, neg_mul, ← mul_neg, ← Finset.sum_neg_distrib]
    congr 1
    apply Finset.sum_congr rfl
    intro i hi
    have hi' : i < k := by simpa using hi
    have h1 : wf1 i = (∏ j ∈ (range k).erase i, (g i - g j)) * (g i - g k) := by
      rw [hwf1]; simp only [hi', if_true]; rw [hwf i hi']
    rw [h1, Lagrange.nodalWeight, Finset.prod_inv_distrib, mul_inv,
      show (g i - g k) = -(g k - g i) by ring, inv_neg]
    ring
  · intro i hi
    by_cases hik : i = k
    · subst hik
      rw [Function.update_self, hwk, herase, range_add_one, erase_insert (by simp)]
    · rw [Function.update_of_ne hik]
      exact hwf1v i (by omega)

theorem extendValues_evals {L m : Nat} (hL : L ≤ NttField.logOrder F) (hm : m ≤ 2 ^ L) (P : F[X])
    (hP : P.degree < (m : WithBot ℕ)) :
    extendValues (Spec.evals P (nthRoot F L) m) (2 ^ L) =
      .ok (Spec.evals P (nthRoot F L) (2 ^ L)) := by
  unfold extendValues
  simp only [evals_length]
  rw [assertPowerOf2_pow, nthRootPowers_eq, pyAssert_of' (by simpa using hm)]
  simp only [Except.ok_bind']
  set w := nthRoot F L with hw
  set n := 2 ^ L with hn
  have hnodes : List.map (fun i => w ^ i) (List.range n) = tab n (fun i => w ^ i) := rfl
  rw [hnodes]
  obtain ⟨b, hb, hbP⟩ := forFold_range m (List.replicate n (0 : F))
    (fun w' i => do
      let d ← diffProd (tab n (fun i => w ^ i)) i (List.range m)
      setI w' i d)
    (fun i q => q = tab n (fun z => if z < i then ∏ j ∈ (range m).erase z, (w ^ z - w ^ j) else 0))
    (by
      apply List.ext_getElem
      · simp
      · intro i h1 h2; simp [tab_getElem])
    (by
      intro i hi q hq
      subst hq
      rw [diffProd_eq _ (by omega) hm]
      simp only [Except.ok_bind']
      rw [setI_tab (by omega)]
      refine ⟨_, rfl, ?_⟩
      apply tab_congr
      intro z hz
      by_cases hzi : z = i
      · subst hzi; simp
      · rw [Function.update_of_ne hzi]
        by_cases h1 : z < i
        · rw [if_pos h1, if_pos (by omega)]
        · rw [if_neg h1, if_neg (by omega)])
  rw [hb, hbP]
  simp only [Except.ok_bind']
  obtain ⟨st, hst, wf, h1, h2⟩ := forFold_range' m (n - m)
    (tab n (fun z => if z < m then ∏ j ∈ (range m).erase z, (w ^ z - w ^ j) else 0),
      Spec.evals P w m)
    (extendStep (tab n (fun i => w ^ i)))
    (fun k st => ∃ wf : Nat → F, st = (tab n wf, Spec.evals P w k) ∧
      ∀ i < k, wf i = ∏ j ∈ (range k).erase i, (w ^ i - w ^ j))
    ⟨_, rfl, fun i hi => by simp [hi]⟩
    (by
      rintro k hk1 hk2 st ⟨wf, rfl, hwf⟩
      obtain ⟨wf', h1, h2⟩ := extendStep_eq hL (by omega : k < 2 ^ L) P
        (lt_of_lt_of_le hP (by exact_mod_cast hk1)) wf hwf
      exact ⟨_, h1, wf', rfl, h2⟩)
  rw [hst, h1]
  simp only [Except.ok_bind', Except.pure_eq']
  rw [show m + (n - m) = n by omega]

end Vdaf
