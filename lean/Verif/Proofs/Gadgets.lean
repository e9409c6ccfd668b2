import Verif.Model.Circuits
import Verif.Proofs.Flp
import Verif.Proofs.Mono

/-! The gadgets of the library are lawful. -/

set_option linter.unusedSectionVars false

namespace Vdaf
open Finset Polynomial

section
variable {F : Type} [NttField F]

theorem checkEvalPoly_evals {a L : ℕ} (Ws : List F[X]) (h : Ws.length = a) :
    Gadget.checkEvalPoly a (Ws.map fun W => Spec.evals W (nthRoot F L) (2 ^ L)) = .ok () := by
  unfold Gadget.checkEvalPoly
  rw [raiseIf_of_not (by simpa using h)]
  simp only [Except.ok_bind']
  rw [forFold_pure _ _ _ (fun _ _ => ())]
  intro _ p hp
  obtain ⟨W, hW, rfl⟩ := List.mem_map.1 hp
  have hl : 0 < Ws.length := List.length_pos_of_mem hW
  rw [getI_of_lt (by simpa using hl)]
  simp only [Except.ok_bind']
  rw [raiseIf_of_not (by simp [evals_length])]

theorem size_mul_two {L : ℕ} (hL : 1 ≤ L) : Nat.size (gadgetPolyLen 2 (2 ^ L) - 1) = L + 1 := by
  have h2 : 2 ≤ 2 ^ L := by
    calc 2 = 2 ^ 1 := rfl
      _ ≤ 2 ^ L := Nat.pow_le_pow_right (by omega) hL
  apply le_antisymm
  · rw [Nat.size_le, gadgetPolyLen, pow_succ]; omega
  · rw [Nat.succ_le_iff, Nat.lt_size, gadgetPolyLen]; omega

theorem mul_evalPoly {L : ℕ} (hcap : L + 1 ≤ NttField.logOrder F) (P Q : F[X])
    (hP : P.degree < ((2 ^ L : ℕ) : WithBot ℕ)) (hQ : Q.degree < ((2 ^ L : ℕ) : WithBot ℕ)) :
    (Mul F).evalPoly ([P, Q].map fun W => Spec.evals W (nthRoot F L) (2 ^ L)) =
      .ok (Spec.evals (P * Q) (nthRoot F (L + 1)) (2 ^ (L + 1))) := by
  simp only [Mul]
  rw [checkEvalPoly_evals (a := 2) [P, Q] rfl]
  simp only [Except.ok_bind', List.map_cons, List.map_nil]
  rw [getI_of_lt (by simp), getI_of_lt (by simp)]
  simp only [Except.ok_bind', List.getElem_cons_zero, List.getElem_cons_succ]
  exact lagPolyMul_evals hcap P Q hP hQ

theorem mul_eval (x y : F) : (Mul F).eval [x, y] = .ok (x * y) := by
  simp only [Mul, Gadget.checkEval]
  rw [raiseIf_of_not (by simp)]
  rfl

theorem mul_degree_lt {P Q : F[X]} {p : ℕ} (hp : 1 ≤ p) (hP : P.degree < (p : WithBot ℕ))
    (hQ : Q.degree < (p : WithBot ℕ)) : (P * Q).degree < ((gadgetPolyLen 2 p : ℕ) : WithBot ℕ) := by
  by_cases h : P * Q = 0
  · rw [h, degree_zero]; exact WithBot.bot_lt_coe _
  · have hP0 : P ≠ 0 := left_ne_zero_of_mul h
    have hQ0 : Q ≠ 0 := right_ne_zero_of_mul h
    rw [← natDegree_lt_iff_degree_lt h, natDegree_mul hP0 hQ0]
    rw [← natDegree_lt_iff_degree_lt hP0] at hP
    rw [← natDegree_lt_iff_degree_lt hQ0] at hQ
    unfold gadgetPolyLen
    omega

theorem mul_lawful {L : ℕ} (hL : 1 ≤ L) (hcap : L + 1 ≤ NttField.logOrder F) :
    (Mul F).Lawful L := by
  intro Ws hlen hdeg
  obtain ⟨P, Q, rfl⟩ := List.length_eq_two.1 (show Ws.length = 2 from hlen)
  refine ⟨P * Q, mul_degree_lt (Nat.one_le_two_pow) (hdeg P (by simp)) (hdeg Q (by simp)), ?_, ?_⟩
  · rw [mul_evalPoly hcap P Q (hdeg P (by simp)) (hdeg Q (by simp))]
    rw [show (Mul F).degree = 2 from rfl, size_mul_two hL]
  · intro x
    simp only [List.map_cons, List.map_nil, mul_eval, eval_mul]

/-! ### `ParallelSum` -/

theorem slice_map {α β : Type} (f : α → β) (l : List α) (a b : ℕ) :
    slice (l.map f) a b = (slice l a b).map f := by
  simp [slice]

theorem slice_length {α : Type} (l : List α) (a b : ℕ) (hb : b ≤ l.length) :
    (slice l a b).length = b - a := by
  simp [slice]; omega

theorem slice_mem {α : Type} {l : List α} {a b : ℕ} {x : α} (h : x ∈ slice l a b) : x ∈ l :=
  List.mem_of_mem_take (List.mem_of_mem_drop h)

theorem block_le {i count a : ℕ} (hi : i < count) : (i + 1) * a ≤ a * count := by
  rw [mul_comm a]; exact Nat.mul_le_mul_right a hi

theorem parallelSum_lawful {sub : Gadget F} {L count : ℕ} (h : sub.Lawful L) (hc : 1 ≤ count)
    (ha : 1 ≤ sub.arity) : (ParallelSum sub count).Lawful L := by
  intro Ws hlen hdeg
  have hlen' : Ws.length = sub.arity * count := hlen
  have hQ : ∀ i, ∃ Q : F[X], i < count →
      Q.degree < ((gadgetPolyLen sub.degree (2 ^ L) : ℕ) : WithBot ℕ) ∧
      sub.evalPoly ((slice Ws (i * sub.arity) ((i + 1) * sub.arity)).map
        fun W => Spec.evals W (nthRoot F L) (2 ^ L)) =
        .ok (Spec.evals Q (nthRoot F (Nat.size (gadgetPolyLen sub.degree (2 ^ L) - 1)))
          (2 ^ Nat.size (gadgetPolyLen sub.degree (2 ^ L) - 1))) ∧
      ∀ x, sub.eval ((slice Ws (i * sub.arity) ((i + 1) * sub.arity)).map fun W => W.eval x) =
        .ok (Q.eval x) := by
    intro i
    by_cases hi : i < count
    · obtain ⟨Q, h1, h2, h3⟩ := h (slice Ws (i * sub.arity) ((i + 1) * sub.arity))
        (by rw [slice_length _ _ _ (by rw [hlen']; exact block_le hi), Nat.succ_mul]; omega)
        (fun W hW => hdeg W (slice_mem hW))
      exact ⟨Q, fun _ => ⟨h1, h2, h3⟩⟩
    · exact ⟨0, fun hc => absurd hc hi⟩
  choose Q hQ using hQ
  refine ⟨∑ i ∈ range count, Q i, ?_, ?_, ?_⟩
  · refine lt_of_le_of_lt (degree_sum_le _ _) ?_
    rw [Finset.sup_lt_iff (WithBot.bot_lt_coe _)]
    intro i hi
    exact (hQ i (by simpa using hi)).1
  · set M := Nat.size (gadgetPolyLen sub.degree (2 ^ L) - 1) with hM
    have hpos : 0 < Ws.length := by rw [hlen']; exact Nat.mul_pos ha hc
    simp only [ParallelSum]
    rw [checkEvalPoly_evals Ws hlen', getI_of_lt (by simpa using hpos)]
    simp only [Except.ok_bind', List.getElem_map, evals_length]
    rw [nextPowerOf2_of_pos (by simp [gadgetPolyLen])]
    simp only [Except.ok_bind', ← hM]
    obtain ⟨b, hb, hP⟩ := forFold_range count (List.replicate (2 ^ M) (0 : F))
      (fun outSum i => do
        let outCurrent ← sub.evalPoly (slice (Ws.map fun W => Spec.evals W (nthRoot F L) (2 ^ L))
          (i * sub.arity) ((i + 1) * sub.arity))
        forFold (List.range (2 ^ M)) outSum fun outSum j => do
          let oj ← getI outSum j
          let cj ← getI outCurrent j
          setI outSum j (oj + cj))
      (fun i b => b = tab (2 ^ M) fun j => ∑ k ∈ range i, (Q k).eval (nthRoot F M ^ j))
      (by simp [tab]) (by
        rintro i hi _ rfl
        rw [slice_map, (hQ i hi).2.1]
        simp only [Except.ok_bind']
        obtain ⟨b, hb, hP⟩ := forFold_range (2 ^ M)
          (tab (2 ^ M) fun j => ∑ k ∈ range i, (Q k).eval (nthRoot F M ^ j))
          (fun outSum j => do
            let oj ← getI outSum j
            let cj ← getI (Spec.evals (Q i) (nthRoot F M) (2 ^ M)) j
            setI outSum j (oj + cj))
          (fun n b => b = tab (2 ^ M) fun j => (∑ k ∈ range i, (Q k).eval (nthRoot F M ^ j)) +
            if j < n then (Q i).eval (nthRoot F M ^ j) else 0)
          (by simp) (by
            rintro n hn _ rfl
            rw [getI_tab hn, getI_of_lt (by rw [evals_length]; exact hn)]
            simp only [Except.ok_bind', evals_getElem]
            rw [setI_tab hn]
            refine ⟨_, rfl, ?_⟩
            apply tab_congr
            intro j _
            by_cases hj : j = n
            · subst hj; simp
            · rw [Function.update_of_ne hj]
              by_cases hjn : j < n
              · rw [if_pos hjn, if_pos (by omega)]
              · rw [if_neg hjn, if_neg (by omega)])
        refine ⟨b, hb, ?_⟩
        rw [hP]
        apply tab_congr
        intro j hj
        rw [if_pos hj, sum_range_succ])
    refine (show _ = _ from hb).trans ?_
    rw [hP]
    refine congrArg Except.ok ?_
    apply tab_congr
    intro j _
    rw [eval_finsetSum]
  · intro x
    simp only [ParallelSum, Gadget.checkEval]
    rw [raiseIf_of_not (by simpa using hlen')]
    simp only [Except.ok_bind']
    obtain ⟨b, hb, hP⟩ := forFold_range count (0 : F)
      (fun out i => do
        let y ← sub.eval (slice (Ws.map fun W => W.eval x) (i * sub.arity) ((i + 1) * sub.arity))
        return out + y)
      (fun i b => b = ∑ k ∈ range i, (Q k).eval x) (by simp) (by
        rintro i hi _ rfl
        rw [slice_map, (hQ i hi).2.2 x]
        exact ⟨_, rfl, (sum_range_succ _ _).symm⟩)
    refine (show _ = _ from hb).trans ?_
    rw [hP, eval_finsetSum]

/-! ### `PolyEval` -/

theorem polyEvalStrip_eq (p : List Int) : ∀ i, i ≤ p.length →
    (∀ j (h : j < p.length), i ≤ j → p[j] = 0) →
    (∃ c ∈ p, c ≠ 0) →
    ∃ (k : ℕ) (hk : k < p.length), polyEvalStrip p i = .ok (p.take (k + 1)) ∧ p[k] ≠ 0 ∧
      ∀ j (h : j < p.length), k < j → p[j] = 0 := by
  intro i
  induction i with
  | zero =>
    rintro - h ⟨c, hc, hc0⟩
    obtain ⟨j, hj, rfl⟩ := List.getElem_of_mem hc
    exact absurd (h j hj (Nat.zero_le _)) hc0
  | succ i ih =>
    intro hi h hne
    rw [polyEvalStrip, getI_of_lt (by omega)]
    simp only [Except.ok_bind']
    by_cases h0 : p[i] = 0
    · rw [if_neg (by simpa using h0)]
      refine ih (by omega) (fun j hj hij => ?_) hne
      by_cases hji : j = i
      · subst hji; exact h0
      · exact h j hj (by omega)
    · rw [if_pos h0]
      exact ⟨i, by omega, rfl, h0, fun j hj hij => h j hj (by omega)⟩

theorem mapRes_ofInt (p : List Int) (hp : ∀ c ∈ p, c.natAbs < PyField.modulus F) :
    mapRes (fun coeff => ofInt F coeff) p = .ok (p.map fun c : Int => (c : F)) := by
  apply mapRes_pure
  intro c hc
  have := hp c hc
  exact ofInt_eq (by omega) (by omega)

theorem intCast_ne_zero {c : Int} (h : c.natAbs < PyField.modulus F) (h0 : c ≠ 0) : (c : F) ≠ 0 := by
  intro hc
  rw [CharP.intCast_eq_zero_iff F (PyField.modulus F)] at hc
  have := Int.natAbs_dvd_natAbs.2 hc
  simp only [Int.natAbs_natCast] at this
  have := Nat.le_of_dvd (by omega) this
  omega

/-- `PolyEval(p, n)`: the constructor succeeds and the gadget is lawful.  `k` is the degree. -/
theorem polyEval_lawful (p : List Int) (n : ℕ) (hp : ∀ c ∈ p, c.natAbs < PyField.modulus F)
    (hne : ∃ i, 1 ≤ i ∧ ∃ c, p[i]? = some c ∧ c ≠ 0)
    (hcap : ∀ i c, p[i]? = some c → c ≠ 0 →
      Nat.size (gadgetPolyLen i (2 ^ Nat.size n) - 1) ≤ NttField.logOrder F) :
    ∃ G : Gadget F, PolyEval F p n = .ok G ∧ G.arity = 1 ∧ 1 ≤ G.degree ∧
      G.Lawful (Nat.size n) ∧ (∃ c, p[G.degree]? = some c ∧ c ≠ 0) ∧
      (∀ i c, p[i]? = some c → c ≠ 0 → i ≤ G.degree) ∧
      ∀ x : F, G.eval [x] = .ok ((Spec.poly (p.map fun c : Int => (c : F))).eval x) := by
  obtain ⟨i0, hi0, c0, hc0, hc00⟩ := hne
  obtain ⟨k, hk, hstrip, hk0, hkz⟩ := polyEvalStrip_eq p p.length le_rfl
    (fun j h h' => by omega) ⟨c0, List.mem_of_getElem? hc0, hc00⟩
  have hi0l := (List.getElem?_eq_some_iff.1 hc0).1
  have hik : ∀ i c, p[i]? = some c → c ≠ 0 → i ≤ k := by
    intro i c hc hcne
    by_contra hlt
    obtain ⟨hil, he⟩ := List.getElem?_eq_some_iff.1 hc
    exact hcne (by rw [← he]; exact hkz i hil (by omega))
  have hk1 : 1 ≤ k := hi0.trans (hik i0 c0 hc0 hc00)
  have hcapk := hcap k p[k] (by simp [hk]) hk0
  have hplen : (p.take (k + 1)).length = k + 1 := by simp; omega
  set q := p.take (k + 1) with hq
  set qf : List F := q.map fun c : Int => (c : F) with hqf
  have hqc : ∀ c ∈ q, c.natAbs < PyField.modulus F := fun c hc => hp c (List.mem_of_mem_take hc)
  have hqlast : (p[k] : F) ∈ qf := by
    rw [hqf, List.mem_map]
    exact ⟨p[k], by rw [hq]; exact List.mem_take_iff_getElem.2 ⟨k, by omega, rfl⟩, rfl⟩
  have hpoly : Spec.poly (p.map fun c : Int => (c : F)) = Spec.poly qf := by
    rw [hqf, hq, List.map_take]
    apply Polynomial.ext
    intro j
    rw [poly_coeff, poly_coeff]
    unfold coef
    simp only [List.getD_eq_getElem?_getD, List.getElem?_take]
    by_cases hj : j < k + 1
    · rw [if_pos hj]
    · rw [if_neg hj]
      by_cases hjl : j < p.length
      · simp [hjl, hkz j hjl (by omega)]
      · simp [hjl]
  have hev : ∀ x : F, polyEval qf x = .ok ((Spec.poly qf).eval x) := by
    intro x
    rw [polyEval_eq, if_neg]
    rintro ⟨-, hz⟩
    exact intCast_ne_zero (hp _ (List.getElem_mem _)) hk0 (hz _ hqlast)
  refine ⟨_, by
    unfold PolyEval
    rw [hstrip]
    simp only [Except.ok_bind']
    rw [raiseIf_of_not (by omega)]
    simp only [Except.ok_bind']
    rw [show wirePolyLen n = .ok (2 ^ Nat.size n) by
      unfold wirePolyLen; rw [nextPowerOf2_of_pos (by omega)]; simp]
    simp only [Except.ok_bind', hplen, Nat.add_sub_cancel]
    rw [nextPowerOf2_of_pos (by simp [gadgetPolyLen])]
    rfl, rfl, hk1, ?_, ?_, hik, ?_⟩
  · intro Ws hlen hdeg
    obtain ⟨W, rfl⟩ := List.length_eq_one_iff.1 (show Ws.length = 1 from hlen)
    have hW := hdeg W (by simp)
    have hLM : Nat.size n ≤ Nat.size (gadgetPolyLen k (2 ^ Nat.size n) - 1) := by
      by_contra hlt
      have h1 : Nat.size (gadgetPolyLen k (2 ^ Nat.size n) - 1) ≤ Nat.size n - 1 := by omega
      rw [Nat.size_le, gadgetPolyLen] at h1
      have h2 : 2 ^ Nat.size n = 2 * 2 ^ (Nat.size n - 1) := by
        rw [← pow_succ']; congr 1; omega
      have h3 : 2 ^ Nat.size n - 1 ≤ k * (2 ^ Nat.size n - 1) := Nat.le_mul_of_pos_left _ hk1
      have h4 : 1 ≤ 2 ^ (Nat.size n - 1) := Nat.one_le_two_pow
      omega
    refine ⟨(Spec.poly qf).comp W, ?_, ?_, ?_⟩
    · by_cases h0 : (Spec.poly qf).comp W = 0
      · rw [h0, degree_zero]; exact WithBot.bot_lt_coe _
      · rw [← natDegree_lt_iff_degree_lt h0]
        have h1 : (Spec.poly qf).natDegree ≤ k := by
          have := poly_degree_lt qf
          rw [show qf.length = k + 1 by rw [hqf, List.length_map, hplen]] at this
          by_cases hz : Spec.poly qf = 0
          · simp [hz]
          · have := (natDegree_lt_iff_degree_lt hz).2 this; omega
        have h2 : W.natDegree ≤ 2 ^ Nat.size n - 1 := by
          by_cases hW0 : W = 0
          · simp [hW0]
          · have := (natDegree_lt_iff_degree_lt hW0).2 hW; omega
        have := natDegree_comp_le (p := Spec.poly qf) (q := W)
        have := Nat.mul_le_mul h1 h2
        simp only [gadgetPolyLen]
        omega
    · simp only
      rw [checkEvalPoly_evals (a := 1) [W] rfl]
      simp only [Except.ok_bind', List.map_cons, List.map_nil]
      rw [getI_of_lt (by simp)]
      simp only [Except.ok_bind', List.getElem_cons_zero, evals_length]
      rw [assertPowerOf2_pow]
      simp only [Except.ok_bind']
      obtain ⟨w, hw, hwl, hwp⟩ := invNtt_evals W (by exact_mod_cast hW) (hLM.trans hcapk)
      rw [hw]
      simp only [Except.ok_bind']
      rw [ntt_evals w (by rw [hwl]; exact Nat.pow_le_pow_right (by omega) hLM) hcapk, hwp]
      simp only [Except.ok_bind']
      rw [mapRes_ofInt q hqc]
      simp only [Except.ok_bind']
      rw [mapRes_pure _ (fun x => (Spec.poly qf).eval x) _ (fun x _ => hev x)]
      refine congrArg Except.ok ?_
      rw [Spec.evals, Spec.evals, List.map_map]
      apply List.map_congr_left
      intro i _
      simp [eval_comp]
    · intro x
      simp only [Gadget.checkEval, List.map_cons, List.map_nil]
      rw [raiseIf_of_not (by simp)]
      simp only [Except.ok_bind']
      rw [mapRes_ofInt q hqc]
      simp only [Except.ok_bind']
      rw [getI_of_lt (by simp)]
      simp only [Except.ok_bind', List.getElem_cons_zero]
      rw [hev, eval_comp]
  · exact ⟨p[k], by simp [hk], hk0⟩
  · intro x
    simp only [Gadget.checkEval]
    rw [raiseIf_of_not (by simp)]
    simp only [Except.ok_bind']
    rw [mapRes_ofInt q hqc]
    simp only [Except.ok_bind']
    rw [getI_of_lt (by simp)]
    simp only [Except.ok_bind', List.getElem_cons_zero]
    rw [hev, hpoly]

end
end Vdaf
