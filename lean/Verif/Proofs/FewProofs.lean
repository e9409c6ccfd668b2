import Verif.Proofs.FlpMain

/-! For given measurement and randomness, few proofs are accepted. -/

set_option linter.unusedSectionVars false

namespace Vdaf
open Finset Polynomial

variable {F : Type} [NttField F] {Meas Agg : Type} {V : Valid F Meas Agg}

namespace Valid

theorem coef_ofFn_nat {n : ℕ} (f : Fin n → F) (i : ℕ) : coef (List.ofFn f) i = if h : i < n then f ⟨i, h⟩ else 0 := by
  split
  · next h => rw [coef_of_lt (by simpa using h), List.getElem_ofFn]
  · next h => rw [coef_of_le (by simpa using h)]

/-- The polynomial that vanishes at the roots of unity for the calls of the gadget -/
noncomputable def Zp (V : Valid F Meas Agg) : F[X] :=
  ∏ k ∈ range (2 ^ V.L 0 - 1), (X - C (nthRoot F (V.L 0) ^ (k + 1)))

/-- Add a multiple of it to the gadget polynomial of the first gadget. -/
noncomputable def shiftProof (V : Valid F Meas Agg) (c : F) (π : Fin (V.off V.num) → F) : Fin (V.off V.num) → F := fun i =>
  π i + c * if V.ar 0 ≤ i.1 ∧ i.1 < V.ar 0 + V.m 0 then V.Zp.eval (nthRoot F (V.M 0) ^ (i.1 - V.ar 0)) else 0

theorem Zp_root {k : ℕ} (hk : k < 2 ^ V.L 0 - 1) : V.Zp.eval (nthRoot F (V.L 0) ^ (k + 1)) = 0 := by
  unfold Zp
  rw [eval_prod]
  exact prod_eq_zero (mem_range.2 hk) (by simp)

theorem Lawful.Zp_ne (h : V.Lawful) (h0 : 0 < V.num) {t : F} (ht : t ^ 2 ^ V.L 0 ≠ 1) : V.Zp.eval t ≠ 0 := by
  unfold Zp
  rw [eval_prod, prod_ne_zero_iff]
  intro k _ hk
  simp only [eval_sub, eval_X, eval_C] at hk
  rw [sub_eq_zero.1 hk, ← pow_mul, mul_comm, pow_mul] at ht
  have : nthRoot F (V.L 0) ^ 2 ^ V.L 0 = 1 := nthRoot_pow_eq_one (h.L_le h0)
  rw [this, one_pow] at ht
  exact ht rfl

theorem Zp_degree (hd : 1 ≤ (V.gad 0).degree) : V.Zp.degree < ((V.m 0 : ℕ) : WithBot ℕ) := by
  have h1 : V.Zp.natDegree = 2 ^ V.L 0 - 1 := by
    unfold Zp
    rw [natDegree_prod_of_monic _ _ fun k _ => monic_X_sub_C _]
    simp only [natDegree_X_sub_C, sum_const, card_range, smul_eq_mul, mul_one]
  have h2 : 2 ^ V.L 0 - 1 < V.m 0 := by
    unfold m gadgetPolyLen
    have := Nat.mul_le_mul_right (2 ^ V.L 0 - 1) hd
    omega
  exact lt_of_le_of_lt degree_le_natDegree (by rw [h1]; exact_mod_cast h2)

theorem Lawful.shift_Pq (h : V.Lawful) (h0 : 0 < V.num) (hd : 1 ≤ (V.gad 0).degree) (c : F) (π : Fin (V.off V.num) → F) :
    V.Pq (List.ofFn (V.shiftProof c π)) 0 = V.Pq (List.ofFn π) 0 + C c * V.Zp := by
  have hoff := V.off_succ 0
  have hoff' := V.off_mono (show 0 + 1 ≤ V.num from h0)
  have hz : V.off 0 = 0 := by simp [off]
  unfold Pq
  apply gadP_unique (h.cap 0 h0) (V.m_le 0)
  · refine lt_of_le_of_lt (degree_add_le _ _) (max_lt (gadP_degree (h.cap 0 h0) (V.m_le 0) _) ?_)
    refine lt_of_le_of_lt ?_ (Zp_degree hd)
    calc (C c * V.Zp).degree ≤ (C c).degree + V.Zp.degree := degree_mul_le _ _
      _ ≤ 0 + V.Zp.degree := by gcongr; exact degree_C_le
      _ = _ := zero_add _
  · intro i hi
    have e := congrArg (fun l => l[i]?) (gadP_evals (h.cap 0 h0) (V.m_le 0) (V.gvq (List.ofFn π) 0))
    simp only [tab, Spec.evals, List.getElem?_map, List.getElem?_range hi, Option.map_some, Option.some.injEq] at e
    rw [eval_add, eval_mul, eval_C, ← e]
    unfold gvq
    rw [coef_ofFn_nat, coef_ofFn_nat, dif_pos (by omega), dif_pos (by omega)]
    unfold shiftProof
    rw [if_pos ⟨by simp [hz], by simp only [hz]; omega⟩]
    simp [hz]

theorem Lawful.shift_other (h : V.Lawful) (c : F) (π : Fin (V.off V.num) → F) {i : ℕ}
    (hi : i < V.ar 0 ∨ V.ar 0 + V.m 0 ≤ i) : coef (List.ofFn (V.shiftProof c π)) i = coef (List.ofFn π) i := by
  rw [coef_ofFn_nat, coef_ofFn_nat]
  split
  · unfold shiftProof
    rw [if_neg (by dsimp only; omega)]
    simp
  · rfl

/-- A proof and a shifted one are not both accepted. -/
theorem Lawful.shift_accept (h : V.Lawful) (h0 : 0 < V.num) (hd : 1 ≤ (V.gad 0).degree) {meas qr jr : List F}
    (hmeas : meas.length = V.measLen) (hqr : qr.length = V.queryRandLen) (hjr : jr.length = V.jointRandLen) {c : F}
    {π : Fin (V.off V.num) → F} {v v' : List F}
    (hq : V.query meas (List.ofFn π) qr jr 1 = .ok v) (hv : V.decide v = .ok true)
    (hq' : V.query meas (List.ofFn (V.shiftProof c π)) qr jr 1 = .ok v') (hv' : V.decide v' = .ok true) : c = 0 := by
  obtain ⟨out, log, t1, t2, t3, t4, t5⟩ := h.query_eq (N := 1) hmeas (π := List.ofFn π) (by simp) hqr hjr le_rfl (one_lt_modulus F)
  obtain ⟨out', log', t1', -, -, -, t5'⟩ := h.query_eq (N := 1) hmeas (π := List.ofFn (V.shiftProof c π)) (by simp) hqr hjr le_rfl
    (one_lt_modulus F)
  have hoff := V.off_succ 0
  have hz : V.off 0 = 0 := by simp [off]
  have hP := h.shift_Pq h0 hd c π
  have hP' : ∀ g, g ≠ 0 → V.Pq (List.ofFn (V.shiftProof c π)) g = V.Pq (List.ofFn π) g := by
    intro g hg
    have := V.off_mono (show 0 + 1 ≤ g by omega)
    unfold Pq
    congr 1
    funext i
    exact h.shift_other c π (.inr (by omega))
  have t1'' := Prog.trace_congr (h.wf meas jr 1 hmeas hjr le_rfl (one_lt_modulus F)) t1
    (ans' := fun g k _ => V.ansq (List.ofFn (V.shiftProof c π)) g k) (by
      intro g k inp hg hk
      have hk' : k < (log g).length := by
        by_contra hc
        rw [List.getElem?_eq_none (by omega)] at hk; cases hk
      rw [t3 g hg] at hk'
      have hc := V.calls_lt g
      unfold ansq
      by_cases hg0 : g = 0
      · subst hg0
        rw [hP, eval_add, eval_mul, Zp_root (by omega)]
        simp
      · rw [hP' g hg0])
  rw [t1'] at t1''
  obtain ⟨rfl, rfl⟩ := Prod.mk.inj (Except.ok.inj t1'')
  rw [t5] at hq
  rw [t5'] at hq'
  split at hq
  · cases hq
  · next hb =>
    rw [if_neg hb] at hq'
    have hb0 : coef qr (toff V.evalOutputLen + 0) ^ 2 ^ V.L 0 ≠ 1 := fun hh => hb ⟨0, h0, hh⟩
    cases hq
    cases hq'
    have e := hv
    have e' := hv'
    unfold vpart at e e'
    rw [h.decide_blocks] at e e'
    have a := (of_decide_eq_true (Except.ok.inj e)).2 0 h0
    have a' := (of_decide_eq_true (Except.ok.inj e')).2 0 h0
    have hw : tab (V.ar 0) (fun j => (wireP (V.L 0) (wval (V.sdq (List.ofFn (V.shiftProof c π)) 0) (log' 0) j)).eval
          (coef qr (toff V.evalOutputLen + 0))) =
        tab (V.ar 0) (fun j => (wireP (V.L 0) (wval (V.sdq (List.ofFn π) 0) (log' 0) j)).eval
          (coef qr (toff V.evalOutputLen + 0))) := by
      apply tab_congr
      intro j hj
      congr 2
      funext i
      unfold wval
      split
      · unfold sdq
        rw [hz, h.shift_other c π (.inl (by omega))]
      · rfl
    rw [hw, a, hP, eval_add, eval_mul, eval_C, left_eq_add, mul_eq_zero] at a'
    exact a'.resolve_right (h.Zp_ne h0 hb0)

/-- For given measurement and randomness, at most one in `|F|` proofs is accepted. -/
theorem Lawful.few_proofs (h : V.Lawful) (h0 : 0 < V.num) (hd : 1 ≤ (V.gad 0).degree) {meas qr jr : List F}
    (hmeas : meas.length = V.measLen) (hqr : qr.length = V.queryRandLen) (hjr : jr.length = V.jointRandLen) :
    Set.ncard {π : Fin (V.off V.num) → F | ∃ v, V.query meas (List.ofFn π) qr jr 1 = .ok v ∧ V.decide v = .ok true} *
      Fintype.card F ≤ Fintype.card F ^ V.off V.num := by
  classical
  set A := {π : Fin (V.off V.num) → F | ∃ v, V.query meas (List.ofFn π) qr jr 1 = .ok v ∧ V.decide v = .ok true}
  have hinj : Function.Injective fun x : A × F => V.shiftProof x.2 x.1.1 := by
    rintro ⟨⟨π, v, h1, h2⟩, c⟩ ⟨⟨π', v', h1', h2'⟩, c'⟩ he
    have he' : V.shiftProof (c - c') π = π' := by
      funext i
      have := congrFun he i
      simp only [shiftProof] at this ⊢
      linear_combination this
    rw [← he'] at h1'
    have := sub_eq_zero.1 (h.shift_accept h0 hd hmeas hqr hjr h1 h2 h1' h2')
    subst this
    have : π' = π := by
      rw [← he']
      funext i
      simp [shiftProof]
    subst this
    rfl
  have := Nat.card_le_card_of_injective _ hinj
  rw [Nat.card_prod, Nat.card_coe_set_eq, Nat.card_eq_fintype_card, Nat.card_eq_fintype_card, Fintype.card_fun,
    Fintype.card_fin] at this
  exact this

end Valid
end Vdaf
