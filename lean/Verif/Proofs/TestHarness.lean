import Verif.Spec.TestHarness
import Verif.Proofs.AnyFlpInst
import Verif.Props.Custom
import Verif.Proofs.Robustness

/-!
# Proofs about the test harnesses
-/

namespace Vdaf
open Polynomial
variable {F : Type} [NttField F] {Meas Agg : Type}

/-! ### Probabilities -/

section prob
variable {α β Ω : Type}

theorem prob_nonneg (S : Set Ω) : 0 ≤ Spec.prob S := by unfold Spec.prob; positivity

theorem prob_mono [Finite Ω] {S T : Set Ω} (h : S ⊆ T) : Spec.prob S ≤ Spec.prob T := by
  unfold Spec.prob
  have := Set.ncard_le_ncard h (Set.toFinite _)
  gcongr

theorem prob_union [Finite Ω] (S T : Set Ω) : Spec.prob (S ∪ T) ≤ Spec.prob S + Spec.prob T := by
  unfold Spec.prob
  rw [← add_div]
  have := Set.ncard_union_le S T
  gcongr
  exact_mod_cast this

theorem prob_le_card [Finite Ω] {S : Set Ω} {k : ℕ} (h : S.ncard ≤ k) : Spec.prob S ≤ (k : ℚ) / Nat.card Ω := by
  unfold Spec.prob
  gcongr

theorem prob_slice [Finite α] [Finite β] [Nonempty α] {S : Set (α × β)} {c : ℚ} (hc : 0 ≤ c)
    (h : ∀ a, Spec.prob {b | (a, b) ∈ S} ≤ c) : Spec.prob S ≤ c := by
  classical
  have := Fintype.ofFinite α
  have := Fintype.ofFinite β
  rcases isEmpty_or_nonempty β with he | hne
  · unfold Spec.prob; simp [hc]
  have hb : (0 : ℚ) < Nat.card β := by exact_mod_cast Nat.card_pos
  have ha : (0 : ℚ) < Nat.card α := by exact_mod_cast Nat.card_pos
  unfold Spec.prob at h ⊢
  have hS : (S.ncard : ℚ) = ∑ a : α, (Set.ncard {b | (a, b) ∈ S} : ℚ) := by
    have : S.ncard = ∑ a : α, Set.ncard {b | (a, b) ∈ S} := by
      simp only [Set.ncard_eq_toFinset_card']
      rw [← Finset.card_sigma]
      refine Finset.card_bij (fun x _ => ⟨x.1, x.2⟩) ?_ ?_ ?_
      · intro x hx; simpa using hx
      · rintro ⟨a, b⟩ _ ⟨a', b'⟩ _ h; simpa using h
      · rintro ⟨a, b⟩ hx; exact ⟨(a, b), by simpa using hx, rfl⟩
    exact_mod_cast this
  rw [div_le_iff₀ (by rw [Nat.card_prod]; push_cast; positivity), hS, Nat.card_prod]
  calc ∑ a : α, (Set.ncard {b | (a, b) ∈ S} : ℚ) ≤ ∑ _a : α, c * Nat.card β :=
        Finset.sum_le_sum fun a _ => by
          have := h a
          rwa [div_le_iff₀ hb] at this
    _ = c * ((Nat.card α * Nat.card β : ℕ) : ℚ) := by
        rw [Finset.sum_const, Finset.card_univ, ← Nat.card_eq_fintype_card]
        push_cast
        simp only [nsmul_eq_mul]; ring

theorem prob_swap (S : Set (α × β)) : Spec.prob S = Spec.prob {x : β × α | (x.2, x.1) ∈ S} := by
  unfold Spec.prob
  rw [Nat.card_congr (Equiv.prodComm α β)]
  congr 2
  have : S = Equiv.prodComm β α '' {x : β × α | (x.2, x.1) ∈ S} := by
    ext ⟨a, b⟩
    simp
  conv_lhs => rw [this]
  exact Set.InjOn.ncard_image ((Equiv.prodComm β α).injective.injOn)

theorem prob_slice' [Finite α] [Finite β] [Nonempty β] {S : Set (α × β)} {c : ℚ} (hc : 0 ≤ c)
    (h : ∀ b, Spec.prob {a | (a, b) ∈ S} ≤ c) : Spec.prob S ≤ c := by
  rw [prob_swap]
  exact prob_slice hc h

end prob

/-! ### Gadgets -/

theorem mapRes_lag {L : ℕ} (hL : L ≤ NttField.logOrder F) (Ws : List F[X])
    (h : ∀ W ∈ Ws, W.degree < ((2 ^ L : ℕ) : WithBot ℕ)) (x : F) :
    mapRes (fun p => lagPolyEval p x) (Ws.map fun W => Spec.evals W (nthRoot F L) (2 ^ L)) =
      .ok (Ws.map fun W => W.eval x) := by
  rw [mapRes_map]
  apply mapRes_pure
  intro W hW
  exact lagPolyEval_evals hL W (h W hW) x

theorem gadget_test {g : Gadget F} {l : ℕ} (hg : g.Lawful l) (hd : 1 ≤ g.degree)
    (hcap : gadgetPolyLen g.degree (2 ^ l) ≤ NttField.genOrder F) (evalAt : F) (measPoly : List (List F))
    (h1 : measPoly.length = g.arity) (h2 : ∀ w ∈ measPoly, w.length = 2 ^ l) :
    runGadgetTest g evalAt measPoly = .ok () := by
  have hM := cap_size hcap
  have hL := (size_poly_le (L := l) hd).trans hM
  obtain ⟨Ws, hWs, rfl⟩ := exists_evals_list hL measPoly h2
  obtain ⟨Q, hQ, h3, h4⟩ := hg Ws (by simpa using h1) hWs
  unfold runGadgetTest
  rw [mapRes_lag hL Ws hWs, h3]
  simp only [Except.ok_bind']
  rw [h4]
  simp only [Except.ok_bind']
  set m := gadgetPolyLen g.degree (2 ^ l) with hm
  have hmM : m ≤ 2 ^ Nat.size (m - 1) := by
    have := Nat.lt_size_self (m - 1); omega
  have hQ' : Q.degree < ((2 ^ Nat.size (m - 1) : ℕ) : WithBot ℕ) :=
    lt_of_lt_of_le hQ (by exact_mod_cast hmM)
  rw [lagPolyEval_evals hM Q hQ']
  simp [pyAssert]

theorem gadget_test_detects {g : Gadget F} {l n : ℕ} (hl : l ≤ NttField.logOrder F) (hn : n ≤ NttField.logOrder F)
    {measPoly : List (List F)} (h2 : ∀ w ∈ measPoly, w.length = 2 ^ l) {q : F[X]}
    (hq : ∀ x inp, mapRes (fun p => lagPolyEval p x) measPoly = .ok inp → g.eval inp = .ok (q.eval x))
    {out : List F} (hout : g.evalPoly measPoly = .ok out) (hlen : out.length = 2 ^ n)
    (hbad : ∃ x, runGadgetTest g x measPoly ≠ .ok ()) :
    Set.ncard {x | runGadgetTest g x measPoly = .ok ()} ≤ max q.natDegree (2 ^ n - 1) := by
  classical
  obtain ⟨Ws, hWs, rfl⟩ := exists_evals_list hl measPoly h2
  obtain ⟨P, hP, rfl⟩ := exists_evals hn out hlen
  have key : ∀ x, runGadgetTest g x (Ws.map fun W => Spec.evals W (nthRoot F l) (2 ^ l)) = .ok () ↔
      P.eval x = q.eval x := by
    intro x
    have h3 := mapRes_lag hl Ws hWs x
    unfold runGadgetTest
    rw [h3, hout]
    simp only [Except.ok_bind']
    rw [hq x _ h3]
    simp only [Except.ok_bind']
    rw [lagPolyEval_evals hn P hP]
    simp [pyAssert]
  have hne : P - q ≠ 0 := by
    obtain ⟨x, hx⟩ := hbad
    intro h0
    exact hx ((key x).2 (by rw [sub_eq_zero.1 h0]))
  have hsub : {x | runGadgetTest g x (Ws.map fun W => Spec.evals W (nthRoot F l) (2 ^ l)) = .ok ()} ⊆
      ((P - q).roots.toFinset : Set F) := by
    intro x hx
    have := (key x).1 hx
    simp [hne, this]
  refine (Set.ncard_le_ncard hsub (Set.toFinite _)).trans ?_
  rw [Set.ncard_coe_finset]
  refine (Multiset.toFinset_card_le _).trans ((Polynomial.card_roots' _).trans
    ((Polynomial.natDegree_sub_le _ _).trans ?_))
  rw [max_comm]
  refine max_le_max le_rfl ?_
  by_cases h0 : P = 0
  · simp [h0]
  · have := (Polynomial.natDegree_lt_iff_degree_lt h0).2 hP
    omega

theorem fold_unit_ok {α : Type} (l : List α) (f : α → Res Unit) (h : ∀ a ∈ l, f a = .ok ()) :
    forFold l () (fun _ a => f a) = .ok () := by
  induction l with
  | nil => rfl
  | cons a t ih =>
    simp only [forFold, h a (by simp)]
    exact ih fun b hb => h b (by simp [hb])

/-- The part of `run_flp_test` that tests the gadgets always passes. -/
theorem flp_test_gadgets {V : Valid F Meas Agg} (hV : Spec.Circuit V) {rands : List (F × List (List F))}
    (hr : Spec.GadgetCoins V rands) (cs : List (FlpTestCase F)) :
    runFlpTest V rands cs = forFold cs () fun _ c => runFlpTestCase V c := by
  unfold runFlpTest
  have := fold_unit_ok (List.zip (List.zip V.gadgets V.gadgetCalls) rands)
    (fun x => (do
      let _ ← wirePolyLen x.1.2
      runGadgetTest x.1.1 x.2.1 x.2.2 : Res Unit)) (by
    rintro ⟨⟨g, c⟩, x, ws⟩ hmem
    obtain ⟨i, hi⟩ := List.mem_iff_getElem?.1 hmem
    rw [List.getElem?_zip_eq_some] at hi
    obtain ⟨hi1, hi2⟩ := hi
    rw [List.getElem?_zip_eq_some] at hi1
    have hp : wirePolyLen c = .ok (2 ^ Nat.size c) := wirePolyLen_ok.2 rfl
    obtain ⟨h1, h2⟩ := hr.2 i g c _ _ hi1.1 hi1.2 hp hi2
    simp only [hp, Except.ok_bind']
    exact gadget_test (gadgetLaw_iff.1 (hV.gadget i g c _ hi1.1 hi1.2 hp))
      (hV.gadget_pos g (List.mem_of_getElem? hi1.1)).2 (hV.fits i g c _ hi1.1 hi1.2 hp) x ws h1 h2)
  rw [show (forFold (List.zip (List.zip V.gadgets V.gadgetCalls) rands) () fun _ ((g, calls), evalAt, measPoly) => (do
      let _ ← wirePolyLen calls
      runGadgetTest g evalAt measPoly : Res Unit)) = .ok () from this]
  rfl

/-! ### Test cases -/

section
variable {V : Valid F Meas Agg} (hV : Spec.Circuit V) {n : ℕ} (hn : V.proofLen = .ok n) {meas : List F}
  (hmeas : meas.length = V.measLen) {o : List F} (ho : V.truncate meas = .ok o) (hol : o.length = V.outputLen)
  (h3 : 2 < PyField.modulus F)
  (expected : Bool) (x : Spec.CaseCoins V n)
include hV hn hmeas ho hol h3

open Classical in
theorem case_run : runFlpTestCase V (Spec.testCase V n meas expected x) =
    if decide (Spec.Accepts V meas (List.ofFn x.1)) = expected then (do
      let π ← V.prove meas (List.ofFn x.2.2.1) (List.ofFn x.2.1)
      let v ← V.query meas π (List.ofFn x.2.2.2.1) (List.ofFn x.2.1) 1
      let d ← V.decide v
      pyAssert (d = expected))
    else .error (.assertion "") := by
  obtain ⟨out, log, -, hl, -, -, hout⟩ := (circuit_iff.1 hV).evalPlain_eq hmeas (jr := List.ofFn x.1)
    List.length_ofFn le_rfl (one_lt_modulus F)
  have hacc : decide (out = List.replicate V.evalOutputLen 0) = decide (Spec.Accepts V meas (List.ofFn x.1)) := by
    rw [decide_eq_decide, ← hl, List.eq_replicate_length]
    constructor
    · exact fun h => ⟨out, hout, h⟩
    · rintro ⟨out', h1, h2⟩
      rw [hout] at h1
      cases h1
      exact h2
  have hpass : ∀ {p : Prop} [Decidable p], p → pyAssert (decide p) = .ok () := fun h => by simp [pyAssert, h]
  change (do
    pyAssert (decide (meas.length = V.measLen))
    let o ← V.truncate meas
    pyAssert (decide (o.length = V.outputLen))
    let v ← V.evalPlain meas (List.ofFn x.1) 1
    pyAssert (decide (decide (v = List.replicate V.evalOutputLen 0) = expected))
    let decision ← runFlp V meas (List.ofFn x.2.1) (List.ofFn x.2.2.1) (List.ofFn x.2.2.2.1) [List.ofFn x.2.2.2.2.1]
      [List.ofFn x.2.2.2.2.2] 2
    pyAssert (decide (decision = expected))) = _
  rw [hpass hmeas, ho]
  simp only [Except.ok_bind']
  rw [hpass hol, hout]
  simp only [Except.ok_bind']
  rw [hacc]
  by_cases h' : decide (Spec.Accepts V meas (List.ofFn x.1)) = expected
  · rw [if_pos h', hpass h']
    simp only [Except.ok_bind']
    have := runFlpOf_eq (bbcggi19_laws (circuit_iff.1 hV) hn) (meas := meas) (jr := List.ofFn x.2.1)
      (pr := List.ofFn x.2.2.1) (qr := List.ofFn x.2.2.2.1) hmeas List.length_ofFn List.length_ofFn List.length_ofFn
      2 (by norm_num) h3 [List.ofFn x.2.2.2.2.1] [List.ofFn x.2.2.2.2.2] rfl (by simp [flpBBCGGI19]) rfl
      (by simp [flpBBCGGI19])
    change (runFlpOf (flpBBCGGI19 V n) meas _ _ _ _ _ 2 >>= _) = _
    rw [this]
    simp only [flpBBCGGI19, bind_assoc]
  · rw [if_neg h']
    simp only [pyAssert, decide_eq_false h', Bool.false_eq_true, if_false]
    rfl

end

theorem ncard_iUnion_fin {Ω : Type} [Finite Ω] : ∀ {k : ℕ} (S : Fin k → Set Ω), (⋃ i, S i).ncard ≤ ∑ i, (S i).ncard
  | 0, S => by simp
  | k + 1, S => by
    rw [Fin.sum_univ_succ]
    have : (⋃ i, S i) = S 0 ∪ ⋃ i : Fin k, S i.succ := by
      ext x
      simp [Fin.exists_fin_succ]
    rw [this]
    exact (Set.ncard_union_le _ _).trans (Nat.add_le_add_left (ncard_iUnion_fin fun i => S i.succ) _)

/-- Few choices of the query randomness have a test point that is a root of unity. -/
theorem badTestPoint_ncard {V : Valid F Meas Agg} (hV : Spec.Circuit V) :
    Set.ncard {qr : Fin V.queryRandLen → F | Spec.BadTestPoint V (List.ofFn qr)} ≤
      (V.gadgetCalls.map fun c => 2 ^ Nat.size c).sum * PyField.modulus F ^ (V.queryRandLen - 1) := by
  classical
  have hq : V.gadgets.length ≤ V.queryRandLen := by
    unfold Valid.queryRandLen; split <;> omega
  have hsub : {qr : Fin V.queryRandLen → F | Spec.BadTestPoint V (List.ofFn qr)} ⊆
      ⋃ i : Fin V.gadgetCalls.length, {qr : Fin V.queryRandLen → F |
        (qr ⟨V.queryRandLen - V.gadgets.length + i, by have := i.2; have := hV.calls_length; omega⟩) ^
          2 ^ Nat.size (V.gadgetCalls[i]) = 1} := by
    rintro qr ⟨i, c, p, t, h1, h2, h4, h5⟩
    obtain ⟨hi, rfl⟩ := List.getElem?_eq_some_iff.1 h1
    rw [wirePolyLen_ok.1 h2] at h5
    rw [Set.mem_iUnion]
    refine ⟨⟨i, hi⟩, ?_⟩
    rw [List.getElem?_drop, List.getElem?_ofFn] at h4
    split at h4
    · cases h4; exact h5
    · cases h4
  refine (Set.ncard_le_ncard hsub (Set.toFinite _)).trans ((ncard_iUnion_fin _).trans ?_)
  have hone : ∀ i : Fin V.gadgetCalls.length, Set.ncard {qr : Fin V.queryRandLen → F |
        (qr ⟨V.queryRandLen - V.gadgets.length + i, by have := i.2; have := hV.calls_length; omega⟩) ^
          2 ^ Nat.size (V.gadgetCalls[i]) = 1} ≤
      2 ^ Nat.size (V.gadgetCalls[i]) * PyField.modulus F ^ (V.queryRandLen - 1) := by
    intro i
    rw [← card_eq]
    refine ncard_le_of_fibre _ ⟨V.queryRandLen - V.gadgets.length + i, by
      have := i.2; have := hV.calls_length; omega⟩ _ fun f =>
      ⟨(nthRoots (2 ^ Nat.size (V.gadgetCalls[i])) (1 : F)).toFinset,
        (Multiset.toFinset_card_le _).trans (card_nthRoots _ _), fun x hx => ?_⟩
    rw [Multiset.mem_toFinset, mem_nthRoots (by positivity)]
    simpa using hx
  refine (Finset.sum_le_sum fun i _ => hone i).trans (le_of_eq ?_)
  rw [← Finset.sum_mul]
  congr 1
  exact Fin.sum_univ_fun_getElem V.gadgetCalls fun c => 2 ^ Nat.size c

theorem prob_pow {k B : ℕ} (hk : 0 < k) {S : Set (Fin k → F)} (h : S.ncard ≤ B * PyField.modulus F ^ (k - 1)) :
    Spec.prob S ≤ (B : ℚ) / PyField.modulus F := by
  have hm : (0 : ℚ) < PyField.modulus F := by
    have := one_lt_modulus F
    exact_mod_cast (by omega : 0 < PyField.modulus F)
  refine (prob_le_card h).trans (le_of_eq ?_)
  rw [Nat.card_fun, Nat.card_eq_fintype_card, Nat.card_eq_fintype_card, Fintype.card_fin, card_eq]
  obtain ⟨j, rfl⟩ : ∃ j, k = j + 1 := ⟨k - 1, by omega⟩
  push_cast
  rw [pow_succ]
  field_simp

theorem prob_prod {α β : Type} (A : Set α) (T : Set β) :
    Spec.prob {x : α × β | x.1 ∈ A ∧ x.2 ∈ T} = Spec.prob A * Spec.prob T := by
  unfold Spec.prob
  rw [show {x : α × β | x.1 ∈ A ∧ x.2 ∈ T} = A ×ˢ T from rfl, Set.ncard_prod, Nat.card_prod]
  push_cast
  rw [div_mul_div_comm]

section
variable {V : Valid F Meas Agg} (hV : Spec.Circuit V) {n : ℕ} (hn : V.proofLen = .ok n) {meas : List F}
  (hmeas : meas.length = V.measLen)
include hV hn hmeas

/-- `run_flp` of an invalid measurement returns `True` with small probability. -/
theorem flp_true_prob (hg : V.gadgets ≠ []) (B : ℕ) (hB : 1 ≤ B)
    (hB' : ∀ g c p, (g, c) ∈ List.zip V.gadgets V.gadgetCalls → wirePolyLen c = .ok p → g.degree * (p - 1) ≤ B)
    {ε : ℚ} (hε : Spec.prob {jr : Fin V.jointRandLen → F | Spec.Accepts V meas (List.ofFn jr)} ≤ ε) :
    Spec.prob {y : (Fin V.jointRandLen → F) × (Fin V.proveRandLen → F) × (Fin V.queryRandLen → F) ×
      (Fin V.measLen → F) × (Fin n → F) | ∃ π v, V.prove meas (List.ofFn y.2.1) (List.ofFn y.1) = .ok π ∧
        V.query meas π (List.ofFn y.2.2.1) (List.ofFn y.1) 1 = .ok v ∧ V.decide v = .ok true} ≤
      ε + B / PyField.modulus F := by
  have h0 : (0 : ℚ) ≤ (B : ℚ) / PyField.modulus F := by positivity
  have hε0 : 0 ≤ ε := (prob_nonneg _).trans hε
  refine (prob_mono (T := {y | y.1 ∈ {jr : Fin V.jointRandLen → F | Spec.Accepts V meas (List.ofFn jr)}} ∪
    {y | ¬ Spec.Accepts V meas (List.ofFn y.1) ∧ ∃ π v, V.prove meas (List.ofFn y.2.1) (List.ofFn y.1) = .ok π ∧
        V.query meas π (List.ofFn y.2.2.1) (List.ofFn y.1) 1 = .ok v ∧ V.decide v = .ok true}) ?_).trans
    ((prob_union _ _).trans (add_le_add ?_ ?_))
  · intro y hy
    by_cases h : Spec.Accepts V meas (List.ofFn y.1)
    · exact .inl h
    · exact .inr ⟨h, hy⟩
  · exact prob_slice' hε0 fun b => hε
  · refine prob_slice h0 fun jr => prob_slice h0 fun pr => prob_slice' h0 fun b => ?_
    by_cases h : Spec.Accepts V meas (List.ofFn jr)
    · refine le_trans (le_of_eq ?_) h0
      unfold Spec.prob
      simp [h]
    obtain ⟨π, hπ, hl⟩ := (bbcggi19_laws (circuit_iff.1 hV) hn).prove meas (List.ofFn pr) (List.ofFn jr) hmeas
      List.length_ofFn List.length_ofFn
    refine (prob_mono ?_).trans (prob_pow (Vdaf.queryRandLen_pos hg)
      (bbcggi19_rejects (circuit_iff.1 hV) hn hmeas List.length_ofFn h B hB hB' π hl))
    rintro qr ⟨-, π', v, h1, h2, h4⟩
    have h1' : (flpBBCGGI19 V n).prove meas (List.ofFn pr) (List.ofFn jr) = .ok π' := h1
    rw [hπ] at h1'
    cases h1'
    exact ⟨v, h2, h4⟩

end

end Vdaf
