import Verif.Proofs.TestHarness
import Verif.Props.Flp
import Verif.Props.Poplar1Main

/-!
# C80: the test harnesses of the library tell the truth

`TestFlpBBCGGI19` and `TestVdaf` are what implementers of new gadgets, circuits and VDAFs run on their code.  A correct
implementation passes (except if a random choice is unlucky, with a probability that is bounded here), and a wrong one, or a wrong
expectation, fails (except with a bounded probability).
-/

namespace Vdaf
open Polynomial
variable {F : Type} [NttField F] {Meas Agg : Type} {prims : Prims} {fuel : ℕ}

/-! ## Gadgets -/

/-- C80: `run_gadget_test` passes for every gadget that is the polynomial it claims to be, whatever the random
elements. -/
theorem C80_gadget_test {g : Gadget F} {l : ℕ} (hg : Spec.GadgetLaw g (2 ^ l)) (hd : 1 ≤ g.degree)
    (hcap : gadgetPolyLen g.degree (2 ^ l) ≤ NttField.genOrder F) (evalAt : F) (measPoly : List (List F))
    (h1 : measPoly.length = g.arity) (h2 : ∀ w ∈ measPoly, w.length = 2 ^ l) :
    runGadgetTest g evalAt measPoly = .ok () := gadget_test (gadgetLaw_iff.1 hg) hd hcap evalAt measPoly h1 h2

/-- C80: if `run_gadget_test` does not pass for some evaluation point, then it passes for few evaluation points.  Here
`eval` is a polynomial in the evaluation point, and `eval_poly` returns any vector of length `2^n`. -/
theorem C80_gadget_test_detects {g : Gadget F} {l n : ℕ} (hl : l ≤ NttField.logOrder F) (hn : n ≤ NttField.logOrder F)
    {measPoly : List (List F)} (h2 : ∀ w ∈ measPoly, w.length = 2 ^ l) {q : F[X]}
    (hq : ∀ x inp, mapRes (fun p => lagPolyEval p x) measPoly = .ok inp → g.eval inp = .ok (q.eval x))
    {out : List F} (hout : g.evalPoly measPoly = .ok out) (hlen : out.length = 2 ^ n)
    (hbad : ∃ x, runGadgetTest g x measPoly ≠ .ok ()) :
    Set.ncard {x | runGadgetTest g x measPoly = .ok ()} ≤ max q.natDegree (2 ^ n - 1) :=
  gadget_test_detects hl hn h2 hq hout hlen hbad

-- `Mul` passes
example : runGadgetTest (Mul Field64) 5 [[1, 2], [3, 4]] = .ok () := by decide +kernel

/-- `Mul` with a wrong `eval_poly`, that adds its inputs -/
def wrongMul : Gadget Field64 where
  arity := 2
  degree := 2
  eval := (Mul Field64).eval
  evalPoly ps := do
    let a ← getI ps 0
    let b ← getI ps 1
    return List.zipWith (· + ·) a b

-- it is caught at `5`, therefore at all but two points; with the wires `X` and `X` these are `0` and `2`
example : Set.ncard {x | runGadgetTest wrongMul x [[1, -1], [1, -1]] = .ok ()} ≤ 2 := by
  have hlag : ∀ x : Field64, lagPolyEval [1, -1] x = .ok x := fun x => by
    have := lagPolyEval_evals (F := Field64) (L := 1) (by decide +kernel) X
      (by rw [degree_X]; exact_mod_cast (by norm_num : 1 < 2 ^ 1)) x
    rw [eval_X] at this
    rw [← this]
    congr 1
    simp only [Spec.evals, eval_X]
    decide +kernel
  refine (C80_gadget_test_detects (g := wrongMul) (l := 1) (n := 1) (by decide +kernel) (by decide +kernel)
    (by simp) (q := X ^ 2) ?_ (out := [2, -2]) (by decide +kernel) rfl ⟨5, by decide +kernel⟩).trans (by simp)
  intro x inp h
  simp only [mapRes_cons, mapRes_nil, hlag, Except.ok_bind'] at h
  cases h
  rw [eval_pow, eval_X, pow_two]
  rfl
example : runGadgetTest wrongMul 0 [[1, -1], [1, -1]] = .ok () ∧ runGadgetTest wrongMul 2 [[1, -1], [1, -1]] = .ok () ∧
    runGadgetTest wrongMul 5 [[1, -1], [1, -1]] = .error (.assertion "") := by decide +kernel
example : gadgetPolyLen (Mul Field64).degree (2 ^ 4) ≤ NttField.genOrder Field64 ∧
    Spec.GadgetLaw (Mul Field64) (2 ^ 4) := by
  refine ⟨by decide +kernel, ?_⟩
  have := (C55_gadgets (F := Field64) (calls := 15) (by norm_num) .mul (p := 2 ^ 4) (by decide +kernel)
    (by decide +kernel)).1
  exact this

/-! ## Circuits -/

/-- C80: the tests of the gadgets in `run_flp_test` always pass for a correct circuit, so the result is that of the
test cases. -/
theorem C80_flp_test_gadgets {V : Valid F Meas Agg} (hV : Spec.Circuit V) {rands : List (F × List (List F))}
    (hr : Spec.GadgetCoins V rands) (cs : List (FlpTestCase F)) :
    runFlpTest V rands cs = forFold cs () fun _ c => runFlpTestCase V c := flp_test_gadgets hV hr cs

/-- C80: the probability that a test point is a root of unity is small, at most the sum of the lengths of the wire polynomials over `MODULUS`. -/
theorem C80_unlucky {V : Valid F Meas Agg} (hV : Spec.Circuit V) {n : ℕ} (hg : V.gadgets ≠ []) {ps : List ℕ} (hps : mapRes wirePolyLen V.gadgetCalls = .ok ps) :
    Spec.prob {x : Spec.CaseCoins V n | Spec.BadTestPoint V (List.ofFn x.2.2.2.1)} ≤
      (ps.sum : ℚ) / PyField.modulus F := by
  have h0 : (0 : ℚ) ≤ (ps.sum : ℚ) / PyField.modulus F := by positivity
  refine prob_slice h0 fun _ => prob_slice h0 fun _ => prob_slice h0 fun _ => prob_slice' h0 fun _ => ?_
  have : ps = V.gadgetCalls.map fun c => 2 ^ Nat.size c := by
    rw [mapRes_pure _ (fun c => 2 ^ Nat.size c) _ fun c _ => wirePolyLen_ok.2 rfl] at hps
    cases hps; rfl
  subst this
  exact prob_pow (queryRandLen_pos hg) (badTestPoint_ncard hV)

section
variable {V : Valid F Meas Agg} (hV : Spec.Circuit V) {n : ℕ} (hn : V.proofLen = .ok n) {meas : List F}
  (hmeas : meas.length = V.measLen) {o : List F} (ho : V.truncate meas = .ok o) (hol : o.length = V.outputLen)
  (h3 : 2 < PyField.modulus F)
include hV hn hmeas ho hol h3

/-- C80: a test case that expects a valid measurement to be accepted passes, unless a test point is a root of unity. -/
theorem C80_case_accepted (hacc : ∀ jr : List F, jr.length = V.jointRandLen → Spec.Accepts V meas jr)
    (x : Spec.CaseCoins V n) :
    (¬ Spec.BadTestPoint V (List.ofFn x.2.2.2.1) ∧
      runFlpTestCase V (Spec.testCase V n meas true x) = .ok ()) ∨
    (Spec.BadTestPoint V (List.ofFn x.2.2.2.1) ∧
      runFlpTestCase V (Spec.testCase V n meas true x) = .error rootOfUnityErr) := by
  classical
  rw [case_run hV hn hmeas ho hol h3, if_pos (decide_eq_true (hacc _ List.length_ofFn))]
  have := C55_run_flp hV (pr := List.ofFn x.2.2.1) (qr := List.ofFn x.2.2.2.1) hmeas List.length_ofFn List.length_ofFn
    List.length_ofFn (hacc (List.ofFn x.2.1) List.length_ofFn) 1 le_rfl (one_lt_modulus F) [] [] rfl (by simp) rfl
    (by simp)
  have h4 := runFlpOf_eq (bbcggi19_laws (circuit_iff.1 hV) hn) (meas := meas) (jr := List.ofFn x.2.1)
    (pr := List.ofFn x.2.2.1) (qr := List.ofFn x.2.2.2.1) hmeas List.length_ofFn List.length_ofFn List.length_ofFn
    1 le_rfl (one_lt_modulus F) [] [] rfl (by simp) rfl (by simp)
  have h4' : runFlp V meas (List.ofFn x.2.1) (List.ofFn x.2.2.1) (List.ofFn x.2.2.2.1) [] [] 1 = (do
      let π ← V.prove meas (List.ofFn x.2.2.1) (List.ofFn x.2.1)
      let v ← V.query meas π (List.ofFn x.2.2.2.1) (List.ofFn x.2.1) 1
      V.decide v) := h4
  rw [h4'] at this
  have h5 : (do
      let π ← V.prove meas (List.ofFn x.2.2.1) (List.ofFn x.2.1)
      let v ← V.query meas π (List.ofFn x.2.2.2.1) (List.ofFn x.2.1) 1
      let d ← V.decide v
      pyAssert (decide (d = true)) : Res Unit) = ((do
      let π ← V.prove meas (List.ofFn x.2.2.1) (List.ofFn x.2.1)
      let v ← V.query meas π (List.ofFn x.2.2.2.1) (List.ofFn x.2.1) 1
      V.decide v : Res Bool) >>= fun d => pyAssert (decide (d = true))) := by simp only [bind_assoc]
  rw [h5]
  rcases this with ⟨hb, h⟩ | ⟨hb, h⟩
  · exact .inl ⟨hb, by rw [h]; rfl⟩
  · exact .inr ⟨hb, by rw [h]; rfl⟩

/-- C80: a test case that expects a valid measurement to be rejected always fails. -/
theorem C80_case_accepted_wrong (hacc : ∀ jr : List F, jr.length = V.jointRandLen → Spec.Accepts V meas jr)
    (x : Spec.CaseCoins V n) : Spec.Fails (runFlpTestCase V (Spec.testCase V n meas false x)) := by
  classical
  rw [case_run hV hn hmeas ho hol h3, if_neg (by simpa using hacc _ List.length_ofFn)]
  exact ⟨_, rfl⟩

/-- C80: a test case that expects an invalid measurement to be rejected passes or fails, or raises if a test point is a
root of unity; and it fails with small probability.  Here `ε` is the probability that the circuit accepts the
measurement, which is small (`C15_sumvec_rejects` etc.), or zero if it uses no joint randomness. -/
theorem C80_case_rejected (hg : V.gadgets ≠ []) (B : ℕ) (hB : 1 ≤ B)
    (hB' : ∀ g c p, (g, c) ∈ List.zip V.gadgets V.gadgetCalls → wirePolyLen c = .ok p → g.degree * (p - 1) ≤ B)
    {ε : ℚ} (hε : Spec.prob {jr : Fin V.jointRandLen → F | Spec.Accepts V meas (List.ofFn jr)} ≤ ε) :
    (∀ x : Spec.CaseCoins V n, runFlpTestCase V (Spec.testCase V n meas false x) = .ok () ∨
      Spec.Fails (runFlpTestCase V (Spec.testCase V n meas false x)) ∨
      Spec.BadTestPoint V (List.ofFn x.2.2.2.1) ∧
        runFlpTestCase V (Spec.testCase V n meas false x) = .error rootOfUnityErr) ∧
    Spec.prob {x : Spec.CaseCoins V n | Spec.Fails (runFlpTestCase V (Spec.testCase V n meas false x))} ≤
      2 * ε + B / PyField.modulus F := by
  classical
  have key : ∀ x : Spec.CaseCoins V n, Spec.Accepts V meas (List.ofFn x.1) ∧
        Spec.Fails (runFlpTestCase V (Spec.testCase V n meas false x)) ∨
      Spec.BadTestPoint V (List.ofFn x.2.2.2.1) ∧
        runFlpTestCase V (Spec.testCase V n meas false x) = .error rootOfUnityErr ∨
      ∃ π v b, V.prove meas (List.ofFn x.2.2.1) (List.ofFn x.2.1) = .ok π ∧
        V.query meas π (List.ofFn x.2.2.2.1) (List.ofFn x.2.1) 1 = .ok v ∧ V.decide v = .ok b ∧
        runFlpTestCase V (Spec.testCase V n meas false x) = pyAssert (decide (b = false)) := by
    intro x
    rw [case_run hV hn hmeas ho hol h3]
    by_cases h : Spec.Accepts V meas (List.ofFn x.1)
    · rw [if_neg (by simpa using h)]
      exact .inl ⟨h, _, rfl⟩
    rw [if_pos (by simpa using h)]
    obtain ⟨t1, t2, t3⟩ := C55_total hV
    obtain ⟨π, hπ, hl⟩ := t1 meas (List.ofFn x.2.2.1) (List.ofFn x.2.1) hmeas List.length_ofFn List.length_ofFn
    rw [hπ]
    simp only [Except.ok_bind']
    rcases t2 meas π (List.ofFn x.2.2.2.1) (List.ofFn x.2.1) 1 hmeas hl List.length_ofFn List.length_ofFn le_rfl
      (one_lt_modulus F) with ⟨hb, hq⟩ | ⟨-, v, hq, hv⟩
    · exact .inr (.inl ⟨hb, by rw [hq]; rfl⟩)
    · obtain ⟨b, hb⟩ := t3 v hv
      refine .inr (.inr ⟨π, v, b, rfl, hq, hb, ?_⟩)
      rw [hq]
      simp only [Except.ok_bind', hb]
  constructor
  · intro x
    rcases key x with ⟨-, h⟩ | h | ⟨π, v, b, -, -, -, h⟩
    · exact .inr (.inl h)
    · exact .inr (.inr h)
    · rw [h]
      cases b
      · exact .inl rfl
      · exact .inr (.inl ⟨_, rfl⟩)
  · have hε0 : 0 ≤ ε := (prob_nonneg _).trans hε
    have h0 : (0 : ℚ) ≤ ε + (B : ℚ) / PyField.modulus F := by positivity
    have p1 : Spec.prob {x : Spec.CaseCoins V n | Spec.Accepts V meas (List.ofFn x.1)} ≤ ε :=
      prob_slice' hε0 fun _ => hε
    have p2 : Spec.prob {x : Spec.CaseCoins V n | ∃ π v, V.prove meas (List.ofFn x.2.2.1) (List.ofFn x.2.1) = .ok π ∧
        V.query meas π (List.ofFn x.2.2.2.1) (List.ofFn x.2.1) 1 = .ok v ∧ V.decide v = .ok true} ≤
        ε + B / PyField.modulus F := by
      refine prob_slice h0 fun _ => ?_
      exact flp_true_prob hV hn hmeas hg B hB hB' hε
    refine (prob_mono (T := {x | Spec.Accepts V meas (List.ofFn x.1)} ∪
      {x | ∃ π v, V.prove meas (List.ofFn x.2.2.1) (List.ofFn x.2.1) = .ok π ∧
        V.query meas π (List.ofFn x.2.2.2.1) (List.ofFn x.2.1) 1 = .ok v ∧ V.decide v = .ok true}) ?_).trans
      ((prob_union _ _).trans (by linarith))
    rintro x ⟨msg, hx⟩
    rcases key x with ⟨h, -⟩ | ⟨-, h⟩ | ⟨π, v, b, h1, h2, h4, h⟩
    · exact .inl h
    · rw [hx] at h; cases h
    · refine .inr ⟨π, v, h1, h2, ?_⟩
      cases b
      · rw [hx] at h; cases h
      · exact h4

/-- C80: a test case that expects an invalid measurement to be accepted passes with small probability. -/
theorem C80_case_rejected_wrong (hg : V.gadgets ≠ []) (B : ℕ) (hB : 1 ≤ B)
    (hB' : ∀ g c p, (g, c) ∈ List.zip V.gadgets V.gadgetCalls → wirePolyLen c = .ok p → g.degree * (p - 1) ≤ B)
    {ε : ℚ} (hε : Spec.prob {jr : Fin V.jointRandLen → F | Spec.Accepts V meas (List.ofFn jr)} ≤ ε) :
    Spec.prob {x : Spec.CaseCoins V n | runFlpTestCase V (Spec.testCase V n meas true x) = .ok ()} ≤
      ε * (ε + B / PyField.modulus F) := by
  classical
  have hε0 : 0 ≤ ε := (prob_nonneg _).trans hε
  refine (prob_mono (T := {x | x.1 ∈ {jr : Fin V.jointRandLen → F | Spec.Accepts V meas (List.ofFn jr)} ∧
      x.2 ∈ {y : (Fin V.jointRandLen → F) × (Fin V.proveRandLen → F) × (Fin V.queryRandLen → F) ×
        (Fin V.measLen → F) × (Fin n → F) | ∃ π v, V.prove meas (List.ofFn y.2.1) (List.ofFn y.1) = .ok π ∧
        V.query meas π (List.ofFn y.2.2.1) (List.ofFn y.1) 1 = .ok v ∧ V.decide v = .ok true}}) ?_).trans ?_
  · intro x hx
    have hx : runFlpTestCase V (Spec.testCase V n meas true x) = .ok () := hx
    rw [case_run hV hn hmeas ho hol h3] at hx
    by_cases h : Spec.Accepts V meas (List.ofFn x.1)
    swap
    · rw [if_neg (by simpa using h)] at hx; cases hx
    rw [if_pos (by simpa using h)] at hx
    obtain ⟨π, h1, hx⟩ := Except.bind_eq_ok.1 hx
    obtain ⟨v, h2, hx⟩ := Except.bind_eq_ok.1 hx
    obtain ⟨b, h4, hx⟩ := Except.bind_eq_ok.1 hx
    refine ⟨h, π, v, h1, h2, ?_⟩
    cases b
    · cases hx
    · exact h4
  · rw [prob_prod]
    exact mul_le_mul hε (flp_true_prob hV hn hmeas hg B hB hB' hε) (prob_nonneg _) hε0

end

/-- C80: `run_flp_test` on encodings of valid measurements, all of which are expected to be accepted: it passes exactly
if no test point is a root of unity, and raises otherwise. -/
theorem C80_flp_test {V : Valid F Meas Agg} {T : Spec.Task Meas Agg} (hV : Spec.Computes V T) {n : ℕ}
    (hn : V.proofLen = .ok n) (h3 : 2 < PyField.modulus F) {rands : List (F × List (List F))}
    (hr : Spec.GadgetCoins V rands) (cs : List (Meas × List F × Spec.CaseCoins V n))
    (hcs : ∀ c ∈ cs, T.valid c.1 ∧ V.encode c.1 = .ok c.2.1) :
    ((∀ c ∈ cs, ¬ Spec.BadTestPoint V (List.ofFn c.2.2.2.2.2.1)) ∧
      runFlpTest V rands (cs.map fun c => Spec.testCase V n c.2.1 true c.2.2) = .ok ()) ∨
    ((∃ c ∈ cs, Spec.BadTestPoint V (List.ofFn c.2.2.2.2.2.1)) ∧
      runFlpTest V rands (cs.map fun c => Spec.testCase V n c.2.1 true c.2.2) = .error rootOfUnityErr) := by
  rw [C80_flp_test_gadgets hV.toCircuit hr]
  induction cs with
  | nil => exact .inl ⟨by simp, rfl⟩
  | cons c cs ih =>
    obtain ⟨h1, h2⟩ := hcs c (by simp)
    obtain ⟨e, h4, h5, h6⟩ := hV.encode c.1 h1
    rw [h2] at h4
    cases h4
    obtain ⟨os, o, ho, -, -, hol⟩ := hV.truncate 1 (fun _ => c.2.1) c.2.1 ⟨fun _ => rfl, fun j => by simp⟩ h5
    simp only [List.map_cons, forFold]
    rcases C80_case_accepted hV.toCircuit hn h5 ho hol h3 h6 c.2.2 with ⟨hb, h⟩ | ⟨hb, h⟩
    · rw [h]
      rcases ih fun c' hc' => hcs c' (by simp [hc']) with ⟨hb', h'⟩ | ⟨⟨c', hc', hb'⟩, h'⟩
      · refine .inl ⟨?_, h'⟩
        rintro c' hc'
        rcases List.mem_cons.1 hc' with rfl | hc'
        · exact hb
        · exact hb' c' hc'
      · exact .inr ⟨⟨c', by simp [hc'], hb'⟩, h'⟩
    · rw [h]
      exact .inr ⟨⟨c, by simp, hb⟩, rfl⟩

-- the hypotheses are met, also by an invalid measurement: the test case of test_flp_bbcggi19.py:335 fails with
-- probability at most `(2 * 3 + 6) / MODULUS`, and raises with probability at most `4 / MODULUS`
example : ∃ V n, SumVec Field128 2 10 3 = .ok V ∧ V.proofLen = .ok n ∧
    Spec.prob {x : Spec.CaseCoins V n |
      Spec.Fails (runFlpTestCase V (Spec.testCase V n (List.replicate 8 2) false x))} ≤
      12 / PyField.modulus Field128 ∧
    Spec.prob {x : Spec.CaseCoins V n | Spec.BadTestPoint V (List.ofFn x.2.2.2.1)} ≤
      4 / PyField.modulus Field128 := by
  obtain ⟨V, hV, hfit, hg, hm, hj, hz, hc⟩ : ∃ V, SumVec Field128 2 10 3 = .ok V ∧ Spec.Fits V ∧ V.gadgets ≠ [] ∧
      V.measLen = 8 ∧ V.jointRandLen = 3 ∧ List.zip (V.gadgets.map Gadget.degree) V.gadgetCalls = [(2, 3)] ∧
      V.gadgetCalls = [3] :=
    ⟨_, rfl, fits_single rfl rfl (by decide), by simp [SumVec.circuit], rfl, rfl, rfl, rfl⟩
  have hC := (C55_library (.sumVec hV) hfit).toCircuit
  have hn := (circuit_iff.1 hC).proofLen_eq
  have hmeas : (List.replicate 8 (2 : Field128)).length = V.measLen := by rw [hm]; rfl
  have hne : ¬ Spec.Bits (List.replicate 8 (2 : Field128)) := by
    intro h
    have := h 2 (by simp)
    revert this
    decide +kernel
  obtain ⟨os, o, ho, -, -, hol⟩ := (C55_library (.sumVec hV) hfit).truncate 1 (fun _ => List.replicate 8 2)
    (List.replicate 8 2) ⟨fun _ => rfl, fun j => by simp⟩ hmeas
  refine ⟨V, _, hV, hn, ?_, ?_⟩
  · have hε := prob_pow (by omega) ((C15_sumvec_rejects hV hfit _ hmeas).1 hne)
    refine ((C80_case_rejected hC hn hmeas ho hol (by decide +kernel) hg 6 (by norm_num) ?_ hε).2).trans (le_of_eq ?_)
    · intro g c p hgc hp
      have hmem : (g.degree, c) ∈ List.zip (V.gadgets.map Gadget.degree) V.gadgetCalls := by
        rw [List.zip_map_left]
        exact List.mem_map.2 ⟨(g, c), hgc, rfl⟩
      rw [hz] at hmem
      simp only [List.mem_singleton, Prod.mk.injEq] at hmem
      rw [wirePolyLen_ok.1 hp, hmem.1, hmem.2]
      decide +kernel
    · push_cast; ring
  · refine (C80_unlucky hC hg (ps := [4]) (by rw [hc]; decide +kernel)).trans (le_of_eq (by norm_num))

/-! ## Encodings -/

/-- C80: `run_encode_truncate_decode_test` passes for all valid measurements of a circuit whose aggregate of a single
measurement is the measurement. -/
theorem C80_encode_truncate_decode {V : Valid F Meas Agg} {T : Spec.Task Meas Agg} (hV : Spec.Computes V T)
    (same : Meas → Agg → Bool) (ms : List Meas)
    (hms : ∀ m ∈ ms, T.valid m ∧ T.supported [m] ∧ same m (T.agg [m]) = true) :
    runEncodeTruncateDecodeTest V same ms = .ok () := by
  refine fold_unit_ok ms _ fun m hm => ?_
  obtain ⟨h1, h2, h3⟩ := hms m hm
  obtain ⟨e, he, hel, -⟩ := hV.encode m h1
  have hone : ∀ u : List F, Spec.IsSum (fun _ : Fin 1 => u) u := fun u => ⟨fun _ => rfl, fun j => by simp⟩
  obtain ⟨os, o, ho, -, -, hol⟩ := hV.truncate 1 (fun _ => e) e (hone e) hel
  have := hV.decode 1 (fun _ => m) (fun _ => e) (fun _ => o) o (fun _ => h1) (by simpa using h2) (fun _ => he)
    (fun _ => ho) (hone o) hol
  rw [he]
  simp only [Except.ok_bind', ho, this]
  simp [pyAssert, h3]

/-- C80: it passes for all measurements of `SumVec`. -/
theorem C80_sumvec_encode_truncate_decode {length max cl : ℕ} {V : Valid F (List Int) (List ℕ)}
    (hV : SumVec F length max cl = .ok V) (hfit : Spec.Fits V) (ms : List (List Int))
    (hms : ∀ m ∈ ms, m.length = length ∧ ∀ x ∈ m, 0 ≤ x ∧ x ≤ (max : Int)) :
    runEncodeTruncateDecodeTest V (fun m r => decide (m = r.map Int.ofNat)) ms = .ok () := by
  obtain ⟨-, -, -, h4, -⟩ := SumVec_ok hV
  have hmm : max < PyField.modulus F := lt_trans (Nat.lt_size_self _) h4
  refine C80_encode_truncate_decode (C55_library (.sumVec hV) hfit) _ ms fun m hm => ?_
  obtain ⟨h1, h2⟩ := hms m hm
  have hget : ∀ j < length, 0 ≤ m.getD j 0 ∧ m.getD j 0 ≤ max := fun j hj => by
    rw [List.getD_eq_getElem?_getD, List.getElem?_eq_getElem (by omega)]
    exact h2 _ (List.getElem_mem _)
  refine ⟨⟨h1, h2⟩, ?_, ?_⟩
  · intro k hk
    simp only [Spec.sumVecFun, List.mem_map, List.mem_range] at hk
    obtain ⟨j, hj, rfl⟩ := hk
    have := hget j hj
    simp only [List.map_cons, List.map_nil, List.sum_cons, List.sum_nil]
    omega
  · refine decide_eq_true ?_
    simp only [Spec.sumVecFun, Spec.Fun.task]
    apply List.ext_getElem (by simp [h1])
    intro j hj1 hj2
    have := hget j (by omega)
    have hg : m.getD j 0 = m[j] := by rw [List.getD_eq_getElem?_getD, List.getElem?_eq_getElem hj1]; rfl
    simp only [List.map_cons, List.map_nil, List.sum_cons, List.sum_nil, List.getElem_map, List.getElem_range]
    rw [hg] at this ⊢
    change m[j] = ((m[j].toNat + 0 : ℕ) : Int)
    omega

-- test_flp_bbcggi19.py:303-308
example : ∃ V, SumVec Field64 2 15 1 = .ok V ∧
    runEncodeTruncateDecodeTest V (fun m r => decide (m = r.map Int.ofNat)) [[1, 2], [3, 4], [5, 6], [7, 8]] =
      .ok () := ⟨_, rfl, by decide +kernel⟩

/-! ## VDAFs -/

/-- C80: `run_vdaf_test` on Prio3 with valid measurements passes if the expected result is right and fails if it is
wrong, except for the exceptions that an honest execution may raise. -/
theorem C80_vdaf_test_prio3 [DecidableEq Agg] {P : Prio3 (XofTurboShake128 prims fuel) F Meas Agg}
    {T : Spec.Task Meas Agg} (I : Spec.CustomInstance P T) (verifyKey : Bytes) (hkey : verifyKey.length = 32)
    (batch : List (Meas × Bytes × Bytes))
    (hbatch : ∀ m ∈ batch, T.valid m.1 ∧ m.2.1.length = 16 ∧ m.2.2.length = P.randSize)
    (hsup : T.supported (batch.map Prod.fst)) (expected : Agg) :
    (runVdafTest P.vdaf verifyKey () batch expected = .ok () ∧ expected = T.agg (batch.map Prod.fst)) ∨
    (Spec.Fails (runVdafTest P.vdaf verifyKey () batch expected) ∧ expected ≠ T.agg (batch.map Prod.fst)) ∨
    ∃ e, runVdafTest P.vdaf verifyKey () batch expected = .error e ∧
      Spec.HonestFailure P verifyKey "some application context".toUTF8.data.toList (batch.map fun m => m.2.1) e := by
  have hid : pyAssert (decide (P.vdaf.id < 2 ^ 32)) = .ok () := by
    have : P.vdaf.id < 2 ^ 32 := I.id
    rw [pyAssert, if_pos (decide_eq_true this)]
  unfold runVdafTest
  rw [hid]
  simp only [Except.ok_bind']
  rcases C55_end_to_end I verifyKey "some application context".toUTF8.data.toList hkey (by decide +kernel) batch hbatch
    hsup with h | ⟨e, h, hf⟩
  · rw [h]
    simp only [Except.ok_bind', pyAssert]
    by_cases he : expected = T.agg (batch.map Prod.fst)
    · exact .inl ⟨by rw [if_pos (by simp [he])], he⟩
    · exact .inr (.inl ⟨⟨_, by rw [if_neg (by simpa using fun h => he h.symm)]⟩, he⟩)
  · exact .inr (.inr ⟨e, by rw [h]; rfl, hf⟩)

/-- C80: `run_vdaf_test` on Poplar1. -/
theorem C80_vdaf_test_poplar1 (prims : Prims) {fuel : ℕ} (hf : fuel < 2 ^ 120) {bits : ℕ} {P : Poplar1}
    (hP : Poplar1.init bits = .ok P) {level : ℕ} {prefixes : List (List Bool)} (hl : level < bits)
    (hl16 : level < 2 ^ 16) (hnd : prefixes.Nodup) (hpl : ∀ p ∈ prefixes, p.length = level + 1)
    {verifyKey : Bytes} (hk : verifyKey.length = 32) (batch : List (List Bool × Bytes × Bytes))
    (hbatch : ∀ m ∈ batch, m.1.length = bits ∧ m.2.1.length = 16 ∧ m.2.2.length = 128)
    (hsmall : batch.length < PyField.modulus Field64) (expected : List ℕ) :
    (runVdafTest (P.vdaf prims fuel) verifyKey (level, prefixes) batch expected = .ok () ∧
      expected = prefixes.map fun p => Spec.countPrefix (batch.map Prod.fst) p) ∨
    (Spec.Fails (runVdafTest (P.vdaf prims fuel) verifyKey (level, prefixes) batch expected) ∧
      expected ≠ prefixes.map fun p => Spec.countPrefix (batch.map Prod.fst) p) ∨
    runVdafTest (P.vdaf prims fuel) verifyKey (level, prefixes) batch expected = .error .fuel := by
  have hid : pyAssert (decide ((P.vdaf prims fuel).id < 2 ^ 32)) = .ok () := rfl
  unfold runVdafTest
  rw [hid]
  simp only [Except.ok_bind']
  rcases C33_exact prims hf hP hl hl16 hnd hpl hk
    (ctx := "some application context".toUTF8.data.toList) (by decide +kernel) batch hbatch hsmall with h | h
  · exact .inr (.inr (by rw [h]; rfl))
  · rw [h]
    simp only [Except.ok_bind', pyAssert]
    by_cases he : expected = prefixes.map fun p => Spec.countPrefix (batch.map Prod.fst) p
    · exact .inl ⟨by rw [if_pos (by simp [he])], he⟩
    · exact .inr (.inl ⟨⟨_, by rw [if_neg (by simpa using fun h => he h.symm)]⟩, he⟩)

end Vdaf
