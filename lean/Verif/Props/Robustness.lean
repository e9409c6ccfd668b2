import Verif.Proofs.Robustness
import Verif.Props.Custom
import Verif.Props.Prio3

/-!
# Property C64

The number `base_soundness(flp)` of `plot_prio3_multiproof_robustness.py` as a bound on the probability that `query`
and `decide` accept an invalid measurement.  The formula is that of the paper, for wire polynomials of `calls + 1`
coefficients; the code pads them to a power of two.  So it is a bound if no padding is needed, it is not a bound in
general, and twice the number always is.
-/

namespace Vdaf
open Finset

section
variable {F : Type} [NttField F] {Meas Agg : Type}

/-- C64: whatever the proof, an invalid measurement is accepted with probability at most `paddedSoundness`. -/
theorem C64_padded {V : Valid F Meas Agg} (hV : Spec.Circuit V) (hg : V.gadgets ≠ []) {meas jr π : List F}
    (hmeas : meas.length = V.measLen) (hjr : jr.length = V.jointRandLen) (hinv : ¬ Spec.Accepts V meas jr)
    (hπ : V.proofLen = .ok π.length) :
    Spec.acceptProbability V meas π jr ≤ Spec.paddedSoundness V := by
  rw [padded_eq, ← pow_pred_div (queryRandLen_pos hg) (modulus_pos_rat F).ne']
  refine div_le_div_of_nonneg_right ?_ (by positivity)
  exact_mod_cast accept_ncard hV hg hmeas hjr hinv hπ

/-- C64: twice the number of the script is a bound. -/
theorem C64_double {V : Valid F Meas Agg} (hV : Spec.Circuit V) (hg : V.gadgets ≠ []) {meas jr π : List F}
    (hmeas : meas.length = V.measLen) (hjr : jr.length = V.jointRandLen) (hinv : ¬ Spec.Accepts V meas jr)
    (hπ : V.proofLen = .ok π.length) :
    Spec.acceptProbability V meas π jr ≤ 2 * baseSoundness V :=
  (C64_padded hV hg hmeas hjr hinv hπ).trans (padded_le_double hV)

/-- C64, the part that holds: the number of the script is a bound if one plus the number of calls of each gadget is a
power of two.  Missing: the other circuits, for which it need not be one (`C64_base_soundness_false`). -/
theorem C64_base_soundness_partial {V : Valid F Meas Agg} (hV : Spec.Circuit V) (hg : V.gadgets ≠ [])
    (hu : Spec.Unpadded V) {meas jr π : List F}
    (hmeas : meas.length = V.measLen) (hjr : jr.length = V.jointRandLen) (hinv : ¬ Spec.Accepts V meas jr)
    (hπ : V.proofLen = .ok π.length) :
    Spec.acceptProbability V meas π jr ≤ baseSoundness V :=
  (C64_padded hV hg hmeas hjr hinv hπ).trans (padded_le_base hV hu)

/-- C64 for `SumVec`, with the joint randomness: the term `chunk_length / MODULUS` of `sum_vec` is right, and the total
is off by at most a factor of two. -/
theorem C64_sum_vec {length max cl : ℕ} {V : Valid F (List Int) (List ℕ)} (hV : SumVec F length max cl = .ok V)
    (hfit : Spec.Fits V) {meas : List F} (hmeas : meas.length = V.measLen) (hinv : ¬ Spec.Bits meas)
    (π : (Fin V.jointRandLen → F) → List F) (hπ : ∀ jr, V.proofLen = .ok (π jr).length) :
    Spec.acceptProbabilityJoint V meas π ≤ (cl : ℚ) / (PyField.modulus F : ℚ) + Spec.paddedSoundness V ∧
    Spec.acceptProbabilityJoint V meas π ≤ 2 * sumVecSoundness V cl ∧
    (Spec.Unpadded V → Spec.acceptProbabilityJoint V meas π ≤ sumVecSoundness V cl) := by
  have hC : Spec.Circuit V := circuit_iff.2 (Library.facts (.sumVec hV) hfit).lawful
  have hg : V.gadgets ≠ [] := by
    obtain ⟨-, -, -, -, rfl⟩ := SumVec_ok hV
    simp [SumVec.circuit]
  have hj : 0 < V.jointRandLen := by
    obtain ⟨h1, h2, h3, h4, rfl⟩ := SumVec_ok hV
    exact hC.calls_pos _ (List.mem_singleton.2 rfl)
  have h1 : Spec.acceptProbabilityJoint V meas π ≤
      (cl : ℚ) / (PyField.modulus F : ℚ) + Spec.paddedSoundness V := by
    have hcard : ∀ n, Nat.card (Fin n → F) = PyField.modulus F ^ n := by
      intro n
      rw [Nat.card_eq_fintype_card, Fintype.card_fun, Fintype.card_fin, card_eq]
    have hn := ncard_fibres (fun jr qr => ∃ v, V.query meas (π jr) (List.ofFn qr) (List.ofFn jr) 1 = .ok v ∧
      V.decide v = .ok true) {jr : Fin V.jointRandLen → F | Spec.Accepts V meas (List.ofFn jr)} _ _ _
      ((C15_sumvec_rejects hV hfit meas hmeas).1 hinv) (hcard V.queryRandLen)
      fun jr hjr => accept_ncard hC hg hmeas List.length_ofFn hjr (hπ jr)
    have hp := (modulus_pos_rat F).ne'
    have e1 : (cl : ℚ) / (PyField.modulus F : ℚ) =
        (cl * (PyField.modulus F : ℚ) ^ (V.jointRandLen - 1)) * (PyField.modulus F : ℚ) ^ V.queryRandLen /
          ((PyField.modulus F : ℚ) ^ V.jointRandLen * (PyField.modulus F : ℚ) ^ V.queryRandLen) := by
      rw [mul_div_mul_right _ _ (pow_ne_zero _ hp), pow_pred_div hj hp]
    have e2 : Spec.paddedSoundness V = (PyField.modulus F : ℚ) ^ V.jointRandLen *
        (totalDegree V * (PyField.modulus F : ℚ) ^ (V.queryRandLen - 1)) /
          ((PyField.modulus F : ℚ) ^ V.jointRandLen * (PyField.modulus F : ℚ) ^ V.queryRandLen) := by
      rw [mul_div_mul_left _ _ (pow_ne_zero _ hp), pow_pred_div (queryRandLen_pos hg) hp, padded_eq]
    rw [e1, e2, ← add_div]
    refine div_le_div_of_nonneg_right ?_ (by positivity)
    rw [hcard] at hn
    exact_mod_cast hn
  refine ⟨h1, h1.trans ?_, fun hu => h1.trans (add_le_add_right (padded_le_base hC hu) _)⟩
  have h2 := padded_le_double hC
  have h3 : (0 : ℚ) ≤ (cl : ℚ) / (PyField.modulus F : ℚ) := by positivity
  unfold sumVecSoundness
  linarith

/-- C64 for Prio3 with several proofs: for input shares whose measurement is invalid for the joint randomness of all the
proofs, verification succeeds only if the query randomness is one of a set that has probability at most
`paddedSoundness ^ PROOFS`. -/
theorem C64_multiproof {prims : Prims} {fuel : ℕ} {P : Prio3 (XofTurboShake128 prims fuel) F Meas Agg}
    {T : Spec.Task Meas Agg} (I : Spec.CustomInstance P T) (hg : P.flp.gadgets ≠ []) {ctx nonce : Bytes}
    {ish : ℕ → Prio3InputShare F} {ms ps : ℕ → List F} {bl : ℕ → Option Bytes} {seed : Option Bytes} {jrs : List F}
    (hexp : ∀ j < P.shares, Spec.Expands P ctx j (ish j) (ms j) (ps j) (bl j))
    (hjr : Spec.JointRandOf P ctx nonce ms bl seed jrs)
    (hinv : ∀ i < P.proofs, ∀ meas, Spec.IsSum (fun j : Fin P.shares => ms j) meas →
      ¬ Spec.Accepts P.flp meas (Spec.piece P.flp.jointRandLen jrs i)) :
    ∃ Bad : Set (Fin P.proofs → Fin P.flp.queryRandLen → F),
      (Bad.ncard : ℚ) / ((PyField.modulus F : ℚ) ^ P.flp.queryRandLen) ^ P.proofs ≤
        Spec.paddedSoundness P.flp ^ P.proofs ∧
      (Bad.ncard : ℚ) / ((PyField.modulus F : ℚ) ^ P.flp.queryRandLen) ^ P.proofs ≤
        (2 * baseSoundness P.flp) ^ P.proofs ∧
      (Spec.Unpadded P.flp → (Bad.ncard : ℚ) / ((PyField.modulus F : ℚ) ^ P.flp.queryRandLen) ^ P.proofs ≤
        baseSoundness P.flp ^ P.proofs) ∧
      ∀ verifyKey pub st sh msg, Spec.VerifySucceeds P verifyKey ctx nonce pub ish st sh msg →
        ∃ q ∈ Bad, Spec.queryRands P verifyKey ctx nonce =
          .ok ((List.ofFn fun i => List.ofFn (q i)).flatten) := by
  have hC := I.computes.toCircuit
  obtain ⟨Bad, h1, h2⟩ := C55_robustness I hexp hjr univ (fun i _ => hinv i i.2) (totalDegree P.flp)
    (total_pos hC hg) (degree_le_total P.flp)
  rw [card_univ, Fintype.card_fin, Nat.sub_self, pow_zero, mul_one] at h1
  have h0 : (0 : ℚ) ≤ Spec.paddedSoundness P.flp := by
    rw [padded_eq]
    positivity
  have h3 : (Bad.ncard : ℚ) / ((PyField.modulus F : ℚ) ^ P.flp.queryRandLen) ^ P.proofs ≤
      Spec.paddedSoundness P.flp ^ P.proofs := by
    rw [padded_eq, ← pow_pred_div (queryRandLen_pos hg) (modulus_pos_rat F).ne', div_pow]
    refine div_le_div_of_nonneg_right ?_ (by positivity)
    exact_mod_cast h1
  exact ⟨Bad, h3, h3.trans (pow_le_pow_left₀ h0 (padded_le_double hC) _),
    fun hu => h3.trans (pow_le_pow_left₀ h0 (padded_le_base hC hu) _), h2⟩

/-- C64, the function `robustness`: if the probability of accepting one report is at most `soundness ^ numProofs`, then
the probability of accepting at least one of `ro_queries + verify_queries` reports, each with its own independent query
randomness, is at most `robustness(soundness, ro_queries, verify_queries, num_proofs)`. -/
theorem C64_robustness {proofs len roQueries verifyQueries : ℕ} {soundness : ℚ}
    (Bad : Fin (roQueries + verifyQueries) → Set (Fin proofs → Fin len → F))
    (h : ∀ i, ((Bad i).ncard : ℚ) / ((PyField.modulus F : ℚ) ^ len) ^ proofs ≤ soundness ^ proofs) :
    (Set.ncard {q : Fin (roQueries + verifyQueries) → Fin proofs → Fin len → F | ∃ i, q i ∈ Bad i} : ℚ) /
        (((PyField.modulus F : ℚ) ^ len) ^ proofs) ^ (roQueries + verifyQueries) ≤
      robustness soundness roQueries verifyQueries proofs := by
  have hc : (Nat.card (Fin proofs → Fin len → F) : ℚ) = ((PyField.modulus F : ℚ) ^ len) ^ proofs := by
    rw [Nat.card_eq_fintype_card, Fintype.card_fun, Fintype.card_fin, Fintype.card_fun, Fintype.card_fin, card_eq]
    push_cast
    rfl
  have := union_bound Bad (soundness ^ proofs) fun i => by rw [hc]; exact h i
  rw [hc] at this
  exact this

end

/- Non-vacuity: `Count` needs no padding, and rejects the measurement `2`; `SumVec` with three entries of one bit and chunks
of length 1 calls its gadget three times. (For an instance of Prio3 and input shares with an invalid measurement see the
examples for C25.) -/
example : Spec.Circuit (Count Field64) ∧ (Count Field64).gadgets ≠ [] ∧ Spec.Unpadded (Count Field64) ∧
    ¬ Spec.Accepts (Count Field64) [2] [] ∧ (Count Field64).proofLen = .ok 5 ∧
    baseSoundness (Count Field64) = 2 / 18446744069414584320 := by
  have hfit : Spec.Fits (Count Field64) := fits_single rfl rfl (by decide +kernel)
  have hmod : PyField.modulus Field64 = 18446744069414584321 := by decide +kernel
  refine ⟨circuit_iff.2 (Library.facts .count hfit).lawful, by simp [Count], ?_, ?_, by decide +kernel, ?_⟩
  · intro c hc
    obtain rfl : c = 1 := by simpa [Count] using hc
    exact ⟨1, rfl⟩
  · rintro ⟨out, h1, h2⟩
    rw [show (Count Field64).evalPlain [2] [] 1 = .ok [2] by decide +kernel] at h1
    cases h1
    exact absurd (h2 2 (by simp)) (by decide +kernel)
  · simp only [baseSoundness, Count, hmod, List.zip_cons_cons, List.zip_nil_right, List.map_cons, List.map_nil,
      List.sum_cons, List.sum_nil]
    norm_num [Mul]
example : ∃ V, SumVec Field128 3 1 1 = .ok V ∧ Spec.Fits V ∧ Spec.Unpadded V ∧
    ([2, 0, 1] : List Field128).length = V.measLen ∧ ¬ Spec.Bits ([2, 0, 1] : List Field128) := by
  refine ⟨SumVec.circuit Field128 3 1 1, rfl, fits_single rfl rfl (by decide +kernel), ?_, by decide, fun h => ?_⟩
  · intro c hc
    obtain rfl : c = 3 := by simpa [SumVec.circuit, numCalls] using hc
    exact ⟨2, rfl⟩
  · rcases h 2 (by simp) with h | h
    · exact absurd h (by decide +kernel)
    · exact absurd h (by decide +kernel)

/-- A dishonest proof for the measurement `[2, 0]` of `SumVec` with two entries of one bit and chunks of length 1, for
the joint randomness `[1, 1]` -/
def C64_proof : List Field64 :=
  [0, 0, 13753734006800808991, 10435540832912744661, 2277073267283618993, 16077141059097413773, 16169670802130965328,
    4877387090161904443, 16245816162585706256]

/-- The attack: the circuit rejects `[2, 0]`, but with the dishonest proof six test points make the verifier accept. -/
theorem C64_attack :
    (SumVec.circuit Field64 2 1 1).evalPlain [2, 0] [1, 1] 1 = .ok [2] ∧
    ∀ t ∈ ([2, 3, 4, 5, 6, 7] : List Field64), (do
      let v ← (SumVec.circuit Field64 2 1 1).query [2, 0] C64_proof [t] [1, 1] 1
      (SumVec.circuit Field64 2 1 1).decide v) = .ok true := by
  refine ⟨by decide +kernel, fun t ht => ?_⟩
  simp only [List.mem_cons, List.not_mem_nil, or_false] at ht
  rcases ht with rfl | rfl | rfl | rfl | rfl | rfl <;> decide +kernel

/-- C64 is false as stated: the number of the script is not a bound for `SumVec` with two entries of one bit and chunks
of length 1.  The gadget is called twice, so the wire polynomials are padded from 3 to 4 coefficients. -/
theorem C64_base_soundness_false :
    ∃ (V : Valid Field64 (List Int) (List ℕ)) (meas jr π : List Field64), SumVec Field64 2 1 1 = .ok V ∧ Spec.Fits V ∧
      Spec.Circuit V ∧ meas.length = V.measLen ∧ jr.length = V.jointRandLen ∧ ¬ Spec.Accepts V meas jr ∧
      V.proofLen = .ok π.length ∧ baseSoundness V < Spec.acceptProbability V meas π jr := by
  have hV : SumVec Field64 2 1 1 = .ok (SumVec.circuit Field64 2 1 1) := rfl
  have hfit : Spec.Fits (SumVec.circuit Field64 2 1 1) := fits_single rfl rfl (by decide +kernel)
  have hmod : PyField.modulus Field64 = 18446744069414584321 := by decide +kernel
  refine ⟨_, [2, 0], [1, 1], C64_proof, hV, hfit, circuit_iff.2 (Library.facts (.sumVec hV) hfit).lawful, by decide,
    by decide, ?_, by decide +kernel, ?_⟩
  · rintro ⟨out, h1, h2⟩
    rw [C64_attack.1] at h1
    cases h1
    exact absurd (h2 2 (by simp)) (by decide +kernel)
  · have h6 : 6 ≤ Set.ncard {qr : Fin (SumVec.circuit Field64 2 1 1).queryRandLen → Field64 |
        ∃ v, (SumVec.circuit Field64 2 1 1).query [2, 0] C64_proof (List.ofFn qr) [1, 1] 1 = .ok v ∧
          (SumVec.circuit Field64 2 1 1).decide v = .ok true} := by
      have hc : (([2, 3, 4, 5, 6, 7] : List Field64).toFinset.image
          fun t => (fun _ => t : Fin (SumVec.circuit Field64 2 1 1).queryRandLen → Field64)).card = 6 := by
        rw [Finset.card_image_of_injective _ fun a b h => congrFun h ⟨0, by decide⟩]
        decide +kernel
      rw [← hc, ← Set.ncard_coe_finset]
      refine Set.ncard_le_ncard ?_ (Set.toFinite _)
      intro q hq
      simp only [Finset.coe_image, List.coe_toFinset, Set.mem_image, Set.mem_ofPred_eq] at hq
      obtain ⟨t, ht, rfl⟩ := hq
      have := C64_attack.2 t ht
      rw [Except.bind_eq_ok] at this
      obtain ⟨v, h1, h2⟩ := this
      exact ⟨v, h1, h2⟩
    have e1 : baseSoundness (SumVec.circuit Field64 2 1 1) = 4 / (18446744069414584321 - 2) := by
      simp only [baseSoundness, SumVec.circuit, hmod, List.zip_cons_cons, List.zip_nil_right, List.map_cons, List.map_nil,
        List.sum_cons, List.sum_nil]
      norm_num [numCalls, ParallelSum, Mul]
    have e2 : (SumVec.circuit Field64 2 1 1).queryRandLen = 1 := by decide
    have h6' : (6 : ℚ) ≤ (Set.ncard {qr : Fin (SumVec.circuit Field64 2 1 1).queryRandLen → Field64 |
        ∃ v, (SumVec.circuit Field64 2 1 1).query [2, 0] C64_proof (List.ofFn qr) [1, 1] 1 = .ok v ∧
          (SumVec.circuit Field64 2 1 1).decide v = .ok true} : ℚ) := by
      exact_mod_cast h6
    unfold Spec.acceptProbability
    rw [e1, hmod]
    refine lt_of_lt_of_le ?_ (div_le_div_of_nonneg_right h6' (by positivity))
    rw [e2]
    norm_num

end Vdaf
