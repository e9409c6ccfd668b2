import Verif.Proofs.RomKey
import Verif.Props.RobustGame

/-!
# Property C68: robustness of Prio3 in the random oracle model

A Client interacts with honest Aggregators: it makes `q` moves, each of which either evaluates TurboSHAKE128 at an input of
its choice or sends a report, which is a string of bytes, and each of which may depend on everything it has learned
before.  It wins if a report is accepted whose measurement, the sum of the measurement shares, is not valid.
TurboSHAKE128 is random at the inputs in a finite set `S`, which contains those for the query randomness, for the joint
randomness, and for its seeds and parts; elsewhere it is an arbitrary fixed function.  The verification key is random.
-/

namespace Vdaf
open Spec
section
variable {F : Type} [NttField F] {Meas Agg : Type} {prims : Prims} {fuel : ℕ}

/-- C68 for the circuits supplied by users: if the circuit accepts an invalid measurement with probability at most `ε` over
the joint randomness, then the Client wins with probability at most `q * (ε + paddedSoundness) ^ PROOFS`, plus the
probability that it is lucky with the seeds and the parts of the joint randomness, plus `q / 2 ^ 256`. -/
theorem C68_robustness_custom {P : Prio3 (XofTurboShake128 prims fuel) F Meas Agg} {T : Spec.Task Meas Agg}
    (I : Spec.CustomInstance P T) (hp : 0 < P.proofs) (hg : P.flp.gadgets ≠ []) {ctx : Bytes}
    (hctx : ctx.length + 8 < 2 ^ 16) {S : Set Bytes} (hfin : S.Finite)
    (hS : ∀ verifyKey : Bytes, verifyKey.length = 32 → oracleInputs P verifyKey ctx ⊆ S) {N : ℕ}
    (hN : fuel * PyField.encSize F ≤ N) (hN' : 32 ≤ N) {valid : List F → Prop} {ε : ℚ} (h0 : 0 ≤ ε)
    (hε : ∀ meas : List F, meas.length = P.flp.measLen → ¬ valid meas →
      (Set.ncard {jr : Fin P.flp.jointRandLen → F | Spec.Accepts P.flp meas (List.ofFn jr)} : ℚ) ≤
        ε * (PyField.modulus F : ℚ) ^ P.flp.jointRandLen) (σ : OracleStrategy) (q : ℕ) :
    keyedWinProbability P ctx valid σ q S N ≤
      q * (ε + paddedSoundness P.flp) ^ P.proofs + luckBound P q + q / 2 ^ 256 := by
  have h1 := Prio3.keyed_bound I.wf hctx hp I.computes.toCircuit hg hfin hS hN hN' σ h0 hε q
  have h2 : 0 ≤ paddedSoundness P.flp := by
    rw [padded_eq]
    positivity
  have h3 : 0 ≤ luckBound P q := by
    unfold luckBound
    split <;> positivity
  exact div_le_of_le_mul₀ (Nat.cast_nonneg _) (by positivity) h1

/-- The same for every verification key, and Clients that do not evaluate TurboSHAKE128 at the inputs for the query
randomness. -/
theorem C68_fixed_key {P : Prio3 (XofTurboShake128 prims fuel) F Meas Agg} {T : Spec.Task Meas Agg}
    (I : Spec.CustomInstance P T) (hp : 0 < P.proofs) (hg : P.flp.gadgets ≠ []) {verifyKey ctx : Bytes}
    (hkey : verifyKey.length = 32) (hctx : ctx.length + 8 < 2 ^ 16) {S : Set Bytes} (hfin : S.Finite)
    (hS : oracleInputs P verifyKey ctx ⊆ S) {N : ℕ} (hN : fuel * PyField.encSize F ≤ N) (hN' : 32 ≤ N)
    {valid : List F → Prop} {ε : ℚ} (h0 : 0 ≤ ε)
    (hε : ∀ meas : List F, meas.length = P.flp.measLen → ¬ valid meas →
      (Set.ncard {jr : Fin P.flp.jointRandLen → F | Spec.Accepts P.flp meas (List.ofFn jr)} : ℚ) ≤
        ε * (PyField.modulus F : ℚ) ^ P.flp.jointRandLen) {σ : OracleStrategy} (hσ : IgnoresKey P verifyKey ctx σ) (q : ℕ) :
    oracleWinProbability P verifyKey ctx valid σ q S N ≤
      q * (ε + paddedSoundness P.flp) ^ P.proofs + luckBound P q := by
  have h1 := Prio3.oracle_bound I.wf hctx hkey hp I.computes.toCircuit hg hfin hS hN hN' hσ h0 hε q
  have h2 : 0 ≤ paddedSoundness P.flp := by
    rw [padded_eq]
    positivity
  have h3 : 0 ≤ luckBound P q := by
    unfold luckBound
    split <;> positivity
  exact div_le_of_le_mul₀ (Nat.cast_nonneg _) (by positivity) h1

/-- C68 for `Count`: valid are the encodings of the documented measurements. -/
theorem C68_count {P : Prio3 (XofTurboShake128 prims fuel) F Int ℕ} (I : Spec.Instance P Spec.countFun)
    (hV : P.flp = Count F) (hp : 0 < P.proofs) {ctx : Bytes}
    (hctx : ctx.length + 8 < 2 ^ 16) {S : Set Bytes} (hfin : S.Finite)
    (hS : ∀ verifyKey : Bytes, verifyKey.length = 32 → oracleInputs P verifyKey ctx ⊆ S) {N : ℕ}
    (hN : fuel * PyField.encSize F ≤ N) (hN' : 32 ≤ N) (σ : OracleStrategy) (q : ℕ) :
    keyedWinProbability P ctx (fun meas => ∃ m, Spec.countFun.valid m ∧ P.flp.encode m = .ok meas) σ q S N ≤
      q * paddedSoundness P.flp ^ P.proofs + q / 2 ^ 256 := by
  have hg : P.flp.gadgets ≠ [] := by rw [hV]; simp [Count]
  have := C68_robustness_custom I.custom hp hg hctx hfin hS hN hN'
    (valid := fun meas => ∃ m, Spec.countFun.valid m ∧ P.flp.encode m = .ok meas) le_rfl (fun meas hm hv => by
      have : {jr : Fin P.flp.jointRandLen → F | Spec.Accepts P.flp meas (List.ofFn jr)} = ∅ := by
        rw [Set.eq_empty_iff_forall_notMem]
        intro jr hjr
        have hj : List.ofFn jr = [] := List.length_eq_zero_iff.1 (by rw [List.length_ofFn, hV]; rfl)
        rw [Set.mem_ofPred_eq, hj, hV] at hjr
        rw [hV] at hv hm
        exact hv ((C15_count_rejects (hV ▸ I.fits) meas hm).1 hjr)
      rw [this]
      simp) σ q
  have hl : luckBound P q = 0 := if_neg (by rw [hV]; exact Nat.lt_irrefl 0)
  rwa [zero_add, hl, add_zero] at this

/-- C68 for `Sum`: valid are the bit vectors, which stand for numbers in range (C15). -/
theorem C68_sum {max : ℕ} {P : Prio3 (XofTurboShake128 prims fuel) F Int ℕ} (I : Spec.Instance P (Spec.sumFun max))
    (hmax : 0 < max) (hV : Sum F max = .ok P.flp) (hp : 0 < P.proofs) {ctx : Bytes}
    (hctx : ctx.length + 8 < 2 ^ 16) {S : Set Bytes} (hfin : S.Finite)
    (hS : ∀ verifyKey : Bytes, verifyKey.length = 32 → oracleInputs P verifyKey ctx ⊆ S) {N : ℕ}
    (hN : fuel * PyField.encSize F ≤ N) (hN' : 32 ≤ N) (σ : OracleStrategy) (q : ℕ) :
    keyedWinProbability P ctx Spec.Bits σ q S N ≤
      q * paddedSoundness P.flp ^ P.proofs + q / 2 ^ 256 := by
  have hg : P.flp.gadgets ≠ [] := by
    obtain ⟨-, G, -, h⟩ := Sum_ok hV
    rw [h]
    simp [Sum.circuit]
  have hj0 : P.flp.jointRandLen = 0 := by
    obtain ⟨-, G, -, h⟩ := Sum_ok hV
    rw [h]
    rfl
  have := C68_robustness_custom I.custom hp hg hctx hfin hS hN hN' (valid := Spec.Bits) le_rfl (fun meas hm hv => by
      have : {jr : Fin P.flp.jointRandLen → F | Spec.Accepts P.flp meas (List.ofFn jr)} = ∅ := by
        rw [Set.eq_empty_iff_forall_notMem]
        intro jr hjr
        have hj : List.ofFn jr = [] := List.length_eq_zero_iff.1 (by rw [List.length_ofFn, hj0])
        rw [Set.mem_ofPred_eq, hj] at hjr
        exact hv ((C15_sum_rejects hmax hV I.fits meas hm).1.1 hjr)
      rw [this]
      simp) σ q
  have hl : luckBound P q = 0 := if_neg (by rw [hj0]; exact Nat.lt_irrefl 0)
  rwa [zero_add, hl, add_zero] at this

/-- C68 for `SumVec`: valid are the bit vectors, which stand for vectors of numbers in range (C15).  The number of moves is
written as in `robustness`, and its result is the first term of the bound, up to a factor of two in the soundness if
padding is needed. -/
theorem C68_sumvec {length max cl : ℕ} {P : Prio3 (XofTurboShake128 prims fuel) F (List Int) (List ℕ)}
    (I : Spec.Instance P (Spec.sumVecFun length max)) (hV : SumVec F length max cl = .ok P.flp) (hp : 0 < P.proofs)
    {ctx : Bytes} (hctx : ctx.length + 8 < 2 ^ 16) {S : Set Bytes} (hfin : S.Finite)
    (hS : ∀ verifyKey : Bytes, verifyKey.length = 32 → oracleInputs P verifyKey ctx ⊆ S) {N : ℕ}
    (hN : fuel * PyField.encSize F ≤ N) (hN' : 32 ≤ N) (σ : OracleStrategy) (roQueries verifyQueries : ℕ) :
    keyedWinProbability P ctx Spec.Bits σ (roQueries + verifyQueries) S N ≤
      robustness ((cl : ℚ) / (PyField.modulus F : ℚ) + paddedSoundness P.flp) roQueries verifyQueries P.proofs +
        luckBound P (roQueries + verifyQueries) + (roQueries + verifyQueries : ℕ) / 2 ^ 256 ∧
    keyedWinProbability P ctx Spec.Bits σ (roQueries + verifyQueries) S N ≤
      robustness (2 * sumVecSoundness P.flp cl) roQueries verifyQueries P.proofs +
        luckBound P (roQueries + verifyQueries) + (roQueries + verifyQueries : ℕ) / 2 ^ 256 ∧
    (Unpadded P.flp → keyedWinProbability P ctx Spec.Bits σ (roQueries + verifyQueries) S N ≤
      robustness (sumVecSoundness P.flp cl) roQueries verifyQueries P.proofs +
        luckBound P (roQueries + verifyQueries) + (roQueries + verifyQueries : ℕ) / 2 ^ 256) := by
  have hC := I.custom.computes.toCircuit
  obtain ⟨hg, hj⟩ : P.flp.gadgets ≠ [] ∧ 0 < P.flp.jointRandLen := by
    have hc := hC.calls_pos
    obtain ⟨-, -, -, -, h⟩ := SumVec_ok hV
    rw [h] at hc ⊢
    exact ⟨by simp [SumVec.circuit], hc _ (List.mem_singleton.2 rfl)⟩
  have h0 : (0 : ℚ) ≤ (cl : ℚ) / (PyField.modulus F : ℚ) := by positivity
  have h2 : 0 ≤ paddedSoundness P.flp := by
    rw [padded_eq]
    positivity
  have h1 := C68_robustness_custom I.custom hp hg hctx hfin hS hN hN' (valid := Spec.Bits) h0
    (fun meas hm hv => joint_ratio hj ((C15_sumvec_rejects hV I.fits meas hm).1 hv)) σ (roQueries + verifyQueries)
  have mono : ∀ {s : ℚ}, (cl : ℚ) / (PyField.modulus F : ℚ) + paddedSoundness P.flp ≤ s →
      keyedWinProbability P ctx Spec.Bits σ (roQueries + verifyQueries) S N ≤
        robustness s roQueries verifyQueries P.proofs +
        luckBound P (roQueries + verifyQueries) + (roQueries + verifyQueries : ℕ) / 2 ^ 256 := fun hs =>
    h1.trans (add_le_add_left (add_le_add_left
      (mul_le_mul_of_nonneg_left (pow_le_pow_left₀ (by positivity) hs _) (Nat.cast_nonneg _)) _) _)
  refine ⟨mono le_rfl, mono ?_, fun hu => mono (add_le_add_right (padded_le_base hC hu) _)⟩
  have h3 := padded_le_double hC
  unfold sumVecSoundness
  linarith

/-- C68 for `Histogram`: valid are the encodings of the documented measurements. -/
theorem C68_histogram {length cl : ℕ} {P : Prio3 (XofTurboShake128 prims fuel) F Int (List ℕ)}
    (I : Spec.Instance P (Spec.histogramFun length)) (hV : Histogram F length cl = .ok P.flp)
    (hlen : length < PyField.modulus F) (hp : 0 < P.proofs)
    {ctx : Bytes} (hctx : ctx.length + 8 < 2 ^ 16) {S : Set Bytes} (hfin : S.Finite)
    (hS : ∀ verifyKey : Bytes, verifyKey.length = 32 → oracleInputs P verifyKey ctx ⊆ S) {N : ℕ}
    (hN : fuel * PyField.encSize F ≤ N) (hN' : 32 ≤ N) (σ : OracleStrategy) (q : ℕ) :
    keyedWinProbability P ctx (fun meas => ∃ m, (Spec.histogramFun length).valid m ∧ P.flp.encode m = .ok meas) σ q S N ≤
      q * ((cl : ℚ) / (PyField.modulus F : ℚ) + paddedSoundness P.flp) ^ P.proofs + luckBound P q + q / 2 ^ 256 := by
  obtain ⟨hg, hj⟩ : P.flp.gadgets ≠ [] ∧ 0 < P.flp.jointRandLen := by
    have hc := I.custom.computes.toCircuit.calls_pos
    obtain ⟨-, -, h⟩ := Histogram_ok hV
    rw [h] at hc ⊢
    exact ⟨by simp [Histogram.circuit], hc _ (List.mem_singleton.2 rfl)⟩
  exact C68_robustness_custom I.custom hp hg hctx hfin hS hN hN' (by positivity)
    (fun meas hm hv => joint_ratio hj (C15_histogram_rejects hV I.fits hlen meas hm hv)) σ q

/-- C68 for `MultihotCountVec`: valid are the bit vectors that stand for a documented measurement together with its
weight. -/
theorem C68_multihot {length mw cl : ℕ} {P : Prio3 (XofTurboShake128 prims fuel) F (List Bool) (List ℕ)}
    (I : Spec.Instance P (Spec.multihotFun length mw)) (hV : MultihotCountVec F length mw cl = .ok P.flp) (hp : 0 < P.proofs)
    {ctx : Bytes} (hctx : ctx.length + 8 < 2 ^ 16) {S : Set Bytes} (hfin : S.Finite)
    (hS : ∀ verifyKey : Bytes, verifyKey.length = 32 → oracleInputs P verifyKey ctx ⊆ S) {N : ℕ}
    (hN : fuel * PyField.encSize F ≤ N) (hN' : 32 ≤ N) (σ : OracleStrategy) (q : ℕ) :
    keyedWinProbability P ctx (fun meas => Spec.Bits meas ∧ ∃ m : List Bool, (Spec.multihotFun length mw).valid m ∧
      P.flp.truncate meas = .ok (m.map fun b => if b then 1 else 0) ∧
      decodeRangeCheckedInt (meas.drop length) mw = .ok (m.count true : F)) σ q S N ≤
      q * ((cl : ℚ) / (PyField.modulus F : ℚ) + paddedSoundness P.flp) ^ P.proofs + luckBound P q + q / 2 ^ 256 := by
  obtain ⟨hg, hj⟩ : P.flp.gadgets ≠ [] ∧ 0 < P.flp.jointRandLen := by
    have hc := I.custom.computes.toCircuit.calls_pos
    obtain ⟨-, -, -, -, -, h⟩ := MultihotCountVec_ok hV
    rw [h] at hc ⊢
    exact ⟨by simp [MultihotCountVec.circuit], hc _ (List.mem_singleton.2 rfl)⟩
  exact C68_robustness_custom I.custom hp hg hctx hfin hS hN hN' (by positivity)
    (fun meas hm hv => joint_ratio hj (C15_multihot_rejects hV I.fits meas hm hv)) σ q

end

/-! Non-vacuity: an instance of Prio3 with joint randomness, and a Client that evaluates TurboSHAKE128, sends an honest
report, sends it again, and then sends one whose measurement is `[2, 0]`. -/

/-- The report of `gameReport`, encoded. -/
def encodedReport (cheat : Bool) : EncodedReport :=
  let r := gameReport cheat
  match Prio3.encodePublicShare r.publicShare, mapRes privacyExample.encodeInputShare r.inputShares with
  | .ok pub, .ok shares => ⟨r.nonce, pub, shares⟩
  | _, _ => ⟨r.nonce, [], []⟩

/-- The Client. -/
def oracleClient : OracleStrategy := fun replies =>
  match replies.length with
  | 0 => .query (xofInput (List.replicate 32 0) (tag privacyExample.id 3 [1]) [1])
  | 1 | 2 => .submit (encodedReport false)
  | _ => .submit (encodedReport true)

-- there is a set of inputs as required
example : ∃ S : Set Bytes, S.Finite ∧
    ∀ verifyKey : Bytes, verifyKey.length = 32 → oracleInputs privacyExample verifyKey [1] ⊆ S := by
  refine ⟨⋃ k ∈ {b : Bytes | b.length = 32}, oracleInputs privacyExample k [1], ?_, fun k hk => ?_⟩
  · exact Set.Finite.biUnion (List.finite_length_eq UInt8 32) fun k _ => Prio3.oracleInputs_finite _ _ _
  · exact Set.subset_biUnion_of_mem (u := fun k => oracleInputs privacyExample k [1]) hk

set_option maxRecDepth 4000 in
-- the replies: the value of the oracle, then the honest report is accepted once, and the other one is not accepted
example : (oracleRun privacyExample (List.replicate 32 1) [1] oracleClient 4).map (fun x => match x.2 with
    | .output _ => true
    | .verdict b => b) = [true, true, false, false] := by decide +kernel

-- the Client does not evaluate the oracle at inputs for the query randomness
example : IgnoresKey privacyExample (List.replicate 32 1) [1] oracleClient := by
  intro replies nonce hn h
  unfold oracleClient at h
  split at h
  · have := congrArg List.length (OracleMove.query.inj h)
    simp [xofInput, Prio3.tag_length, natToLe, hn] at this
  all_goals cases h

end Vdaf
