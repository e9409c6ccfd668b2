import Verif.Proofs.RobustMain
import Verif.Props.Robustness
import Verif.Props.Privacy

/-!
# Property C66: robustness of Prio3 against Clients that adapt

A Client interacts with honest Aggregators: it makes `q` moves, each of which either computes the joint randomness of a
report of its choice or submits a report, and each of which may depend on everything it has learned before.  It wins if a
report is accepted whose measurement, the sum of the measurement shares, is not valid.  TurboSHAKE128 is random at the
inputs for the query randomness and for the joint randomness; elsewhere it is an arbitrary fixed function.  The Client
wins without a collision of joint randomness seeds with probability at most `q` times the probability for one report.
-/

namespace Vdaf
open Spec
section
variable {F : Type} [NttField F] {Meas Agg : Type} {prims : Prims} {fuel : ℕ}

/-- C66 for the circuits supplied by users: if the circuit accepts an invalid measurement with probability at most `ε` over
the joint randomness, then the Client wins with probability at most `q * (ε + paddedSoundness) ^ PROOFS`. -/
theorem C66_robustness_custom {P : Prio3 (XofTurboShake128 prims fuel) F Meas Agg} {T : Spec.Task Meas Agg}
    (I : Spec.CustomInstance P T) (hp : 0 < P.proofs) (hg : P.flp.gadgets ≠ []) {verifyKey ctx : Bytes}
    (hkey : verifyKey.length = 32) (hctx : ctx.length + 8 < 2 ^ 16) {N : ℕ} (hN : fuel * PyField.encSize F ≤ N)
    {valid : List F → Prop} {ε : ℚ} (h0 : 0 ≤ ε)
    (hε : ∀ meas : List F, meas.length = P.flp.measLen → ¬ valid meas →
      (Set.ncard {jr : Fin P.flp.jointRandLen → F | Spec.Accepts P.flp meas (List.ofFn jr)} : ℚ) ≤
        ε * (PyField.modulus F : ℚ) ^ P.flp.jointRandLen) (σ : ClientStrategy F) (q : ℕ) :
    winProbability P verifyKey ctx valid σ q N ≤ q * (ε + paddedSoundness P.flp) ^ P.proofs := by
  have h1 := Prio3.client_bound I.wf hctx hkey hp I.computes.toCircuit hg hN (σ := σ) h0 hε q
  have h2 : 0 ≤ paddedSoundness P.flp := by
    rw [padded_eq]
    positivity
  exact div_le_of_le_mul₀ (Nat.cast_nonneg _) (by positivity) h1

/-- C66 for `Count`: valid are the encodings of the documented measurements. -/
theorem C66_count {P : Prio3 (XofTurboShake128 prims fuel) F Int ℕ} (I : Spec.Instance P Spec.countFun)
    (hV : P.flp = Count F) (hp : 0 < P.proofs) {verifyKey ctx : Bytes} (hkey : verifyKey.length = 32)
    (hctx : ctx.length + 8 < 2 ^ 16) {N : ℕ} (hN : fuel * PyField.encSize F ≤ N) (σ : ClientStrategy F) (q : ℕ) :
    winProbability P verifyKey ctx (fun meas => ∃ m, Spec.countFun.valid m ∧ P.flp.encode m = .ok meas) σ q N ≤
      q * paddedSoundness P.flp ^ P.proofs := by
  have hg : P.flp.gadgets ≠ [] := by rw [hV]; simp [Count]
  have := C66_robustness_custom I.custom hp hg hkey hctx hN
    (valid := fun meas => ∃ m, Spec.countFun.valid m ∧ P.flp.encode m = .ok meas) le_rfl (fun meas hm hv => by
      have : {jr : Fin P.flp.jointRandLen → F | Spec.Accepts P.flp meas (List.ofFn jr)} = ∅ := by
        rw [Set.eq_empty_iff_forall_notMem]
        intro jr hjr
        have hj : List.ofFn jr = [] := List.length_eq_zero_iff.1 (by rw [List.length_ofFn, hV]; rfl)
        rw [Set.mem_ofPred_eq, hj, hV] at hjr
        rw [hV] at hv hm
        exact hv ((C15_count_rejects (hV ▸ I.fits) meas hm).1 hjr)
      rw [this]
      simp) σ q
  rwa [zero_add] at this

/-- C66 for `Sum`: valid are the bit vectors, which stand for numbers in range (C15). -/
theorem C66_sum {max : ℕ} {P : Prio3 (XofTurboShake128 prims fuel) F Int ℕ} (I : Spec.Instance P (Spec.sumFun max))
    (hmax : 0 < max) (hV : Sum F max = .ok P.flp) (hp : 0 < P.proofs) {verifyKey ctx : Bytes} (hkey : verifyKey.length = 32)
    (hctx : ctx.length + 8 < 2 ^ 16) {N : ℕ} (hN : fuel * PyField.encSize F ≤ N) (σ : ClientStrategy F) (q : ℕ) :
    winProbability P verifyKey ctx Spec.Bits σ q N ≤ q * paddedSoundness P.flp ^ P.proofs := by
  have hg : P.flp.gadgets ≠ [] := by
    obtain ⟨-, G, -, h⟩ := Sum_ok hV
    rw [h]
    simp [Sum.circuit]
  have hj0 : P.flp.jointRandLen = 0 := by
    obtain ⟨-, G, -, h⟩ := Sum_ok hV
    rw [h]
    rfl
  have := C66_robustness_custom I.custom hp hg hkey hctx hN (valid := Spec.Bits) le_rfl (fun meas hm hv => by
      have : {jr : Fin P.flp.jointRandLen → F | Spec.Accepts P.flp meas (List.ofFn jr)} = ∅ := by
        rw [Set.eq_empty_iff_forall_notMem]
        intro jr hjr
        have hj : List.ofFn jr = [] := List.length_eq_zero_iff.1 (by rw [List.length_ofFn, hj0])
        rw [Set.mem_ofPred_eq, hj] at hjr
        exact hv ((C15_sum_rejects hmax hV I.fits meas hm).1.1 hjr)
      rw [this]
      simp) σ q
  rwa [zero_add] at this

theorem joint_ratio {c : ℕ} {V : Valid F Meas Agg} (hj : 0 < V.jointRandLen) {n : ℕ}
    (h : n ≤ c * PyField.modulus F ^ (V.jointRandLen - 1)) :
    (n : ℚ) ≤ (c : ℚ) / (PyField.modulus F : ℚ) * (PyField.modulus F : ℚ) ^ V.jointRandLen := by
  have hp := (modulus_pos_rat F).ne'
  obtain ⟨k, hk⟩ := Nat.exists_eq_succ_of_ne_zero hj.ne'
  rw [hk] at h ⊢
  rw [Nat.succ_sub_one] at h
  rw [Nat.succ_eq_add_one, pow_succ]
  have : (c : ℚ) / (PyField.modulus F : ℚ) * ((PyField.modulus F : ℚ) ^ k * (PyField.modulus F : ℚ)) =
      c * (PyField.modulus F : ℚ) ^ k := by
    field_simp
  rw [this]
  exact_mod_cast h

/-- C66 for `SumVec`: valid are the bit vectors, which stand for vectors of numbers in range (C15).  The number of moves is
written as in `robustness`, and its result is the bound, up to a factor of two in the soundness if padding is needed. -/
theorem C66_sumvec {length max cl : ℕ} {P : Prio3 (XofTurboShake128 prims fuel) F (List Int) (List ℕ)}
    (I : Spec.Instance P (Spec.sumVecFun length max)) (hV : SumVec F length max cl = .ok P.flp) (hp : 0 < P.proofs)
    {verifyKey ctx : Bytes} (hkey : verifyKey.length = 32) (hctx : ctx.length + 8 < 2 ^ 16) {N : ℕ}
    (hN : fuel * PyField.encSize F ≤ N) (σ : ClientStrategy F) (roQueries verifyQueries : ℕ) :
    winProbability P verifyKey ctx Spec.Bits σ (roQueries + verifyQueries) N ≤
      robustness ((cl : ℚ) / (PyField.modulus F : ℚ) + paddedSoundness P.flp) roQueries verifyQueries P.proofs ∧
    winProbability P verifyKey ctx Spec.Bits σ (roQueries + verifyQueries) N ≤
      robustness (2 * sumVecSoundness P.flp cl) roQueries verifyQueries P.proofs ∧
    (Unpadded P.flp → winProbability P verifyKey ctx Spec.Bits σ (roQueries + verifyQueries) N ≤
      robustness (sumVecSoundness P.flp cl) roQueries verifyQueries P.proofs) := by
  have hC := I.custom.computes.toCircuit
  obtain ⟨hg, hj⟩ : P.flp.gadgets ≠ [] ∧ 0 < P.flp.jointRandLen := by
    have hc := hC.calls_pos
    obtain ⟨-, -, -, -, h⟩ := SumVec_ok hV
    rw [h] at hc ⊢
    exact ⟨by simp [SumVec.circuit], hc _ (List.mem_singleton.2 rfl)⟩
  have h0 : (0 : ℚ) ≤ (cl : ℚ) / (PyField.modulus F : ℚ) := by positivity
  have h2 : 0 ≤ paddedSoundness P.flp := by
    rw [padded_eq]
    positivity
  have h1 := C66_robustness_custom I.custom hp hg hkey hctx hN (valid := Spec.Bits) h0
    (fun meas hm hv => joint_ratio hj ((C15_sumvec_rejects hV I.fits meas hm).1 hv)) σ (roQueries + verifyQueries)
  have mono : ∀ {s : ℚ}, (cl : ℚ) / (PyField.modulus F : ℚ) + paddedSoundness P.flp ≤ s →
      winProbability P verifyKey ctx Spec.Bits σ (roQueries + verifyQueries) N ≤
        robustness s roQueries verifyQueries P.proofs := fun hs =>
    h1.trans (mul_le_mul_of_nonneg_left (pow_le_pow_left₀ (by positivity) hs _) (Nat.cast_nonneg _))
  refine ⟨mono le_rfl, mono ?_, fun hu => mono (add_le_add_right (padded_le_base hC hu) _)⟩
  have h3 := padded_le_double hC
  unfold sumVecSoundness
  linarith

/-- C66 for `Histogram`: valid are the encodings of the documented measurements. -/
theorem C66_histogram {length cl : ℕ} {P : Prio3 (XofTurboShake128 prims fuel) F Int (List ℕ)}
    (I : Spec.Instance P (Spec.histogramFun length)) (hV : Histogram F length cl = .ok P.flp)
    (hlen : length < PyField.modulus F) (hp : 0 < P.proofs)
    {verifyKey ctx : Bytes} (hkey : verifyKey.length = 32) (hctx : ctx.length + 8 < 2 ^ 16) {N : ℕ}
    (hN : fuel * PyField.encSize F ≤ N) (σ : ClientStrategy F) (q : ℕ) :
    winProbability P verifyKey ctx (fun meas => ∃ m, (Spec.histogramFun length).valid m ∧ P.flp.encode m = .ok meas) σ q N ≤
      q * ((cl : ℚ) / (PyField.modulus F : ℚ) + paddedSoundness P.flp) ^ P.proofs := by
  obtain ⟨hg, hj⟩ : P.flp.gadgets ≠ [] ∧ 0 < P.flp.jointRandLen := by
    have hc := I.custom.computes.toCircuit.calls_pos
    obtain ⟨-, -, h⟩ := Histogram_ok hV
    rw [h] at hc ⊢
    exact ⟨by simp [Histogram.circuit], hc _ (List.mem_singleton.2 rfl)⟩
  exact C66_robustness_custom I.custom hp hg hkey hctx hN (by positivity)
    (fun meas hm hv => joint_ratio hj (C15_histogram_rejects hV I.fits hlen meas hm hv)) σ q

/-- C66 for `MultihotCountVec`: valid are the bit vectors that stand for a documented measurement together with its
weight. -/
theorem C66_multihot {length mw cl : ℕ} {P : Prio3 (XofTurboShake128 prims fuel) F (List Bool) (List ℕ)}
    (I : Spec.Instance P (Spec.multihotFun length mw)) (hV : MultihotCountVec F length mw cl = .ok P.flp) (hp : 0 < P.proofs)
    {verifyKey ctx : Bytes} (hkey : verifyKey.length = 32) (hctx : ctx.length + 8 < 2 ^ 16) {N : ℕ}
    (hN : fuel * PyField.encSize F ≤ N) (σ : ClientStrategy F) (q : ℕ) :
    winProbability P verifyKey ctx (fun meas => Spec.Bits meas ∧ ∃ m : List Bool, (Spec.multihotFun length mw).valid m ∧
      P.flp.truncate meas = .ok (m.map fun b => if b then 1 else 0) ∧
      decodeRangeCheckedInt (meas.drop length) mw = .ok (m.count true : F)) σ q N ≤
      q * ((cl : ℚ) / (PyField.modulus F : ℚ) + paddedSoundness P.flp) ^ P.proofs := by
  obtain ⟨hg, hj⟩ : P.flp.gadgets ≠ [] ∧ 0 < P.flp.jointRandLen := by
    have hc := I.custom.computes.toCircuit.calls_pos
    obtain ⟨-, -, -, -, -, h⟩ := MultihotCountVec_ok hV
    rw [h] at hc ⊢
    exact ⟨by simp [MultihotCountVec.circuit], hc _ (List.mem_singleton.2 rfl)⟩
  exact C66_robustness_custom I.custom hp hg hkey hctx hN (by positivity)
    (fun meas hm hv => joint_ratio hj (C15_multihot_rejects hV I.fits meas hm hv)) σ q

end

/-! Non-vacuity: an instance of Prio3 with joint randomness, and a Client that computes the joint randomness of an honest
report, submits it, submits it again, and then submits one whose measurement is `[2, 0]`. -/

/-- An honest report for bucket 0, or the result of adding 1 to its first share. -/
def gameReport (cheat : Bool) : Spec.Report Field128 :=
  let nonce := List.replicate 16 (if cheat then 6 else 5)
  match privacyExample.shard [1] 0 nonce (List.replicate 192 7) with
  | .error _ => ⟨nonce, none, []⟩
  | .ok (pub, shares) => ⟨nonce, pub, shares.map fun s => match s with
    | .leader ms ps blind => .leader (match ms with
      | x :: xs => (if cheat then x + 1 else x) :: xs
      | [] => []) ps blind
    | .helper seed blind => .helper seed blind⟩

/-- The Client. -/
def gameClient : ClientStrategy Field128 := fun replies =>
  match replies.length with
  | 0 => .probe (gameReport false).nonce (gameReport false).inputShares
  | 1 | 2 => .submit (gameReport false)
  | _ => .submit (gameReport true)

example : Histogram Field128 2 1 = .ok privacyExample.flp ∧ Spec.Instance privacyExample (Spec.histogramFun 2) ∧
    0 < privacyExample.proofs ∧ privacyExample.flp.gadgets ≠ [] ∧ 40 * PyField.encSize Field128 ≤ 640 := by
  refine ⟨by rfl, privacyExample_instance, by decide, by simp [privacyExample, Histogram.circuit], by decide⟩

set_option maxRecDepth 4000 in
-- the replies: there is a joint randomness, the honest report is accepted once, and the other one is not accepted
example : (clientRun privacyExample (List.replicate 32 1) [1] gameClient 4).map (fun x => match x.2 with
    | .jointRand jr => jr.isSome
    | .verdict b => b) = [true, true, false, false] := by decide +kernel

-- the measurement of the report that is not accepted
example : (match measShares privacyExample [1] (gameReport true).inputShares with
    | .ok xs => xs.map Prod.fst |>.foldl (fun a b => a.zipWith (· + ·) b) [0, 0]
    | .error _ => []) = ([2, 0] : List Field128) := by decide +kernel

end Vdaf
