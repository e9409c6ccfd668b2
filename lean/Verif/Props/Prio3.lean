import Verif.Proofs.Prio3Inst
import Verif.Proofs.Drivers
import Verif.Props.Xof

/-!
# Properties C23 - C30 and C49: Prio3 and the generic drivers

Specification vocabulary (`Verif/Spec/Prio3.lean`, `Verif/Spec/Vdaf.lean`, `Verif/Spec/Flp.lean`):

* `Spec.Instance P fn`: `P` is an instance of Prio3 accepted by the constructors, for a circuit
  of the library that is for `fn`, with `XofTurboShake128` over arbitrary primitives;
* `Spec.HonestFailure`: the rejection sampler ran out of its bound, or a test point was a root
  of unity;
* `Spec.VerifySucceeds`, `Spec.JointRandOf`: verification of one report by all the Aggregators;
* `Spec.aggregate V p outs`: `agg_init` followed by `agg_update` for each element of `outs`.
-/

set_option linter.unusedSectionVars false

namespace Vdaf
open Finset

variable {F : Type} [NttField F] {Meas Agg : Type} {prims : Prims} {fuel : ℕ}

/-! ## C23 -/

/-- C23.  A measurement comes with its nonce and randomness.  The first alternative says that
the integers of the result are those of the aggregate reduced modulo `MODULUS`, and that the
result is exactly the aggregate if these are smaller than `MODULUS`. -/
theorem C23_end_to_end {P : Prio3 (XofTurboShake128 prims fuel) F Meas Agg} {fn : Spec.Fun Meas Agg}
    (I : Spec.Instance P fn) (verifyKey ctx : Bytes) (hkey : verifyKey.length = 32)
    (hctx : ctx.length + 8 < 2 ^ 16) (batch : List (Meas × Bytes × Bytes))
    (hbatch : ∀ m ∈ batch, fn.valid m.1 ∧ m.2.1.length = 16 ∧ m.2.2.length = P.randSize) :
    (∃ R, runVdaf P.vdaf verifyKey () ctx batch = .ok R ∧
      fn.totals R = (fn.totals (fn.agg (batch.map Prod.fst))).map (· % PyField.modulus F) ∧
      ((∀ n ∈ fn.totals (fn.agg (batch.map Prod.fst)), n < PyField.modulus F) →
        R = fn.agg (batch.map Prod.fst))) ∨
    ∃ e, runVdaf P.vdaf verifyKey () ctx batch = .error e ∧
      Spec.HonestFailure P verifyKey ctx (batch.map fun m => m.2.1) e :=
  (Prio3.runVdaf_good I.wf hctx (Library.facts I.library I.fits) hkey hbatch).cases

/-- C23 for `Prio3Count`: the number of ones. -/
theorem C23_prio3_count {shares : ℕ} {P : Prio3 (XofTurboShake128 prims fuel) Field64 Int Nat}
    (hP : Prio3Count prims fuel shares = .ok P) (verifyKey ctx : Bytes)
    (hkey : verifyKey.length = 32) (hctx : ctx.length + 8 < 2 ^ 16)
    (batch : List (Int × Bytes × Bytes))
    (hbatch : ∀ m ∈ batch, (m.1 = 0 ∨ m.1 = 1) ∧ m.2.1.length = 16 ∧ m.2.2.length = P.randSize) :
    runVdaf P.vdaf verifyKey () ctx batch =
        .ok ((batch.map fun m => m.1.toNat).sum % PyField.modulus Field64) ∨
    ∃ e, runVdaf P.vdaf verifyKey () ctx batch = .error e ∧
      Spec.HonestFailure P verifyKey ctx (batch.map fun m => m.2.1) e := by
  rcases C23_end_to_end (instance_count hP).1 verifyKey ctx hkey hctx batch hbatch with ⟨R, h1, h2, -⟩ | h
  · left
    rw [h1]
    have h2 : [R] = [((batch.map Prod.fst).map Int.toNat).sum % PyField.modulus Field64] := h2
    rw [List.map_map] at h2
    exact congrArg _ (List.cons.inj h2).1
  · exact .inr h

/-- C23 for `Prio3Sum` with `max_measurement` positive: the sum. -/
theorem C23_prio3_sum {shares max : ℕ} (hmax : 0 < max)
    {P : Prio3 (XofTurboShake128 prims fuel) Field64 Int Nat}
    (hP : Prio3Sum prims fuel shares max = .ok P) (verifyKey ctx : Bytes)
    (hkey : verifyKey.length = 32) (hctx : ctx.length + 8 < 2 ^ 16)
    (batch : List (Int × Bytes × Bytes))
    (hbatch : ∀ m ∈ batch, (0 ≤ m.1 ∧ m.1 ≤ max) ∧ m.2.1.length = 16 ∧ m.2.2.length = P.randSize) :
    runVdaf P.vdaf verifyKey () ctx batch =
        .ok ((batch.map fun m => m.1.toNat).sum % PyField.modulus Field64) ∨
    ∃ e, runVdaf P.vdaf verifyKey () ctx batch = .error e ∧
      Spec.HonestFailure P verifyKey ctx (batch.map fun m => m.2.1) e := by
  rcases C23_end_to_end (instance_sum hmax hP).1 verifyKey ctx hkey hctx batch hbatch with
    ⟨R, h1, h2, -⟩ | h
  · left
    rw [h1]
    have h2 : [R] = [((batch.map Prod.fst).map Int.toNat).sum % PyField.modulus Field64] := h2
    rw [List.map_map] at h2
    exact congrArg _ (List.cons.inj h2).1
  · exact .inr h

/-- C23 for `Prio3SumVec`, if fewer than `2 ** 65` field elements encode a measurement: the
sums of the coordinates. -/
theorem C23_prio3_sumvec {shares length max chunkLength : ℕ} (hl : length * Nat.size max < 2 ^ 65)
    {P : Prio3 (XofTurboShake128 prims fuel) Field128 (List Int) (List Nat)}
    (hP : Prio3SumVec prims fuel shares length max chunkLength = .ok P) (verifyKey ctx : Bytes)
    (hkey : verifyKey.length = 32) (hctx : ctx.length + 8 < 2 ^ 16)
    (batch : List (List Int × Bytes × Bytes))
    (hbatch : ∀ m ∈ batch, (m.1.length = length ∧ ∀ x ∈ m.1, 0 ≤ x ∧ x ≤ (max : Int)) ∧
      m.2.1.length = 16 ∧ m.2.2.length = P.randSize) :
    (∃ R, runVdaf P.vdaf verifyKey () ctx batch = .ok R ∧ R.length = length ∧
      ∀ j < length, R[j]? =
        some ((batch.map fun m => (m.1.getD j 0).toNat).sum % PyField.modulus Field128)) ∨
    ∃ e, runVdaf P.vdaf verifyKey () ctx batch = .error e ∧
      Spec.HonestFailure P verifyKey ctx (batch.map fun m => m.2.1) e := by
  rcases C23_end_to_end (instance_sumVec hl hP).1 verifyKey ctx hkey hctx batch hbatch with
    ⟨R, h1, h2, -⟩ | h
  · left
    refine ⟨R, h1, ?_⟩
    have h2 : R = ((Spec.sumVecFun length max).agg (batch.map Prod.fst)).map
      (· % PyField.modulus Field128) := h2
    rw [h2]
    refine ⟨by simp [Spec.sumVecFun], fun j hj => ?_⟩
    simp [Spec.sumVecFun, hj, Function.comp_def]
  · exact .inr h

/-- C23 for `Prio3SumVecWithMultiproof`, over any field. -/
theorem C23_prio3_multiproof {shares numProofs length max chunkLength k : ℕ}
    (hn : numProofs < 256) (hsh : shares < PyField.modulus F)
    (hl : length * Nat.size max < 2 ^ k) (hF : 2 ^ (k + 1) ≤ NttField.genOrder F)
    {P : Prio3 (XofTurboShake128 prims fuel) F (List Int) (List Nat)}
    (hP : Prio3SumVecWithMultiproof prims fuel shares F numProofs length max chunkLength = .ok P)
    (verifyKey ctx : Bytes) (hkey : verifyKey.length = 32) (hctx : ctx.length + 8 < 2 ^ 16)
    (batch : List (List Int × Bytes × Bytes))
    (hbatch : ∀ m ∈ batch, (m.1.length = length ∧ ∀ x ∈ m.1, 0 ≤ x ∧ x ≤ (max : Int)) ∧
      m.2.1.length = 16 ∧ m.2.2.length = P.randSize) :
    (∃ R, runVdaf P.vdaf verifyKey () ctx batch = .ok R ∧ R.length = length ∧
      ∀ j < length, R[j]? =
        some ((batch.map fun m => (m.1.getD j 0).toNat).sum % PyField.modulus F)) ∨
    ∃ e, runVdaf P.vdaf verifyKey () ctx batch = .error e ∧
      Spec.HonestFailure P verifyKey ctx (batch.map fun m => m.2.1) e := by
  rcases C23_end_to_end (instance_multiproof hn hsh hl hF hP).1 verifyKey ctx hkey hctx batch hbatch with
    ⟨R, h1, h2, -⟩ | h
  · left
    refine ⟨R, h1, ?_⟩
    have h2 : R = ((Spec.sumVecFun length max).agg (batch.map Prod.fst)).map
      (· % PyField.modulus F) := h2
    rw [h2]
    refine ⟨by simp [Spec.sumVecFun], fun j hj => ?_⟩
    simp [Spec.sumVecFun, hj, Function.comp_def]
  · exact .inr h

/-- C23 for `Prio3Histogram`: the number of measurements in each bucket. -/
theorem C23_prio3_histogram {shares length chunkLength : ℕ} (hl : length < 2 ^ 65)
    {P : Prio3 (XofTurboShake128 prims fuel) Field128 Int (List Nat)}
    (hP : Prio3Histogram prims fuel shares length chunkLength = .ok P) (verifyKey ctx : Bytes)
    (hkey : verifyKey.length = 32) (hctx : ctx.length + 8 < 2 ^ 16)
    (batch : List (Int × Bytes × Bytes))
    (hbatch : ∀ m ∈ batch, (0 ≤ m.1 ∧ m.1 < length) ∧
      m.2.1.length = 16 ∧ m.2.2.length = P.randSize) :
    (∃ R, runVdaf P.vdaf verifyKey () ctx batch = .ok R ∧ R.length = length ∧
      ∀ j < length, R[j]? =
        some ((batch.countP fun m => decide (m.1 = (j : Int))) % PyField.modulus Field128)) ∨
    ∃ e, runVdaf P.vdaf verifyKey () ctx batch = .error e ∧
      Spec.HonestFailure P verifyKey ctx (batch.map fun m => m.2.1) e := by
  rcases C23_end_to_end (instance_histogram hl hP).1 verifyKey ctx hkey hctx batch hbatch with
    ⟨R, h1, h2, -⟩ | h
  · left
    refine ⟨R, h1, ?_⟩
    have h2 : R = ((Spec.histogramFun length).agg (batch.map Prod.fst)).map
      (· % PyField.modulus Field128) := h2
    rw [h2]
    refine ⟨by simp [Spec.histogramFun], fun j hj => ?_⟩
    simp [Spec.histogramFun, hj, Function.comp_def, List.countP_map]
  · exact .inr h

/-- C23 for `Prio3MultihotCountVec`: how many measurements have each bit set. -/
theorem C23_prio3_multihot {shares length maxWeight chunkLength : ℕ}
    (hl : length + Nat.size maxWeight < 2 ^ 65)
    {P : Prio3 (XofTurboShake128 prims fuel) Field128 (List Bool) (List Nat)}
    (hP : Prio3MultihotCountVec prims fuel shares length maxWeight chunkLength = .ok P)
    (verifyKey ctx : Bytes)
    (hkey : verifyKey.length = 32) (hctx : ctx.length + 8 < 2 ^ 16)
    (batch : List (List Bool × Bytes × Bytes))
    (hbatch : ∀ m ∈ batch, (m.1.length = length ∧ m.1.count true ≤ maxWeight) ∧
      m.2.1.length = 16 ∧ m.2.2.length = P.randSize) :
    (∃ R, runVdaf P.vdaf verifyKey () ctx batch = .ok R ∧ R.length = length ∧
      ∀ j < length, R[j]? =
        some ((batch.countP fun m => m.1.getD j false) % PyField.modulus Field128)) ∨
    ∃ e, runVdaf P.vdaf verifyKey () ctx batch = .error e ∧
      Spec.HonestFailure P verifyKey ctx (batch.map fun m => m.2.1) e := by
  rcases C23_end_to_end (instance_multihot hl hP).1 verifyKey ctx hkey hctx batch hbatch with
    ⟨R, h1, h2, -⟩ | h
  · left
    refine ⟨R, h1, ?_⟩
    have h2 : R = ((Spec.multihotFun length maxWeight).agg (batch.map Prod.fst)).map
      (· % PyField.modulus Field128) := h2
    rw [h2]
    refine ⟨by simp [Spec.multihotFun], fun j hj => ?_⟩
    simp [Spec.multihotFun, hj, Function.comp_def, List.countP_map]
  · exact .inr h

-- complete executions, with a toy XOF
example : (do
    let P ← Prio3Count toyPrims 40 2
    runVdaf P.vdaf (List.replicate 32 1) () [1, 2]
      [(1, List.replicate 16 3, List.replicate 64 7), (0, List.replicate 16 4, List.replicate 64 8)]) =
    .ok 1 := by decide +kernel
example : (do
    let P ← Prio3Histogram toyPrims 40 3 2 1
    runVdaf P.vdaf (List.replicate 32 1) () [1, 2]
      [(1, List.replicate 16 3, List.replicate 192 7)]) = .ok [0, 1] := by decide +kernel
example : (do
    let P ← Prio3SumVecWithMultiproof toyPrims 80 2 Field64 2 2 3 2
    runVdaf P.vdaf (List.replicate 32 1) () [1, 2]
      [([1, 3], List.replicate 16 3, List.replicate 128 7),
       ([2, 3], List.replicate 16 4, List.replicate 128 9)]) = .ok [3, 6] := by decide +kernel
-- the exception for a bound that is too small
example : (do
    let P ← Prio3Count toyPrims 1 2
    runVdaf P.vdaf (List.replicate 32 1) () [1, 2]
      [(1, List.replicate 16 3, List.replicate 64 7)]) = .error .fuel := by decide +kernel

/-! ## C24 -/

section
variable {X : Xof} {P : Prio3 X F Meas Agg}

/-- C24: whatever the public share is, if all the Aggregators accept, then they all used the
joint randomness `jrs` derived from the seed `msg`, computed from the measurement shares and
blinds in their own input shares. -/
theorem C24_joint_rand_bound (hN : 0 < P.shares) {verifyKey ctx nonce : Bytes}
    {pub : Option (List Bytes)} {ish : ℕ → Prio3InputShare F} {st sh : ℕ → List F × Option Bytes}
    {msg : Option Bytes} (h : Spec.VerifySucceeds P verifyKey ctx nonce pub ish st sh msg) :
    ∃ (ms ps : ℕ → List F) (bl : ℕ → Option Bytes) (jrs qrs : List F),
      (∀ j < P.shares, Spec.Expands P ctx j (ish j) (ms j) (ps j) (bl j)) ∧
      Spec.JointRandOf P ctx nonce ms bl msg jrs ∧
      Spec.queryRands P verifyKey ctx nonce = .ok qrs ∧
      ∀ j < P.shares, (st j).2 = msg ∧ P.flp.truncate (ms j) = .ok (st j).1 ∧
        Spec.Queries P (ms j) (ps j) qrs jrs (sh j).1 := by
  obtain ⟨ms, ps, bl, jrs, qrs, h1, h2, h3, h4⟩ := Prio3.joint_of_success hN h
  exact ⟨ms, ps, bl, jrs, qrs, fun j hj => Prio3.expandInputShare_ok (h1 j hj), h2.spec,
    (Prio3.queryRands_ok.1 h3).2.2, fun j hj => ⟨(h4 j hj).1, (h4 j hj).2.1,
      Prio3.queryLoop_ok (h4 j hj).2.2⟩⟩

/-- C24: any verifier message other than the Aggregator's own corrected seed is rejected, and
that one is accepted. -/
theorem C24_other_message_rejected (ctx : Bytes) (st : List F × Option Bytes) (msg : Option Bytes) :
    (msg ≠ st.2 → Prio3.verifyNext (F := F) ctx st msg =
      .error (.value "joint randomness check failed")) ∧
    (msg = st.2 → Prio3.verifyNext (F := F) ctx st msg = .ok (.out st.1)) := by
  obtain ⟨o, c⟩ := st
  unfold Prio3.verifyNext
  constructor <;> intro h
  · simp only at h
    simp [h, raiseIf]
  · simp only at h
    simp [h, raiseIf]

end

-- the public share matters: with another one, verification of the same input shares fails
example : (do
    let P ← Prio3Histogram toyPrims 40 2 2 1
    let (pub, ish) ← P.shard [1] 1 (List.replicate 16 3) (List.replicate 128 7)
    let i0 ← getI ish 0
    let i1 ← getI ish 1
    let (s0, v0) ← P.verifyInit (List.replicate 32 1) [1] 0 () (List.replicate 16 3) pub i0
    let (s1, v1) ← P.verifyInit (List.replicate 32 1) [1] 1 () (List.replicate 16 3) pub i1
    let msg ← P.sharesToMessage [1] () [v0, v1]
    let r0 ← Prio3.verifyNext (F := Field128) [1] s0 msg
    let r1 ← Prio3.verifyNext (F := Field128) [1] s1 msg
    return msg.isSome) = .ok true := by decide +kernel
example : (do
    let P ← Prio3Histogram toyPrims 40 2 2 1
    let (_, ish) ← P.shard [1] 1 (List.replicate 16 3) (List.replicate 128 7)
    let pub := some [List.replicate 32 0, List.replicate 32 0]
    let i0 ← getI ish 0
    let i1 ← getI ish 1
    let (s0, v0) ← P.verifyInit (List.replicate 32 1) [1] 0 () (List.replicate 16 3) pub i0
    let (s1, v1) ← P.verifyInit (List.replicate 32 1) [1] 1 () (List.replicate 16 3) pub i1
    return decide (s0.2 = s1.2)) = .ok false := by decide +kernel

/-! ## C25 -/

/-- C25.  The input shares `ish j` are arbitrary; `ms`, `ps` and `bl` are the measurement
shares, the proof shares and the blinds they expand to, `jrs` is the joint randomness in use, and `S` the set of
those proofs for whose joint randomness the sum of the measurement shares is not accepted by
the circuit.  The set `Bad` does not depend on the verification key. -/
theorem C25_robustness {P : Prio3 (XofTurboShake128 prims fuel) F Meas Agg} {fn : Spec.Fun Meas Agg}
    (I : Spec.Instance P fn) {ctx nonce : Bytes} {ish : ℕ → Prio3InputShare F}
    {ms ps : ℕ → List F} {bl : ℕ → Option Bytes} {seed : Option Bytes} {jrs : List F}
    (hexp : ∀ j < P.shares, Spec.Expands P ctx j (ish j) (ms j) (ps j) (bl j))
    (hjr : Spec.JointRandOf P ctx nonce ms bl seed jrs) (S : Finset (Fin P.proofs))
    (hinv : ∀ i ∈ S, ∀ meas, Spec.IsSum (fun j : Fin P.shares => ms j) meas →
      ¬ Spec.Accepts P.flp meas (Spec.piece P.flp.jointRandLen jrs i))
    (B : ℕ) (hB : 1 ≤ B)
    (hB' : ∀ g c p, (g, c) ∈ List.zip P.flp.gadgets P.flp.gadgetCalls → wirePolyLen c = .ok p →
      g.degree * (p - 1) ≤ B) :
    ∃ Bad : Set (Fin P.proofs → Fin P.flp.queryRandLen → F),
      Bad.ncard ≤ (B * PyField.modulus F ^ (P.flp.queryRandLen - 1)) ^ S.card *
        (PyField.modulus F ^ P.flp.queryRandLen) ^ (P.proofs - S.card) ∧
      ∀ verifyKey pub st sh msg, Spec.VerifySucceeds P verifyKey ctx nonce pub ish st sh msg →
        ∃ q ∈ Bad, Spec.queryRands P verifyKey ctx nonce =
          .ok ((List.ofFn fun i => List.ofFn (q i)).flatten) :=
  Prio3.robust I.wf hexp hjr S hinv B hB hB'

/-- C25 when the sum of the measurement shares is invalid for the joint randomness of all the
proofs. -/
theorem C25_robustness_all {P : Prio3 (XofTurboShake128 prims fuel) F Meas Agg}
    {fn : Spec.Fun Meas Agg}
    (I : Spec.Instance P fn) {ctx nonce : Bytes} {ish : ℕ → Prio3InputShare F}
    {ms ps : ℕ → List F} {bl : ℕ → Option Bytes} {seed : Option Bytes} {jrs : List F}
    (hexp : ∀ j < P.shares, Spec.Expands P ctx j (ish j) (ms j) (ps j) (bl j))
    (hjr : Spec.JointRandOf P ctx nonce ms bl seed jrs)
    (hinv : ∀ i < P.proofs, ∀ meas, Spec.IsSum (fun j : Fin P.shares => ms j) meas →
      ¬ Spec.Accepts P.flp meas (Spec.piece P.flp.jointRandLen jrs i))
    (B : ℕ) (hB : 1 ≤ B)
    (hB' : ∀ g c p, (g, c) ∈ List.zip P.flp.gadgets P.flp.gadgetCalls → wirePolyLen c = .ok p →
      g.degree * (p - 1) ≤ B) :
    ∃ Bad : Set (Fin P.proofs → Fin P.flp.queryRandLen → F),
      Bad.ncard ≤ B ^ P.proofs * PyField.modulus F ^ ((P.flp.queryRandLen - 1) * P.proofs) ∧
      ∀ verifyKey pub st sh msg, Spec.VerifySucceeds P verifyKey ctx nonce pub ish st sh msg →
        ∃ q ∈ Bad, Spec.queryRands P verifyKey ctx nonce =
          .ok ((List.ofFn fun i => List.ofFn (q i)).flatten) := by
  obtain ⟨Bad, h1, h2⟩ := C25_robustness I hexp hjr univ (fun i _ => hinv i i.2) B hB hB'
  refine ⟨Bad, ?_, h2⟩
  rw [card_univ, Fintype.card_fin, Nat.sub_self, pow_zero, mul_one, mul_pow, ← pow_mul] at h1
  exact h1

-- the bound for Prio3Histogram
example : ∃ P : Prio3 (XofTurboShake128 toyPrims 40) Field128 Int (List Nat),
    Spec.Instance P (Spec.histogramFun 2) ∧ P.flp.queryRandLen = 3 ∧ P.proofs = 1 ∧
    ∀ g c p, (g, c) ∈ List.zip P.flp.gadgets P.flp.gadgetCalls → wirePolyLen c = .ok p →
      g.degree * (p - 1) ≤ 6 := by
  refine ⟨⟨4, 2, 1, Histogram.circuit Field128 2 1, 9⟩,
    (instance_histogram (shares := 2) (cl := 1) (by decide) (by rfl)).1, by decide, rfl, ?_⟩
  intro g c p h hp
  simp only [Histogram.circuit, List.zip_cons_cons, List.zip_nil_right, List.mem_singleton,
    Prod.mk.injEq] at h
  obtain ⟨rfl, rfl⟩ := h
  have : wirePolyLen (numCalls 2 1) = .ok 4 := by decide
  rw [this] at hp
  cases hp
  decide

-- a report with an invalid measurement: the shares sum to 2
example : ∃ P : Prio3 (XofTurboShake128 toyPrims 40) Field64 Int Nat,
    Spec.Instance P Spec.countFun ∧ ∃ (ish : ℕ → Prio3InputShare Field64) (ms ps : ℕ → List Field64)
      (bl : ℕ → Option Bytes),
      (∀ j < P.shares, Spec.Expands P [1] j (ish j) (ms j) (ps j) (bl j)) ∧
      Spec.JointRandOf P [1] [] ms bl none [] ∧
      ∀ i < P.proofs, ∀ meas, Spec.IsSum (fun j : Fin P.shares => ms j) meas →
        ¬ Spec.Accepts P.flp meas (([].drop (P.flp.jointRandLen * i)).take P.flp.jointRandLen) := by
  refine ⟨⟨1, 2, 1, Count Field64, 5⟩, (instance_count (shares := 2) rfl).1,
    fun j => if j = 0 then .leader [2 - 280554802157090836] [1, 2, 3, 4, 5] none
      else .helper (List.replicate 32 7) none,
    fun j => if j = 0 then [2 - 280554802157090836] else [280554802157090836],
    fun j => if j = 0 then [1, 2, 3, 4, 5] else
      [16732830618477811950, 6156698449837705102, 14943018596778387608, 10113283468274970667,
        7257239974688173422],
    fun _ => none, ?_, .inl ⟨rfl, rfl, rfl⟩, ?_⟩
  · intro j hj
    have : j = 0 ∨ j = 1 := by simp only at hj; omega
    rcases this with rfl | rfl
    · exact .inl ⟨rfl, rfl⟩
    · exact .inr ⟨by decide, List.replicate 32 7, rfl, by decide +kernel, by decide +kernel⟩
  · intro i _ meas h
    have h2 : Spec.IsSum (fun j : Fin 2 => if (j : ℕ) = 0 then [(2 : Field64) - 280554802157090836]
        else [280554802157090836]) meas := h
    have hl : meas.length = 1 := by simpa using (h2.1 0).symm
    have hm : meas = [2] := by
      obtain ⟨x, rfl⟩ := List.length_eq_one_iff.1 hl
      have := h2.2 0
      rw [Fin.sum_univ_two] at this
      simp at this
      simp [this]
    subst hm
    have h3 : ¬ Spec.Accepts (Count Field64) [2] [] := by
      rw [C15_count_rejects (fits_single rfl rfl (by decide)) _ rfl]
      rintro ⟨m, rfl | rfl, h4⟩
      · revert h4; decide +kernel
      · revert h4; decide +kernel
    simpa using h3

/-! ## C26, C27 -/

section
variable {X : Xof} {P : Prio3 X F Meas Agg}

/-- C26 and C27 for input shares: the byte strings that decode to `s` are exactly the encoding
of `s`, if `s` has the right shape, and no others. -/
theorem C26_C27_input_share (aggId : ℕ) (b : Bytes) (s : Prio3InputShare F) :
    P.decodeInputShare aggId b = .ok s ↔
      Spec.InputShareShape P aggId s ∧ P.encodeInputShare s = .ok b :=
  Prio3.decodeInputShare_ok

/-- C26: input shares of the right shape can be encoded. -/
theorem C26_input_share_encodes (aggId : ℕ) (s : Prio3InputShare F)
    (h : Spec.InputShareShape P aggId s) : ∃ b, P.encodeInputShare s = .ok b ∧
      P.decodeInputShare aggId b = .ok s := by
  have : ∃ b, P.encodeInputShare s = .ok b := by
    unfold Prio3.encodeInputShare
    cases s with
    | helper s bl => exact ⟨_, rfl⟩
    | leader m p bl =>
      dsimp only
      rw [pyAssert_of' h.2.2.1, encodeVec_eq, encodeVec_eq]
      exact ⟨_, rfl⟩
  obtain ⟨b, hb⟩ := this
  exact ⟨b, hb, Prio3.decodeInputShare_ok.2 ⟨h, hb⟩⟩

/-- C26 and C27 for verifier shares. -/
theorem C26_C27_verifier_share (st : List F × Option Bytes) (b : Bytes) (s : List F × Option Bytes) :
    P.decodeVerifierShare st b = .ok s ↔
      Spec.VerifierShareShape P s ∧ P.encodeVerifierShare s = .ok b :=
  Prio3.decodeVerifierShare_ok

/-- C26: verifier shares of the right shape can be encoded. -/
theorem C26_verifier_share_encodes (st : List F × Option Bytes) (s : List F × Option Bytes)
    (h : Spec.VerifierShareShape P s) : ∃ b, P.encodeVerifierShare s = .ok b ∧
      P.decodeVerifierShare st b = .ok s := by
  have : ∃ b, P.encodeVerifierShare s = .ok b := by
    unfold Prio3.encodeVerifierShare
    obtain ⟨m, bl⟩ := s
    dsimp only
    rw [pyAssert_of' h.1, encodeVec_eq]
    exact ⟨_, rfl⟩
  obtain ⟨b, hb⟩ := this
  exact ⟨b, hb, Prio3.decodeVerifierShare_ok.2 ⟨h, hb⟩⟩

/-- C26 and C27 for public shares, when the circuit uses joint randomness. -/
theorem C26_C27_public_share_partial (hj : 0 < P.flp.jointRandLen) (b : Bytes)
    (s : Option (List Bytes)) : P.decodePublicShare b = .ok s ↔
      Spec.PublicShareShape P s ∧ Prio3.encodePublicShare s = .ok b :=
  Prio3.decodePublicShare_ok hj

/-- C26 for public shares: every public share of the right shape round trips. -/
theorem C26_public_share (s : Option (List Bytes)) (h : Spec.PublicShareShape P s) :
    ∃ b, Prio3.encodePublicShare s = .ok b ∧ P.decodePublicShare b = .ok s := by
  cases s with
  | none =>
    refine ⟨[], rfl, ?_⟩
    unfold Prio3.decodePublicShare
    rw [if_pos (show P.flp.jointRandLen = 0 from h)]
  | some parts =>
    exact ⟨concat parts, rfl, (Prio3.decodePublicShare_ok h.1).2 ⟨h, rfl⟩⟩

/-- C26 for verifier messages. -/
theorem C26_verifier_message (hX : 0 < X.seedSize) (st : List F × Option Bytes) (m : Option Bytes)
    (h : Spec.OptSeed P m) : ∃ b, Prio3.encodeVerifierMessage m = .ok b ∧
      Prio3.decodeVerifierMessage (F := F) st b = .ok m := by
  cases m with
  | none => exact ⟨[], rfl, rfl⟩
  | some s =>
    refine ⟨s, rfl, ?_⟩
    unfold Prio3.decodeVerifierMessage
    rw [if_neg (by have := h.2; omega)]

/-- C26 and C27 for output shares and aggregate shares (of any length), and for the aggregation
parameter. -/
theorem C26_C27_out_agg (b : Bytes) (v : List F) :
    (Prio3.decodeOutShare (F := F) () b = .ok v ↔ Prio3.encodeOutShare v = .ok b) ∧
    (Prio3.decodeAggShare (F := F) () b = .ok v ↔ Prio3.encodeAggShare v = .ok b) ∧
    (Prio3.decodeAggParam b = .ok () ↔ Prio3.encodeAggParam () = .ok b) := by
  refine ⟨?_, ?_, ?_⟩
  · unfold Prio3.decodeOutShare Prio3.encodeOutShare
    rw [decodeVec_eq_ok, encodeVec_eq, Except.ok.injEq, eq_comm]
  · unfold Prio3.decodeAggShare Prio3.encodeAggShare
    rw [decodeVec_eq_ok, encodeVec_eq, Except.ok.injEq, eq_comm]
  · unfold Prio3.decodeAggParam Prio3.encodeAggParam raiseIf
    by_cases h : b = []
    · simp [h]
    · simp [h, eq_comm]

end

/-- C27 is false of the code for the public share of a circuit without joint randomness:
`decode_public_share` ignores its argument. -/
theorem C27_public_share_not_strict : ∃ P : Prio3 (XofTurboShake128 toyPrims 40) Field64 Int Nat,
    Prio3Count toyPrims 40 2 = .ok P ∧ P.decodePublicShare [1, 2, 3] = .ok none ∧
    Prio3.encodePublicShare none = .ok [] :=
  ⟨_, rfl, rfl, rfl⟩

-- the messages of an execution have the right shapes, and decoding rejects longer ones
example : (do
    let P ← Prio3Histogram toyPrims 40 2 2 1
    let (pub, ish) ← P.shard [1] 1 (List.replicate 16 3) (List.replicate 128 7)
    let i0 ← getI ish 0
    let i1 ← getI ish 1
    let b0 ← P.encodeInputShare i0
    let b1 ← P.encodeInputShare i1
    let i0' ← P.decodeInputShare 0 b0
    let i1' ← P.decodeInputShare 1 b1
    let b2 ← Prio3.encodePublicShare pub
    let pub' ← P.decodePublicShare b2
    let (s0, v0) ← P.verifyInit (List.replicate 32 1) [1] 0 () (List.replicate 16 3) pub i0
    let b3 ← P.encodeVerifierShare v0
    let v0' ← P.decodeVerifierShare s0 b3
    return (decide (i0' = i0 ∧ i1' = i1 ∧ pub' = pub ∧ v0' = v0 ∧
      P.decodeInputShare 1 (b1 ++ [0]) = Except.error (Err.value "input share is too long") ∧
      P.decodePublicShare (b2 ++ [0]) = Except.error (Err.value "public share is too long")),
      b0.length, b1.length, b2.length, b3.length)) = .ok (true, 16 * 11 + 32, 64, 64, 16 * 4 + 32) := by
  decide +kernel

/-! ## C28 -/

section
variable {X : Xof} {P : Prio3 X F Meas Agg}

/-- C28 for Prio3: the aggregate share does not depend on the order of the output shares. -/
theorem C28_prio3_order {outs outs' : List (List F)} (h : outs.Perm outs') :
    Spec.aggregate P.vdaf () outs = Spec.aggregate P.vdaf () outs' :=
  Prio3.aggregate_perm h

/-- C28 for Prio3: merging the aggregate shares of sub-batches `bs`, in any order, gives the
aggregate share of the batch. -/
theorem C28_prio3_merge {outs : List (List F)} {bs : List (List (List F))}
    (h : outs.Perm bs.flatten) :
    (do
      let as ← mapRes (Spec.aggregate P.vdaf ()) bs
      P.vdaf.merge () as) = Spec.aggregate P.vdaf () outs := by
  rw [Prio3.aggregate_flatten, Prio3.aggregate_perm h]

/-- C28 for Prio3: the aggregate share is the sum of the output shares. -/
theorem C28_prio3_sum {k : ℕ} (outs : Fin k → List F) (a : List F)
    (h : Spec.aggregate P.vdaf () (List.ofFn outs) = .ok a) :
    Spec.IsSum outs a ∧ a.length = P.flp.outputLen := by
  rw [Prio3.aggregate_eq] at h
  split at h
  · next hl =>
    cases h
    refine ⟨isSum_iff.2 ⟨fun i => by simpa using hl (outs i) (by simp), fun j => ?_⟩, by simp⟩
    by_cases hj : j < P.flp.outputLen
    · simp [coef_tab, hj, colsum, List.map_ofFn, List.sum_ofFn]
    · rw [coef_tab, if_neg hj]
      refine (sum_eq_zero fun i _ => ?_).symm
      exact coef_of_le (by have := hl (outs i) (by simp); omega)
  · cases h

/-- C28 for Prio3: `agg_init` is neutral. -/
theorem C28_prio3_init_neutral (a : List F) (ha : a.length = P.flp.outputLen) :
    ∃ z, P.vdaf.aggInit () = .ok z ∧ P.vdaf.merge () [z, a] = .ok a ∧
      P.vdaf.merge () [a, z] = .ok a ∧ P.vdaf.merge () [a] = .ok a ∧ P.vdaf.merge () [] = .ok z := by
  refine ⟨fieldZeros F P.flp.outputLen, rfl, ?_, ?_, ?_, rfl⟩ <;>
  · rw [Prio3.merge_eq, Prio3.aggregate_eq, if_pos (by simp [ha, fieldZeros])]
    congr 1
    conv_rhs => rw [eq_tab ha]
    apply tab_congr
    intro j hj
    simp [colsum, fieldZeros, coef, hj, ha]

end

example : ∃ P : Prio3 (XofTurboShake128 toyPrims 40) Field128 Int (List Nat),
    Prio3Histogram toyPrims 40 2 2 1 = .ok P ∧
    Spec.aggregate P.vdaf () [[1, 2], [3, 4], [5, 6]] = .ok [9, 12] ∧
    P.vdaf.merge () [[6, 8], [3, 4]] = .ok [9, 12] ∧
    Spec.aggregate P.vdaf () [[1, 2], [3]] = .error (.value "mismatched vector sizes") :=
  ⟨_, rfl, by decide +kernel, by decide +kernel, by decide +kernel⟩

/-! ## C29 -/

/-- C29 for Prio3: a report is used at most once. -/
theorem C29_prio3_once {X : Xof} {P : Prio3 X F Meas Agg} (hist : List Unit)
    (h : Spec.Guarded P.vdaf.isValid hist) : hist.length ≤ 1 := by
  cases h with
  | nil => simp
  | snoc h1 h2 =>
    next hist p =>
    have h2 : (Except.ok (hist.length == 0) : Res Bool) = .ok true := h2
    have : hist.length = 0 := by simpa using h2
    simp [this]

/-- C29 for Prio3: the first use is allowed. -/
theorem C29_prio3_first {X : Xof} {P : Prio3 X F Meas Agg} : Spec.Guarded P.vdaf.isValid [()] :=
  Spec.Guarded.snoc (hist := []) .nil rfl

/-! ## C30 -/

/-- C30: `shard` of a documented measurement returns one input share per Aggregator; the
measurement shares they expand to sum to the encoded measurement, the proof shares to the
concatenation of the proofs, each of which is `prove` run with its piece of the prove randomness, expanded from
the client's last seed, and of the joint randomness derived from the shares.  The helpers' input
shares, and the leader's blind, are seeds of the client.  The only exception is that the sampler ran
out of its bound. -/
theorem C30_shard {P : Prio3 (XofTurboShake128 prims fuel) F Meas Agg} {fn : Spec.Fun Meas Agg}
    (I : Spec.Instance P fn) (ctx : Bytes) (hctx : ctx.length + 8 < 2 ^ 16) (m : Meas)
    (hm : fn.valid m) (nonce rand : Bytes) (hn : nonce.length = 16)
    (hr : rand.length = 32 * Spec.numSeeds P) :
    (∃ pub ish, P.shard ctx m nonce rand = .ok (pub, ish) ∧ ish.length = P.shares ∧
      ∃ (meas : List F) (ms ps : ℕ → List F) (bl : ℕ → Option Bytes) (seed : Option Bytes)
        (prs jrs : List F) (proof : ℕ → List F),
        P.flp.encode m = .ok meas ∧
        (∀ j < P.shares, ∃ s, ish[j]? = some s ∧ Spec.Expands P ctx j s (ms j) (ps j) (bl j)) ∧
        Spec.IsSum (fun j : Fin P.shares => ms j) meas ∧
        Spec.JointRandOf P ctx nonce ms bl seed jrs ∧
        Spec.PublicShareOf P ctx nonce ms bl pub ∧
        Spec.proveRands P ctx (Spec.seedAt P rand (Spec.numSeeds P - 1)) = .ok prs ∧
        (∀ i < P.proofs, P.flp.prove meas (Spec.piece P.flp.proveRandLen prs i)
          (Spec.piece P.flp.jointRandLen jrs i) = .ok (proof i)) ∧
        Spec.IsSum (fun j : Fin P.shares => ps j) ((List.range P.proofs).flatMap proof) ∧
        ish.tail = Spec.helperShares P rand ∧
        bl 0 = if 0 < P.flp.jointRandLen then some (Spec.seedAt P rand (Spec.numSeeds P - 2))
          else none) ∨
    (P.shard ctx m nonce rand = .error .fuel ∧ Spec.SamplerRanOut (XofTurboShake128 prims fuel) F) := by
  obtain ⟨ints, of, h1, -, -, -⟩ := (Library.encFacts I.library).enc
  obtain ⟨meas, he, hl, -⟩ := h1 m hm
  have hns : P.numSeeds = Spec.numSeeds P := by
    unfold Prio3.numSeeds Spec.numSeeds
    rw [two_mul]
  have hr' : rand.length = P.randSize := by
    unfold Prio3.randSize
    rw [hns, hr, mul_comm]
    rfl
  rcases (Prio3.shard_good I.wf hctx he hl hn hr').cases with ⟨⟨pub, ish⟩, hs, hP⟩ | ⟨e, hs, rfl, hf⟩
  · obtain ⟨ms, ps, bl, prs, jrs, π, S, hhs, hpr, hb⟩ := hP
    rw [hns] at hpr hb
    left
    have hjr : ∃ seed, Spec.JointRandOf P ctx nonce ms bl seed jrs := by
      rcases S.joint with ⟨a, b, c⟩ | ⟨a, parts, b, seed, c, d, e, f⟩
      · refine ⟨none, .inl ⟨a, rfl, ?_⟩⟩
        have := S.jrsLen
        rw [a, zero_mul] at this
        exact List.length_eq_zero_iff.1 this
      · exact ⟨some seed, Prio3.JointRandOf.spec (.inr ⟨a, b, parts, seed, rfl,
          fun j hj => ⟨(d j hj).1, (d j hj).2.2.1⟩, e, f⟩)⟩
    obtain ⟨seed, hjr⟩ := hjr
    refine ⟨pub, ish, hs, S.len, meas, ms, ps, bl, seed, prs, jrs, π, he, ?_, S.measSum, hjr,
      ?_, (Prio3.proveRands_ok.1 hpr).2.2, fun i hi => (S.prove i hi).1, S.proofSum, ?_, ?_⟩
    · intro j hj
      obtain ⟨s, h1, h2⟩ := S.expand j hj
      exact ⟨s, h1, Prio3.expandInputShare_ok h2⟩
    · rcases S.joint with ⟨a, rfl, c⟩ | ⟨a, parts, b, seed, rfl, d, e, f⟩
      · exact a
      · refine ⟨a, by simp, fun j hj => ⟨b j, parts j, (d j hj).1, by simp [tab, hj], ?_⟩⟩
        exact (Prio3.jointRandPart_ok.1 (d j hj).2.2.1).2.2
    · rw [← List.drop_one]; exact hhs
    · rcases S.joint with ⟨a, b, c⟩ | ⟨a, parts, b, seed, c, d, e, f⟩
      · rw [if_neg (by omega)]; exact c 0
      · rw [if_pos a]; exact hb a
  · exact .inr ⟨hs, hf⟩

/-- C30: the helpers' input shares are the same for all measurements (and even for all contexts
and nonces). -/
theorem C30_helper_shares_independent {P : Prio3 (XofTurboShake128 prims fuel) F Meas Agg}
    {fn : Spec.Fun Meas Agg} (I : Spec.Instance P fn) {ctx ctx' : Bytes}
    (hctx : ctx.length + 8 < 2 ^ 16) (hctx' : ctx'.length + 8 < 2 ^ 16) {m m' : Meas}
    (hm : fn.valid m) (hm' : fn.valid m') {nonce nonce' rand : Bytes}
    {pub pub' : Option (List Bytes)} {ish ish' : List (Prio3InputShare F)}
    (h : P.shard ctx m nonce rand = .ok (pub, ish))
    (h' : P.shard ctx' m' nonce' rand = .ok (pub', ish')) (j : ℕ) (hj : 0 < j) :
    ish[j]? = ish'[j]? := by
  have key : ∀ {ctx m nonce pub} {ish : List (Prio3InputShare F)}, ctx.length + 8 < 2 ^ 16 → fn.valid m →
      P.shard ctx m nonce rand = .ok (pub, ish) → ish.drop 1 = Spec.helperShares P rand := by
    intro ctx m nonce pub ish hctx hm h
    obtain ⟨ints, of, h1, -, -, -⟩ := (Library.encFacts I.library).enc
    obtain ⟨meas, he, hl, -⟩ := h1 m hm
    have h0 := h
    unfold Prio3.shard at h0
    obtain ⟨_, a1, h0⟩ := Except.bind_eq_ok.1 h0
    obtain ⟨_, a2, h0⟩ := Except.bind_eq_ok.1 h0
    have hn : nonce.length = 16 := 
      not_not.1 (of_decide_eq_false (raiseIf_eq_ok.1 a1))
    have hr : rand.length = P.randSize := 
      not_not.1 (of_decide_eq_false (raiseIf_eq_ok.1 a2))
    rcases (Prio3.shard_good I.wf hctx he hl hn hr).cases with ⟨⟨pub', ish'⟩, hs, hP⟩ | ⟨e, hs, _, hf⟩
    · rw [h] at hs
      cases hs
      obtain ⟨_, _, _, _, _, _, -, hP, -⟩ := hP
      exact hP
    · rw [h] at hs; cases hs
  have := (key hctx hm h).trans (key hctx' hm' h').symm
  obtain ⟨j, rfl⟩ : ∃ i, j = 1 + i := ⟨j - 1, by omega⟩
  rw [← List.getElem?_drop, ← List.getElem?_drop, this]

/-- C30: wrong sizes of the nonce or of the randomness are rejected. -/
theorem C30_wrong_sizes {X : Xof} (P : Prio3 X F Meas Agg) (ctx : Bytes) (m : Meas)
    (nonce rand : Bytes) (h : nonce.length ≠ 16 ∨ rand.length ≠ P.randSize) :
    ∃ s, P.shard ctx m nonce rand = .error (.value s) := by
  unfold Prio3.shard
  by_cases hn : nonce.length = 16
  · rw [raiseIf_of_not (by simpa [Prio3.NONCE_SIZE] using hn)]
    simp only [Except.ok_bind']
    rw [raiseIf_of (by rcases h with h | h; exact absurd hn h; exact h)]
    exact ⟨_, rfl⟩
  · rw [raiseIf_of (by simpa [Prio3.NONCE_SIZE] using hn)]
    exact ⟨_, rfl⟩

example : (do
    let P ← Prio3Count toyPrims 40 3
    let (_, a) ← P.shard [1] 1 (List.replicate 16 3) (List.replicate 96 7)
    let (_, b) ← P.shard [1] 0 (List.replicate 16 3) (List.replicate 96 7)
    return decide (a.length = 3 ∧ a[0]? ≠ b[0]? ∧ a[1]? = b[1]? ∧ a[2]? = b[2]?)) = .ok true := by
  decide +kernel

/-! ## C50 -/

/-- C50: what the functions of Prio3 hash for each of the seven purposes; the right-hand sides
(`Verif/Spec/Prio3.lean`) call the XOF with explicit seeds, tags and binders. -/
theorem C50_derivations {P : Prio3 (XofTurboShake128 prims fuel) F Meas Agg} {fn : Spec.Fun Meas Agg}
    (I : Spec.Instance P fn) (ctx : Bytes) :
    (∀ j < P.shares, ∀ seed v, P.helperMeasShare ctx j seed = .ok v ↔
      Spec.measShare P ctx j seed = .ok v) ∧
    (∀ j < P.shares, ∀ seed v, P.helperProofsShare ctx j seed = .ok v ↔
      Spec.proofsShare P ctx j seed = .ok v) ∧
    (∀ seed v, P.jointRands ctx seed = .ok v ↔ Spec.jointRands P ctx seed = .ok v) ∧
    (∀ seed v, P.proveRands ctx seed = .ok v ↔ Spec.proveRands P ctx seed = .ok v) ∧
    (∀ verifyKey nonce v, P.queryRands verifyKey ctx nonce = .ok v ↔
      Spec.queryRands P verifyKey ctx nonce = .ok v) ∧
    (∀ parts v, P.jointRandSeed ctx parts = .ok v ↔ Spec.jointRandSeed P ctx parts = .ok v) ∧
    (∀ j < P.shares, ∀ blind ms nonce v, P.jointRandPart ctx j blind ms nonce = .ok v ↔
      Spec.jointRandPart P ctx j blind ms nonce = .ok v) := by
  have W := I.wf
  have hs := W.shares_lt
  refine ⟨fun j hj seed v => ?_, fun j hj seed v => ?_, fun seed v => ?_, fun seed v => ?_,
    fun vk nonce v => ?_, fun parts v => ?_, fun j hj b ms nonce v => ?_⟩
  · rw [Prio3.measShare_ok]; simp only [W.id, show j < 256 by omega, true_and]
  · rw [Prio3.proofsShare_ok]; simp only [W.id, W.proofs, show j < 256 by omega, true_and]
  · rw [Prio3.jointRands_ok]; simp only [W.id, W.proofs, true_and]
  · rw [Prio3.proveRands_ok]; simp only [W.id, W.proofs, true_and]
  · rw [Prio3.queryRands_ok]; simp only [W.id, W.proofs, true_and]
  · rw [Prio3.jointRandSeed_ok]; simp only [W.id, true_and]
  · rw [Prio3.jointRandPart_ok]; simp only [W.id, show j < 256 by omega, true_and]

/-- C50: the tag determines algorithm, purpose and application context. -/
theorem C50_tag_injective {id id' usage usage' : ℕ} {ctx ctx' : Bytes} (h1 : id < 2 ^ 32)
    (h2 : id' < 2 ^ 32) (h3 : usage < 2 ^ 16) (h4 : usage' < 2 ^ 16)
    (h : Spec.tag id usage ctx = Spec.tag id' usage' ctx') :
    id = id' ∧ usage = usage' ∧ ctx = ctx' := by
  have a := (Prio3.tag_ok_iff (ctx := ctx)).2 ⟨h1, h3, rfl⟩
  have b := (Prio3.tag_ok_iff (ctx := ctx')).2 ⟨h2, h4, rfl⟩
  unfold domainSeparationTag at a b
  obtain ⟨t, e1, e2⟩ := Except.bind_eq_ok.1 a
  obtain ⟨t', e3, e4⟩ := Except.bind_eq_ok.1 b
  exact (formatDst_inj e1 e3 ((Except.ok.inj e2).trans (h.trans (Except.ok.inj e4).symm))).2

/-- C50: the binder of a joint randomness part determines the Aggregator, the nonce and the
measurement share. -/
theorem C50_part_binder_injective {j j' : ℕ} {nonce nonce' e e' : Bytes} {ms ms' : List F}
    (hj : j < 256) (hj' : j' < 256) (hn : nonce.length = 16) (hn' : nonce'.length = 16)
    (he : encodeVec ms = .ok e) (he' : encodeVec ms' = .ok e')
    (h : UInt8.ofNat j :: (nonce ++ e) = UInt8.ofNat j' :: (nonce' ++ e')) :
    j = j' ∧ nonce = nonce' ∧ ms = ms' := by
  rw [List.cons.injEq] at h
  obtain ⟨h1, h2⟩ := h
  obtain ⟨h3, h4⟩ := List.append_inj h2 (by rw [hn, hn'])
  refine ⟨?_, h3, ?_⟩
  · have := congrArg UInt8.toNat h1
    simpa [Nat.mod_eq_of_lt hj, Nat.mod_eq_of_lt hj'] using this
  · rw [encodeVec_eq] at he he'
    cases he; cases he'
    exact encAll_inj h4

/-- C50: the binder of the joint randomness seed determines all the parts. -/
theorem C50_seed_binder_injective {n k : ℕ} {parts parts' : List Bytes} (hl : parts.length = n)
    (hl' : parts'.length = n) (hp : ∀ p ∈ parts, p.length = k) (hp' : ∀ p ∈ parts', p.length = k)
    (h : parts.flatten = parts'.flatten) : parts = parts' := by
  induction parts generalizing parts' n with
  | nil => simp at hl; subst hl; exact (List.length_eq_zero_iff.1 hl').symm
  | cons p parts ih =>
    cases parts' with
    | nil => simp at hl hl'; omega
    | cons p' parts' =>
      simp only [List.flatten_cons] at h
      obtain ⟨h1, h2⟩ := List.append_inj h (by
        rw [hp p (by simp), hp' p' (by simp)])
      simp at hl hl'
      rw [h1, ih (n := n - 1) (by omega) (by omega) (fun q hq => hp q (by simp [hq]))
        (fun q hq => hp' q (by simp [hq])) h2]

example : Spec.tag 3 7 [9] = [18, 0, 0, 0, 0, 3, 0, 7, 9] := by decide
example : Spec.Instance (prims := toyPrims) (fuel := 40) (F := Field64) ⟨1, 2, 1, Count Field64, 5⟩
    Spec.countFun := (instance_count (shares := 2) rfl).1

/-! ## C49 -/

section
variable {AggParam PubShare InShare OutShare AggShare AggRes VState VShare VMsg : Type}

/-- C49: `run_vdaf` returns `R` exactly if processing every report separately, letting each Aggregator
aggregate its own output shares in order, and unsharding returns `R`. -/
theorem C49_run_vdaf
    (V : VdafImpl Meas AggParam PubShare InShare OutShare AggShare AggRes VState VShare VMsg)
    (verifyKey : Bytes) (p : AggParam) (ctx : Bytes) (reports : List (Meas × Bytes × Bytes))
    (R : AggRes) : runVdaf V verifyKey p ctx reports = .ok R ↔
      verifyKey.length = V.verifyKeySize ∧ Spec.separately V verifyKey p ctx reports = .ok R :=
  runVdaf_iff V

/-- C49 for `run_daf`. -/
theorem C49_run_daf
    (D : DafImpl Meas AggParam PubShare InShare OutShare AggShare AggRes)
    (p : AggParam) (ctx : Bytes) (reports : List (Meas × Bytes × Bytes)) (R : AggRes) :
    runDaf D ctx p reports = .ok R ↔ Spec.dafSeparately D ctx p reports = .ok R :=
  runDaf_iff D

/-- C49: with no measurements, the result is `unshard` of `SHARES` empty aggregate shares. -/
theorem C49_empty_batch
    (V : VdafImpl Meas AggParam PubShare InShare OutShare AggShare AggRes VState VShare VMsg)
    (D : DafImpl Meas AggParam PubShare InShare OutShare AggShare AggRes)
    (verifyKey : Bytes) (p : AggParam) (ctx : Bytes) (a : AggShare) :
    (verifyKey.length = V.verifyKeySize → V.aggInit p = .ok a →
      runVdaf V verifyKey p ctx [] = V.unshard p (List.replicate V.shares a) 0) ∧
    (D.aggInit p = .ok a →
      runDaf D ctx p [] = D.unshard p (List.replicate D.shares a) 0) := by
  constructor
  · intro hk ha
    unfold runVdaf
    rw [raiseIf_of_not (by simpa using hk), mapRes_pure _ (fun _ => a) _ (fun _ _ => ha)]
    simp only [Except.ok_bind', forFold_nil, List.length_nil, List.map_const', List.length_range]
  · intro ha
    unfold runDaf
    rw [mapRes_pure _ (fun _ => a) _ (fun _ _ => ha)]
    simp only [Except.ok_bind', forFold_nil, List.length_nil, List.map_const', List.length_range]

/-- C49: a verification key of the wrong size is rejected. -/
theorem C49_wrong_key_size
    (V : VdafImpl Meas AggParam PubShare InShare OutShare AggShare AggRes VState VShare VMsg)
    (verifyKey : Bytes) (p : AggParam) (ctx : Bytes) (reports : List (Meas × Bytes × Bytes))
    (h : verifyKey.length ≠ V.verifyKeySize) : runVdaf V verifyKey p ctx reports =
      .error (.value "incorrect verify_key size") := by
  unfold runVdaf
  rw [raiseIf_of h]
  rfl

end

-- a DAF in which every Aggregator's output share differs
example : runDaf (⟨2, 0, 0, fun _ m _ _ => .ok ((), [m, 10 * m]), fun _ j _ _ _ x => .ok (x + j),
    fun _ => .ok 0, fun _ a o => .ok (2 * a + o), fun _ as n => .ok (as, n)⟩ :
      DafImpl ℕ Unit Unit ℕ ℕ ℕ (List ℕ × ℕ)) [] () [(1, [], []), (2, [], []), (5, [], [])] =
    .ok ([13, 137], 3) := by decide +kernel

end Vdaf
