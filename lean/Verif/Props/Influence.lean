import Verif.Spec.Influence
import Verif.Proofs.Influence
import Verif.Props.RobustAggregate

/-!
# Property C97: the influence of dishonest Clients on the result of Prio3 is bounded

Specification vocabulary (`Verif/Spec/Influence.lean`, `Verif/Props/RobustAggregate.lean`):

* `Spec.Origin P T ctx report origin`: the report is from an honest Client with the measurement `origin`, or
  (`none`) from somebody else, and then the sum of the measurement shares stands for some valid measurement - whoever
  made it, an accepted report does, except with the probability of C84;
* `Spec.honestMeasurements origins`, `Spec.strangers origins`: the measurements of the honest Clients, and the number
  of the other reports;
* `Spec.Within x honest slack`: `honest ≤ x ≤ honest + slack`;
* `aggregateReports P verify_key ctx reports`: verification and aggregation of the reports, and `unshard`.
-/

namespace Vdaf
open Spec

variable {F : Type} [NttField F] {prims : Prims} {fuel : ℕ}

/-- The batch is accepted, and this is where the reports are from. -/
structure Spec.MixedBatch {Meas Agg : Type} (P : Prio3 (XofTurboShake128 prims fuel) F Meas Agg) (fn : Spec.Fun Meas Agg)
    (verifyKey ctx : Bytes) (reports : List (Spec.Report F)) (origins : List (Option Meas)) : Prop where
  inst : Spec.Instance P fn
  proofs : 0 < P.proofs
  hctx : ctx.length + 8 < 2 ^ 16
  accepted : ∀ r ∈ reports, accepts P verifyKey ctx r = true
  horigins : List.Forall₂ (Spec.Origin P (fn.task F) ctx) reports origins

theorem Spec.MixedBatch.result {Meas Agg : Type} {P : Prio3 (XofTurboShake128 prims fuel) F Meas Agg}
    {fn : Spec.Fun Meas Agg} {verifyKey ctx : Bytes} {reports : List (Spec.Report F)} {origins : List (Option Meas)}
    (h : Spec.MixedBatch P fn verifyKey ctx reports origins) :
    ∃ ms : List Meas, Completes fn.valid origins ms ∧ ms.length = reports.length ∧ origins.length = reports.length ∧
      ((∀ n ∈ fn.totals (fn.agg ms), n < PyField.modulus F) →
        aggregateReports P verifyKey ctx reports = .ok (fn.agg ms)) := by
  obtain ⟨ms, h1, h2⟩ := C84_mixed_batch h.inst.custom h.proofs h.hctx h.accepted h.horigins
  exact ⟨ms, h1, by rw [← h1.length_eq, ← h.horigins.length_eq], h.horigins.length_eq.symm, h2⟩

variable {verifyKey ctx : Bytes} {reports : List (Spec.Report F)}

/-- C97 for `Count`: every report of a dishonest Client adds at most one. -/
theorem C97_count {P : Prio3 (XofTurboShake128 prims fuel) F Int ℕ} {origins : List (Option Int)}
    (h : Spec.MixedBatch P Spec.countFun verifyKey ctx reports origins) (hsize : reports.length < PyField.modulus F) :
    ∃ R, aggregateReports P verifyKey ctx reports = .ok R ∧
      Within R ((honestMeasurements origins).map Int.toNat).sum (strangers origins) := by
  obtain ⟨ms, h1, -, h2, h3⟩ := h.result
  have hB : ∀ m, Spec.countFun.valid m → Int.toNat m ≤ 1 := by rintro m (rfl | rfl) <;> decide
  have hb := h1.bounds hB
  have hle := h1.le hB
  rw [mul_one] at hb hle
  refine ⟨_, h3 ?_, hb⟩
  intro n hn
  rw [List.mem_singleton.1 (show n ∈ [(ms.map Int.toNat).sum] from hn)]
  omega

/-- C97 for `Sum`: every report of a dishonest Client adds at most `max_measurement`. -/
theorem C97_sum {max : ℕ} {P : Prio3 (XofTurboShake128 prims fuel) F Int ℕ} {origins : List (Option Int)}
    (h : Spec.MixedBatch P (Spec.sumFun max) verifyKey ctx reports origins)
    (hsize : reports.length * max < PyField.modulus F) :
    ∃ R, aggregateReports P verifyKey ctx reports = .ok R ∧
      Within R ((honestMeasurements origins).map Int.toNat).sum (strangers origins * max) := by
  obtain ⟨ms, h1, -, h2, h3⟩ := h.result
  have hB : ∀ m, (Spec.sumFun max).valid m → Int.toNat m ≤ max := by
    rintro m ⟨h0, hm⟩
    omega
  have hle := h1.le hB
  rw [h2] at hle
  refine ⟨_, h3 ?_, h1.bounds hB⟩
  intro n hn
  rw [List.mem_singleton.1 (show n ∈ [(ms.map Int.toNat).sum] from hn)]
  omega

/-- C97 for `SumVec` (with one or more proofs): every report of a dishonest Client adds at most `max_measurement` to
each coordinate. -/
theorem C97_sumvec {length max : ℕ} {P : Prio3 (XofTurboShake128 prims fuel) F (List Int) (List ℕ)}
    {origins : List (Option (List Int))}
    (h : Spec.MixedBatch P (Spec.sumVecFun length max) verifyKey ctx reports origins)
    (hsize : reports.length * max < PyField.modulus F) :
    ∃ R, aggregateReports P verifyKey ctx reports = .ok R ∧ R.length = length ∧ ∀ j < length, ∃ x, R[j]? = some x ∧
      Within x ((honestMeasurements origins).map fun m => (m.getD j 0).toNat).sum (strangers origins * max) := by
  obtain ⟨ms, h1, -, h2, h3⟩ := h.result
  have hB : ∀ j m, (Spec.sumVecFun length max).valid m → (m.getD j 0).toNat ≤ max := by
    rintro j m ⟨-, hm⟩
    rw [List.getD_eq_getElem?_getD]
    cases hx : m[j]? with
    | none => simp
    | some x =>
      have := hm x (List.mem_of_getElem? hx)
      simp only [Option.getD_some]
      omega
  refine ⟨_, h3 ?_, by simp [Spec.sumVecFun], fun j hj => ⟨_, ?_, h1.bounds (hB j)⟩⟩
  · intro n hn
    obtain ⟨j, -, rfl⟩ := List.mem_map.1 hn
    have hle := h1.le (hB j)
    rw [h2] at hle
    omega
  · simp [Spec.sumVecFun, hj]

/-- C97 for `Histogram`: every report of a dishonest Client adds at most one to each bucket, and the buckets together
contain as many entries as there are reports. -/
theorem C97_histogram {length : ℕ} {P : Prio3 (XofTurboShake128 prims fuel) F Int (List ℕ)}
    {origins : List (Option Int)}
    (h : Spec.MixedBatch P (Spec.histogramFun length) verifyKey ctx reports origins)
    (hsize : reports.length < PyField.modulus F) :
    ∃ R, aggregateReports P verifyKey ctx reports = .ok R ∧ R.length = length ∧ R.sum = reports.length ∧
      ∀ j < length, ∃ x, R[j]? = some x ∧
        Within x ((honestMeasurements origins).countP fun m => decide (m = (j : Int))) (strangers origins) := by
  obtain ⟨ms, h1, h0, h2, h3⟩ := h.result
  refine ⟨_, h3 ?_, by simp [Spec.histogramFun], ?_, fun j hj => ⟨ms.countP fun m => decide (m = (j : Int)), ?_, ?_⟩⟩
  · intro n hn
    obtain ⟨j, -, rfl⟩ := List.mem_map.1 hn
    have : ms.countP (fun m => decide (m = (j : Int))) ≤ ms.length := List.countP_le_length
    show ms.countP (fun m => decide (m = (j : Int))) < _
    omega
  · show ((List.range length).map fun (j : ℕ) => ms.countP fun m => decide (m = (j : Int))).sum = _
    simp only [countP_eq_sum]
    rw [sum_swap (List.range length) fun j m => if decide (m = (j : Int)) then 1 else 0, ← h0]
    have hv := h1.valid_all
    clear h1 h3 h0
    induction ms with
    | nil => rfl
    | cons m ms ih =>
      have hm := hv m (by simp)
      rw [List.map_cons, List.sum_cons, sum_indicator length hm.1 hm.2, ih fun m hm => hv m (by simp [hm]),
        List.length_cons, add_comm]
  · simp [Spec.histogramFun, hj]
  · have := h1.bounds (f := fun m => if decide (m = (j : Int)) then 1 else 0) (B := 1) (by intros; split <;> omega)
    rw [mul_one] at this
    rw [Within, countP_eq_sum, countP_eq_sum]
    exact this

/-- C97 for `MultihotCountVec`: every report of a dishonest Client adds at most one to each entry, and at most
`max_weight` to all of them together. -/
theorem C97_multihot {length mw : ℕ} {P : Prio3 (XofTurboShake128 prims fuel) F (List Bool) (List ℕ)}
    {origins : List (Option (List Bool))}
    (h : Spec.MixedBatch P (Spec.multihotFun length mw) verifyKey ctx reports origins)
    (hsize : reports.length < PyField.modulus F) :
    ∃ R, aggregateReports P verifyKey ctx reports = .ok R ∧ R.length = length ∧
      Within R.sum ((honestMeasurements origins).map fun m => m.count true).sum (strangers origins * mw) ∧
      ∀ j < length, ∃ x, R[j]? = some x ∧
        Within x ((honestMeasurements origins).countP fun m => m.getD j false) (strangers origins) := by
  obtain ⟨ms, h1, h0, h2, h3⟩ := h.result
  refine ⟨_, h3 ?_, by simp [Spec.multihotFun], ?_, fun j hj => ⟨ms.countP fun m => m.getD j false, ?_, ?_⟩⟩
  · intro n hn
    obtain ⟨j, -, rfl⟩ := List.mem_map.1 hn
    have : ms.countP (fun m => m.getD j false) ≤ ms.length := List.countP_le_length
    show ms.countP (fun m => m.getD j false) < _
    omega
  · have hs : ((Spec.multihotFun length mw).agg ms).sum = (ms.map fun m => m.count true).sum := by
      show ((List.range length).map fun j => ms.countP fun m => m.getD j false).sum = _
      simp only [countP_eq_sum]
      rw [sum_swap (List.range length) fun j (m : List Bool) => if m.getD j false then 1 else 0]
      congr 1
      refine List.map_congr_left fun m hm => ?_
      rw [← (h1.valid_all m hm).1, influence_sum_bits]
    rw [hs]
    exact h1.bounds fun m hm => hm.2
  · simp [Spec.multihotFun, hj]
  · have := h1.bounds (f := fun m => if m.getD j false then 1 else 0) (B := 1) (by intros; split <;> omega)
    rw [mul_one] at this
    rw [Within, countP_eq_sum, countP_eq_sum]
    exact this

-- an honest report and one of unknown origin meet the hypotheses
set_option maxRecDepth 4000 in
example : Spec.MixedBatch privacyExample (Spec.histogramFun 2) (List.replicate 32 1) [1]
      [gameReport false, gameReport false] [some 0, none] ∧
    (aggregateReports privacyExample (List.replicate 32 1) [1] [gameReport false, gameReport false]).toOption =
      some [2, 0] := by
  have hs : privacyExample.shard [1] 0 (gameReport false).nonce (List.replicate 192 7) =
      .ok ((gameReport false).publicShare, (gameReport false).inputShares) := by decide +kernel
  have hn : (gameReport false).nonce.length = 16 := by decide +kernel
  have ha : accepts privacyExample (List.replicate 32 1) [1] (gameReport false) = true := by decide +kernel
  have hv : ((Spec.histogramFun 2).task Field128).valid 0 := by
    show (0 : Int) ≤ 0 ∧ (0 : Int) < ((2 : ℕ) : Int)
    decide
  refine ⟨⟨privacyExample_instance, by decide, by decide, fun r hr => by
      rcases List.mem_cons.1 hr with rfl | hr
      · exact ha
      · rw [List.mem_singleton.1 hr]; exact ha,
    .cons ⟨hv, hn, List.replicate 192 7, by decide, hs⟩ (.cons ⟨0, hv, ?_⟩ .nil)⟩, by decide +kernel⟩
  exact Prio3.honest_standsFor privacyExample_instance.custom.wf privacyExample_instance.custom.computes (by decide) hv hn
    (by decide) hs

end Vdaf
