import Verif.Proofs.RobustAggregate
import Verif.Props.PingPongRobust

/-!
# Property C84: whoever made the reports, the aggregate result of Prio3 is the aggregate of valid measurements

C75 is about two Aggregators that talk over the network.  This is about any number of Aggregators, and about batches in which
some of the reports are those of honest Clients: these contribute their measurements, and each of the others contributes one
valid measurement.
-/

namespace Vdaf
open Spec
section
variable {F : Type} [NttField F] {Meas Agg : Type} {prims : Prims} {fuel : ℕ}

/-- Where a report is from: an honest Client with this measurement, or somebody else, and then the sum of the measurement
shares stands for some valid measurement. -/
def Spec.Origin (P : Prio3 (XofTurboShake128 prims fuel) F Meas Agg) (T : Spec.Task Meas Agg) (ctx : Bytes)
    (r : Spec.Report F) : Option Meas → Prop
  | some m => T.valid m ∧ r.nonce.length = 16 ∧ ∃ rand : Bytes, rand.length = P.randSize ∧
      P.shard ctx m r.nonce rand = .ok (r.publicShare, r.inputShares)
  | none => ∃ m, T.valid m ∧ ReportStandsFor P ctx r m

/-- C84: the reports of honest Clients contribute their measurements, the others contribute one valid measurement each, and
the result is the aggregate of these measurements. -/
theorem C84_mixed_batch {P : Prio3 (XofTurboShake128 prims fuel) F Meas Agg} {T : Spec.Task Meas Agg}
    (I : Spec.CustomInstance P T) (hp : 0 < P.proofs) {verifyKey ctx : Bytes} (hctx : ctx.length + 8 < 2 ^ 16)
    {reports : List (Spec.Report F)} (hacc : ∀ r ∈ reports, accepts P verifyKey ctx r = true) {origins : List (Option Meas)}
    (ho : List.Forall₂ (Spec.Origin P T ctx) reports origins) :
    ∃ ms : List Meas, List.Forall₂ (fun origin m => T.valid m ∧ ∀ m', origin = some m' → m = m') origins ms ∧
      (T.supported ms → aggregateReports P verifyKey ctx reports = .ok (T.agg ms)) := by
  have h : ∃ ms : List Meas, List.Forall₂ (fun origin m => T.valid m ∧ ∀ m', origin = some m' → m = m') origins ms ∧
      List.Forall₂ (fun r m => T.valid m ∧ ReportStandsFor P ctx r m) reports ms := by
    clear hacc
    induction ho with
    | nil => exact ⟨[], .nil, .nil⟩
    | @cons r o rs os h _ ih =>
      obtain ⟨ms, h1, h2⟩ := ih
      cases o with
      | none =>
        obtain ⟨m, k1, k2⟩ := h
        exact ⟨m :: ms, .cons ⟨k1, by simp⟩ h1, .cons ⟨k1, k2⟩ h2⟩
      | some m =>
        obtain ⟨k1, k2, rand, k3, k4⟩ := h
        exact ⟨m :: ms, .cons ⟨k1, fun m' h => Option.some.inj h⟩ h1,
          .cons ⟨k1, Prio3.honest_standsFor I.wf I.computes hctx k1 k2 k3 k4⟩ h2⟩
  obtain ⟨ms, h1, h2⟩ := h
  exact ⟨ms, h1, Prio3.aggregate_accepted I.wf hp I.computes hacc h2⟩

/-- C84 in the random oracle model: after `q` moves of a dishonest Client, the result of the accepted reports is not the
aggregate of valid measurements with at most the probability of C68. -/
theorem C84_custom {P : Prio3 (XofTurboShake128 prims fuel) F Meas Agg} {T : Spec.Task Meas Agg}
    (I : Spec.CustomInstance P T) (hp : 0 < P.proofs) (hg : P.flp.gadgets ≠ []) {ctx : Bytes}
    (hctx : ctx.length + 8 < 2 ^ 16) {S : Set Bytes} (hfin : S.Finite)
    (hS : ∀ verifyKey : Bytes, verifyKey.length = 32 → oracleInputs P verifyKey ctx ⊆ S) {N : ℕ}
    (hN : fuel * PyField.encSize F ≤ N) (hN' : 32 ≤ N) {valid : List F → Prop} {ε : ℚ} (h0 : 0 ≤ ε)
    (hε : ∀ meas : List F, meas.length = P.flp.measLen → ¬ valid meas →
      (Set.ncard {jr : Fin P.flp.jointRandLen → F | Spec.Accepts P.flp meas (List.ofFn jr)} : ℚ) ≤
        ε * (PyField.modulus F : ℚ) ^ P.flp.jointRandLen)
    (hval : ∀ meas, meas.length = P.flp.measLen → valid meas →
      ∃ m e, T.valid m ∧ P.flp.encode m = .ok e ∧ P.flp.truncate e = P.flp.truncate meas)
    (σ : OracleStrategy) (q : ℕ) :
    corruptProbability P T ctx σ q S N ≤ q * (ε + paddedSoundness P.flp) ^ P.proofs + luckBound P q + q / 2 ^ 256 :=
  (Prio3.corrupt_le I hp hval σ q hfin N).trans (C68_robustness_custom I hp hg hctx hfin hS hN hN' h0 hε σ q)

/-- C84 for `Count` -/
theorem C84_count {P : Prio3 (XofTurboShake128 prims fuel) F Int ℕ} (I : Spec.Instance P Spec.countFun)
    (hV : P.flp = Count F) (hp : 0 < P.proofs) {ctx : Bytes}
    (hctx : ctx.length + 8 < 2 ^ 16) {S : Set Bytes} (hfin : S.Finite)
    (hS : ∀ verifyKey : Bytes, verifyKey.length = 32 → oracleInputs P verifyKey ctx ⊆ S) {N : ℕ}
    (hN : fuel * PyField.encSize F ≤ N) (hN' : 32 ≤ N) (σ : OracleStrategy) (q : ℕ) :
    corruptProbability P (Spec.countFun.task F) ctx σ q S N ≤ q * paddedSoundness P.flp ^ P.proofs + q / 2 ^ 256 :=
  (Prio3.corrupt_le I.custom hp (by rintro meas - ⟨m, h1, h2⟩; exact ⟨m, meas, h1, h2, rfl⟩) σ q hfin N).trans
    (C68_count I hV hp hctx hfin hS hN hN' σ q)

/-- C84 for `Sum` -/
theorem C84_sum {max : ℕ} {P : Prio3 (XofTurboShake128 prims fuel) F Int ℕ} (I : Spec.Instance P (Spec.sumFun max))
    (hmax : 0 < max) (hV : Sum F max = .ok P.flp) (hp : 0 < P.proofs) {ctx : Bytes}
    (hctx : ctx.length + 8 < 2 ^ 16) {S : Set Bytes} (hfin : S.Finite)
    (hS : ∀ verifyKey : Bytes, verifyKey.length = 32 → oracleInputs P verifyKey ctx ⊆ S) {N : ℕ}
    (hN : fuel * PyField.encSize F ≤ N) (hN' : 32 ≤ N) (σ : OracleStrategy) (q : ℕ) :
    corruptProbability P ((Spec.sumFun max).task F) ctx σ q S N ≤ q * paddedSoundness P.flp ^ P.proofs + q / 2 ^ 256 := by
  refine (Prio3.corrupt_le I.custom hp (valid := Spec.Bits) ?_ σ q hfin N).trans
    (C68_sum I hmax hV hp hctx hfin hS hN hN' σ q)
  intro meas hm hb
  obtain ⟨y, h1, h2⟩ := (C15_sum_rejects hmax hV I.fits meas hm).2 hb
  have hv : (Spec.sumFun max).valid (PyField.toNat y : Int) := ⟨by positivity, by exact_mod_cast h2⟩
  obtain ⟨e, h3, h4⟩ := truncate_single (Library.encFacts I.library) hv (o := [y]) (by simp [Spec.sumFun])
  exact ⟨_, e, hv, h3, by rw [h4, h1]⟩

/-- C84 for `SumVec` -/
theorem C84_sumvec {length max cl : ℕ} {P : Prio3 (XofTurboShake128 prims fuel) F (List Int) (List ℕ)}
    (I : Spec.Instance P (Spec.sumVecFun length max)) (hV : SumVec F length max cl = .ok P.flp) (hp : 0 < P.proofs)
    {ctx : Bytes} (hctx : ctx.length + 8 < 2 ^ 16) {S : Set Bytes} (hfin : S.Finite)
    (hS : ∀ verifyKey : Bytes, verifyKey.length = 32 → oracleInputs P verifyKey ctx ⊆ S) {N : ℕ}
    (hN : fuel * PyField.encSize F ≤ N) (hN' : 32 ≤ N) (σ : OracleStrategy) (q : ℕ) :
    corruptProbability P ((Spec.sumVecFun length max).task F) ctx σ q S N ≤
      q * ((cl : ℚ) / (PyField.modulus F : ℚ) + paddedSoundness P.flp) ^ P.proofs + luckBound P q + q / 2 ^ 256 := by
  have hb := (C68_sumvec I hV hp hctx hfin hS hN hN' σ 0 q).1
  simp only [zero_add] at hb
  refine (Prio3.corrupt_le I.custom hp (valid := Spec.Bits) ?_ σ q hfin N).trans (hb.trans (le_of_eq (by simp [robustness])))
  intro meas hm hb
  obtain ⟨o, h1, h2, h3⟩ := (C15_sumvec_rejects hV I.fits meas hm).2 hb
  have hv : (Spec.sumVecFun length max).valid (o.map fun y => (PyField.toNat y : Int)) := by
    refine ⟨by simpa using h2, fun x hx => ?_⟩
    obtain ⟨y, hy, rfl⟩ := List.mem_map.1 hx
    exact ⟨by positivity, by exact_mod_cast h3 y hy⟩
  obtain ⟨e, h4, h5⟩ := truncate_single (Library.encFacts I.library) hv (o := o) (by
    show (List.range length).map _ = _
    apply List.ext_getElem (by simpa using h2.symm)
    intro i hi hi'
    have hi : i < o.length := by simpa using hi'
    simp [hi])
  exact ⟨_, e, hv, h4, by rw [h5, h1]⟩

/-- C84 for `Histogram` -/
theorem C84_histogram {length cl : ℕ} {P : Prio3 (XofTurboShake128 prims fuel) F Int (List ℕ)}
    (I : Spec.Instance P (Spec.histogramFun length)) (hV : Histogram F length cl = .ok P.flp)
    (hlen : length < PyField.modulus F) (hp : 0 < P.proofs) {ctx : Bytes}
    (hctx : ctx.length + 8 < 2 ^ 16) {S : Set Bytes} (hfin : S.Finite)
    (hS : ∀ verifyKey : Bytes, verifyKey.length = 32 → oracleInputs P verifyKey ctx ⊆ S) {N : ℕ}
    (hN : fuel * PyField.encSize F ≤ N) (hN' : 32 ≤ N) (σ : OracleStrategy) (q : ℕ) :
    corruptProbability P ((Spec.histogramFun length).task F) ctx σ q S N ≤
      q * ((cl : ℚ) / (PyField.modulus F : ℚ) + paddedSoundness P.flp) ^ P.proofs + luckBound P q + q / 2 ^ 256 :=
  (Prio3.corrupt_le I.custom hp (by rintro meas - ⟨m, h1, h2⟩; exact ⟨m, meas, h1, h2, rfl⟩) σ q hfin N).trans
    (C68_histogram I hV hlen hp hctx hfin hS hN hN' σ q)

/-- C84 for `MultihotCountVec` -/
theorem C84_multihot {length mw cl : ℕ} {P : Prio3 (XofTurboShake128 prims fuel) F (List Bool) (List ℕ)}
    (I : Spec.Instance P (Spec.multihotFun length mw)) (hV : MultihotCountVec F length mw cl = .ok P.flp) (hp : 0 < P.proofs)
    {ctx : Bytes} (hctx : ctx.length + 8 < 2 ^ 16) {S : Set Bytes} (hfin : S.Finite)
    (hS : ∀ verifyKey : Bytes, verifyKey.length = 32 → oracleInputs P verifyKey ctx ⊆ S) {N : ℕ}
    (hN : fuel * PyField.encSize F ≤ N) (hN' : 32 ≤ N) (σ : OracleStrategy) (q : ℕ) :
    corruptProbability P ((Spec.multihotFun length mw).task F) ctx σ q S N ≤
      q * ((cl : ℚ) / (PyField.modulus F : ℚ) + paddedSoundness P.flp) ^ P.proofs + luckBound P q + q / 2 ^ 256 := by
  refine (Prio3.corrupt_le I.custom hp ?_ σ q hfin N).trans (C68_multihot I hV hp hctx hfin hS hN hN' σ q)
  rintro meas - ⟨-, m, hv, h1, -⟩
  obtain ⟨e, h3, h4⟩ := truncate_single (Library.encFacts I.library) hv (o := m.map fun b => if b then 1 else 0) (by
    show (List.range length).map _ = _
    apply List.ext_getElem (by simpa using hv.1.symm)
    intro i hi hi'
    have hi : i < m.length := by simpa using hi'
    cases hb : m[i] <;> simp [hi, hb, toNat_zero, toNat_one])
  exact ⟨m, e, hv, h3, by rw [h4, h1]⟩

end

/-! Non-vacuity: three Aggregators and joint randomness.  In the run of `oracleClient` one report is accepted, and the
result is computed. -/

set_option maxRecDepth 4000 in
example : accepts privacyExample (List.replicate 32 1) [1] (gameReport false) = true := by decide +kernel

set_option maxRecDepth 4000 in
example : (match mapRes (decodeReport privacyExample)
      (acceptedReports (oracleRun privacyExample (List.replicate 32 1) [1] oracleClient 4)) with
    | .ok rs => (aggregateReports privacyExample (List.replicate 32 1) [1] rs).toOption
    | .error _ => none) = some [1, 0] := by decide +kernel

-- an honest report and one of unknown origin; the hypotheses of `C84_mixed_batch` hold, and the result is computed
set_option maxRecDepth 4000 in
example : List.Forall₂ (Spec.Origin privacyExample ((Spec.histogramFun 2).task Field128) [1])
      [gameReport false, gameReport false] [some 0, none] ∧
    (aggregateReports privacyExample (List.replicate 32 1) [1] [gameReport false, gameReport false]).toOption =
      some ((Spec.histogramFun 2).agg [0, 0]) := by
  have hs : privacyExample.shard [1] 0 (gameReport false).nonce (List.replicate 192 7) =
      .ok ((gameReport false).publicShare, (gameReport false).inputShares) := by decide +kernel
  have hn : (gameReport false).nonce.length = 16 := by decide +kernel
  have hv : ((Spec.histogramFun 2).task Field128).valid 0 := by
    show (0 : Int) ≤ 0 ∧ (0 : Int) < ((2 : ℕ) : Int)
    decide
  refine ⟨.cons ⟨hv, hn, List.replicate 192 7, by decide, hs⟩ (.cons ⟨0, hv, ?_⟩ .nil), by decide +kernel⟩
  exact Prio3.honest_standsFor privacyExample_instance.custom.wf privacyExample_instance.custom.computes (by decide) hv hn
    (by decide) hs

end Vdaf
