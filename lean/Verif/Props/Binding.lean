import Verif.Proofs.BindingPoplar
import Verif.Props.Privacy
import Verif.Props.Poplar1Game

/-!
# Property C76: reports are bound to the application context and to the nonce

A Client makes a report for one application context and one nonce, and somebody presents it to honest Aggregators for
another application context, or with another nonce.  TurboSHAKE128 is random at the inputs in a finite set `S`; elsewhere it
is an arbitrary fixed function.  AES is an arbitrary fixed function.  The random bytes of the Client and the verification key
are arbitrary.  The Aggregators accept the report with the following probabilities:
- for circuits with joint randomness, at most `2 / 2 ^ 256`;
- for all circuits, if the application contexts differ, at most `(1 / modulus) ^ proofs`;
- for Poplar1, at most `1 / modulus`, where the modulus is that of the field of the level.

For circuits without joint randomness, reports are not bound to the nonce (`C76_nonce_unbound`).
-/

namespace Vdaf
open Spec
section
variable {F : Type} [NttField F] {Meas Agg : Type} {prims : Prims} {fuel : ℕ}

/-- C76 for Prio3 with a circuit that uses joint randomness: another application context or another nonce -/
theorem C76_joint {P : Prio3 (XofTurboShake128 prims fuel) F Meas Agg} {T : Spec.Task Meas Agg} (I : Spec.CustomInstance P T)
    (hj : 0 < P.flp.jointRandLen) {ctx ctx' verifyKey nonce nonce' rand : Bytes} (hctx : ctx.length + 8 < 2 ^ 16)
    (hctx' : ctx'.length + 8 < 2 ^ 16) (hne : (ctx, nonce) ≠ (ctx', nonce')) (hn : nonce.length = 16) (hn' : nonce'.length = 16)
    (hr : rand.length = P.randSize) {m : Meas} (hm : T.valid m) {S : Set Bytes} (hfin : S.Finite)
    (hS : oracleInputs P verifyKey ctx' ⊆ S) {N : ℕ} (hN : 32 ≤ N) :
    crossProbability (fun O => (runWith P O).vdaf) prims verifyKey () m rand ctx nonce ctx' nonce' S N ≤ 2 / 2 ^ 256 := by
  obtain ⟨e, he, hl, -⟩ := I.computes.encode m hm
  have : Finite S := hfin
  exact Prio3.joint_bound I.wf hj hctx hctx' hne he hl hn hn' hr hS hN

/-- C76 for Prio3 with any circuit that has a gadget: another application context -/
theorem C76_context {P : Prio3 (XofTurboShake128 prims fuel) F Meas Agg} {T : Spec.Task Meas Agg} (I : Spec.CustomInstance P T)
    (hg : P.flp.gadgets ≠ []) {ctx ctx' verifyKey nonce nonce' rand : Bytes} (hctx : ctx.length + 8 < 2 ^ 16)
    (hctx' : ctx'.length + 8 < 2 ^ 16) (hne : ctx ≠ ctx') (hn : nonce.length = 16) (hr : rand.length = P.randSize)
    {m : Meas} (hm : T.valid m) {S : Set Bytes} (hfin : S.Finite) (hS : firstProofInput P rand ctx' ∈ S) {N : ℕ}
    (hN : fuel * PyField.encSize F ≤ N) :
    crossProbability (fun O => (runWith P O).vdaf) prims verifyKey () m rand ctx nonce ctx' nonce' S N ≤
      (1 / PyField.modulus F) ^ P.proofs := by
  obtain ⟨e, he, hl, -⟩ := I.computes.encode m hm
  have : Finite S := hfin
  exact Prio3.context_bound I.wf hg hctx hctx' hne he hl hn hr hS hN

/-- With a circuit that does not use joint randomness (`Count` and `Sum`), a report is not bound to its nonce: whatever the
primitives are, it is the report for every other nonce, so the Aggregators treat it as they treat the report that the Client
would have made for that nonce.  An Aggregator that relies on nonces to detect that a report is presented twice cannot rely on
verification to detect that the nonce was changed. -/
theorem C76_nonce_unbound {X : Xof} (P : Prio3 X F Meas Agg) (hj : P.flp.jointRandLen = 0) (verifyKey ctx : Bytes)
    {nonce nonce' : Bytes} (hn : nonce.length = 16) (hn' : nonce'.length = 16) (rand : Bytes) (m : Meas) :
    P.shard ctx m nonce rand = P.shard ctx m nonce' rand ∧
    crossOutShares P.vdaf verifyKey () m rand ctx nonce ctx nonce' =
      crossOutShares P.vdaf verifyKey () m rand ctx nonce' ctx nonce' := by
  have h : P.shard ctx m nonce rand = P.shard ctx m nonce' rand := by
    unfold Prio3.shard
    rw [raiseIf_of_not (show ¬ nonce.length ≠ Prio3.NONCE_SIZE from fun h => h hn),
      raiseIf_of_not (show ¬ nonce'.length ≠ Prio3.NONCE_SIZE from fun h => h hn')]
    simp only [show ¬ P.flp.jointRandLen > 0 by omega, if_false]
  refine ⟨h, ?_⟩
  unfold crossOutShares
  rw [show P.vdaf.shard ctx m nonce rand = P.vdaf.shard ctx m nonce' rand from h]

end

section
variable {prims : Prims} {fuel : ℕ}

/-- C76 for Poplar1: another application context or another nonce, for every aggregation parameter -/
theorem C76_poplar1 {bits : ℕ} {P : Poplar1} (hP : Poplar1.init bits = .ok P) (hf : fuel < 2 ^ 120)
    {ctx ctx' verifyKey nonce nonce' rand : Bytes} (hctx : ctx.length + 8 < 2 ^ 16) (hctx' : ctx'.length + 8 < 2 ^ 16)
    (hne : (ctx, nonce) ≠ (ctx', nonce')) (hn : nonce.length = 16) (hkey : verifyKey.length = 32) (hr : rand.length = 128)
    {alpha : List Bool} (ha : alpha.length = bits) (level : ℕ) (prefixes : List (List Bool)) {S : Set Bytes} (hfin : S.Finite)
    (hS : firstCorrInput bits rand ctx' nonce' level ∈ S) {N : ℕ} (hN : 2 * (fuel * 32) ≤ N) :
    crossProbability (fun O => P.vdaf (withOracle prims O) fuel) prims verifyKey (level, prefixes) alpha rand ctx nonce ctx' nonce'
      S N ≤ 1 / levelModulus bits level := by
  obtain ⟨rfl, hb⟩ := Poplar1.init_ok hP
  have : Finite S := hfin
  have hle : PyField.encSize (Fk (levelKind bits level)) ≤ 32 := by
    cases levelKind bits level <;> decide
  refine PO.cross_bound hf hb hctx hctx' hne ha hn hr hkey hS (le_trans ?_ hN)
  rw [mul_assoc]
  exact Nat.mul_le_mul_left _ (Nat.mul_le_mul_left _ hle)

end

/-! ## Concrete cases -/

/-- `Prio3Count` with two Aggregators -/
def bindingCount : Prio3 (XofTurboShake128 toyPrims 40) Field64 Int Nat := ⟨1, 2, 1, Count Field64, 5⟩

theorem bindingCount_instance : Spec.Instance bindingCount Spec.countFun := (instance_count (shares := 2) (by rfl)).1

-- the hypotheses of `C76_joint` for a report of `Prio3Histogram` for `[1]` that is presented for `[2]`
example : ∃ S : Set Bytes, S.Finite ∧
    crossProbability (fun O => (runWith privacyExample O).vdaf) toyPrims (List.replicate 32 1) () 1 (List.replicate 192 7) [1]
      (List.replicate 16 7) [2] (List.replicate 16 7) S 640 ≤ 2 / 2 ^ 256 :=
  ⟨_, Prio3.oracleInputs_finite _ _ _, C76_joint privacyExample_instance.custom (by decide) (by decide) (by decide) (by decide)
    (by decide) (by decide) (by decide +kernel) (by simp [Spec.histogramFun, Spec.Fun.task]) (Prio3.oracleInputs_finite _ _ _)
    subset_rfl (by norm_num)⟩

-- the hypotheses of `C76_context` for a report of `Prio3Count`
example : crossProbability (fun O => (runWith bindingCount O).vdaf) toyPrims (List.replicate 32 1) () 1 (List.replicate 64 7) [1]
      (List.replicate 16 7) [2] (List.replicate 16 7) {firstProofInput bindingCount (List.replicate 64 7) [2]} 640 ≤
    (1 / PyField.modulus Field64) ^ 1 :=
  C76_context bindingCount_instance.custom (by simp [bindingCount, Count]) (by decide) (by decide) (by decide) (by decide)
    (by decide +kernel) (by simp [Spec.countFun, Spec.Fun.task]) (Set.finite_singleton _) rfl (by decide)

/-- Whether all the Aggregators accept -/
def crossAccepted {Meas AggParam PubShare InShare OutShare AggShare AggRes VState VShare VMsg : Type}
    (V : VdafImpl Meas AggParam PubShare InShare OutShare AggShare AggRes VState VShare VMsg)
    (aggParam : AggParam) (m : Meas) (rand ctx nonce ctx' nonce' : Bytes) : Bool :=
  (crossOutShares V (List.replicate 32 1) aggParam m rand ctx nonce ctx' nonce').isOk

set_option maxRecDepth 4000 in
-- the report of `Prio3Histogram` is accepted for its application context and its nonce, and rejected for others
example : crossAccepted privacyExample.vdaf () 1 (List.replicate 192 7) [1] (List.replicate 16 7) [1] (List.replicate 16 7) = true ∧
    crossAccepted privacyExample.vdaf () 1 (List.replicate 192 7) [1] (List.replicate 16 7) [2] (List.replicate 16 7) = false ∧
    crossAccepted privacyExample.vdaf () 1 (List.replicate 192 7) [1] (List.replicate 16 7) [1] (List.replicate 16 8) = false := by
  decide +kernel

set_option maxRecDepth 4000 in
-- the report of `Prio3Count` is rejected for another application context, but accepted with another nonce
example : crossAccepted bindingCount.vdaf () 1 (List.replicate 64 7) [1] (List.replicate 16 7) [1] (List.replicate 16 7) = true ∧
    crossAccepted bindingCount.vdaf () 1 (List.replicate 64 7) [1] (List.replicate 16 7) [2] (List.replicate 16 7) = false ∧
    crossAccepted bindingCount.vdaf () 1 (List.replicate 64 7) [1] (List.replicate 16 7) [1] (List.replicate 16 8) = true := by
  decide +kernel

-- the hypotheses of `C76_poplar1` for a report that is presented with another nonce
example : crossProbability (fun O => (⟨poplarIdpf 2⟩ : Poplar1).vdaf (withOracle toyPrims O) 40) toyPrims (List.replicate 32 1)
      (1, [[true, false], [true, true]]) [true, false] (List.replicate 128 7) [1] (List.replicate 16 3) [1] (List.replicate 16 4)
      {firstCorrInput 2 (List.replicate 128 7) [1] (List.replicate 16 4) 1} 2560 ≤ 1 / levelModulus 2 1 :=
  C76_poplar1 (P := ⟨poplarIdpf 2⟩) rfl (by norm_num) (by simp) (by simp) (by decide) (by simp) (by simp) (by simp)
    (by simp) 1 _ (Set.finite_singleton _) rfl (by norm_num)

set_option maxRecDepth 4000 in
-- the report is accepted for its application context and its nonce, and rejected for others
example :
    let V := (⟨poplarIdpf 2⟩ : Poplar1).vdaf toyPrims 40
    let accepted := crossAccepted V (1, [[true, false], [true, true]]) [true, false] (List.replicate 128 7) [1] (List.replicate 16 3)
    accepted [1] (List.replicate 16 3) = true ∧ accepted [2] (List.replicate 16 3) = false ∧
      accepted [1] (List.replicate 16 4) = false := by
  decide +kernel

end Vdaf
