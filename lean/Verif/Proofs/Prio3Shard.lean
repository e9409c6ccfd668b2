import Verif.Proofs.Prio3Base

/-! The input shares produced by `Prio3.shard`. -/

set_option linter.unusedSectionVars false

namespace Vdaf
open Finset

namespace Prio3
variable {X : Xof} {F : Type} [NttField F] {Meas Agg : Type} {P : Prio3 X F Meas Agg}

/-- What `shard` returns: shares of the encoded measurement and of the proofs, and the joint
randomness derived from them. -/
structure Sharded (P : Prio3 X F Meas Agg) (ctx nonce : Bytes) (meas : List F)
    (pub : Option (List Bytes)) (ish : List (Prio3InputShare F)) (ms ps : ℕ → List F)
    (bl : ℕ → Option Bytes) (prs jrs : List F) (π : ℕ → List F) : Prop where
  len : ish.length = P.shares
  expand : ∀ j < P.shares, ∃ s, ish[j]? = some s ∧
    P.expandInputShare ctx j s = .ok (ms j, ps j, bl j)
  measSum : Spec.IsSum (fun j : Fin P.shares => ms j) meas
  prsLen : prs.length = P.flp.proveRandLen * P.proofs
  jrsLen : jrs.length = P.flp.jointRandLen * P.proofs
  prove : ∀ i < P.proofs,
    P.flp.prove meas (blk P.flp.proveRandLen prs i) (blk P.flp.jointRandLen jrs i) = .ok (π i) ∧
      (π i).length = P.proofLen
  proofSum : Spec.IsSum (fun j : Fin P.shares => ps j) ((List.range P.proofs).flatMap π)
  joint : (P.flp.jointRandLen = 0 ∧ pub = none ∧ ∀ j, bl j = none) ∨
    (0 < P.flp.jointRandLen ∧ ∃ (parts b : ℕ → Bytes) (seed : Bytes),
      pub = some (tab P.shares parts) ∧
      (∀ j < P.shares, bl j = some (b j) ∧ (b j).length = X.seedSize ∧
        P.jointRandPart ctx j (b j) (ms j) nonce = .ok (parts j) ∧ (parts j).length = X.seedSize) ∧
      P.jointRandSeed ctx (tab P.shares parts) = .ok seed ∧ P.jointRands ctx seed = .ok jrs)

section
variable (W : P.WF) {ctx : Bytes} (hctx : ctx.length + 8 < 2 ^ 16)
include W hctx

omit W hctx in
theorem subHelperProofs_gen {E : Err → Prop} {M : ℕ} (hM : P.shares = M + 1) {sd : ℕ → Bytes}
    (hsd : ∀ i < M, Good E (P.helperProofsShare ctx (i + 1) (sd i)) fun v => v.length = P.proofLen * P.proofs)
    {v : List F} (hv : v.length = P.proofLen * P.proofs) :
    Good E (P.subHelperProofs ctx (tab M sd) v) fun r =>
      r = lead v (fun j => okVal (P.helperProofsShare ctx (j + 1) (sd j))) M ∧
      ∀ j < M, P.helperProofsShare ctx (j + 1) (sd j) =
          .ok (okVal (P.helperProofsShare ctx (j + 1) (sd j))) ∧
        (okVal (P.helperProofsShare ctx (j + 1) (sd j))).length = v.length := by
  unfold subHelperProofs
  rw [show P.shares - 1 = M by omega]
  set h := fun j => okVal (P.helperProofsShare ctx (j + 1) (sd j)) with hh
  refine Good.forFold_range M v _ (fun i r => r = lead v h i ∧
      ∀ j < i, P.helperProofsShare ctx (j + 1) (sd j) = .ok (h j) ∧ (h j).length = v.length)
    ⟨(lead_zero v h).symm, by omega⟩ ?_
  rintro i hi _ ⟨rfl, h2⟩
  rw [getI_tab hi]
  simp only [Except.ok_bind']
  refine (hsd i hi).bind fun p hp hl => ?_
  have hpi : h i = p := okVal_eq hp
  rw [← hpi] at hp hl ⊢
  rw [vecSub_lead (by rw [hl, hv])]
  refine Good.ok ⟨rfl, fun j hj => ?_⟩
  rcases Nat.lt_succ_iff_lt_or_eq.1 hj with h' | rfl
  · exact h2 j h'
  · exact ⟨hp, by rw [hl, hv]⟩

omit hctx in
theorem shardWithoutJointRand_gen {E : Err → Prop} (hj0 : P.flp.jointRandLen = 0) {meas : List F}
    (hmeas : meas.length = P.flp.measLen) {sd : ℕ → Bytes} {nonce : Bytes}
    (gM : ∀ j < P.shares - 1, Good E (P.helperMeasShare ctx (j + 1) (sd j)) fun v => v.length = P.flp.measLen)
    (gP : ∀ j < P.shares - 1, Good E (P.helperProofsShare ctx (j + 1) (sd j))
      fun v => v.length = P.proofLen * P.proofs)
    (gR : Good E (P.proveRands ctx (sd (P.shares - 1))) fun v => v.length = P.flp.proveRandLen * P.proofs) :
    Good E (P.shardWithoutJointRand ctx meas (tab P.shares sd)) fun r =>
      ∃ ms ps prs π, P.Sharded ctx nonce meas r.1 r.2 ms ps (fun _ => none) prs [] π ∧
        r.2.drop 1 = tab (P.shares - 1) (fun j => .helper (sd j) none) ∧
        P.proveRands ctx (sd (P.shares - 1)) = .ok prs := by
  obtain ⟨M, hM⟩ : ∃ M, P.shares = M + 1 := ⟨P.shares - 1, by have := W.shares_ge; omega⟩
  have hM1 : P.shares - 1 = M := by omega
  unfold shardWithoutJointRand
  simp only [hM1]
  rw [front_tab (by omega)]
  simp only [Except.ok_bind']
  rw [front_tab (by omega)]
  simp only [Except.ok_bind']
  rw [getI_tab (by omega)]
  simp only [Except.ok_bind', add_zero]
  set hm := fun j => okVal (P.helperMeasShare ctx (j + 1) (sd j)) with hhm
  refine Good.bind (Good.forFold_range M meas _ (fun i r => r = lead meas hm i ∧
      ∀ j < i, P.helperMeasShare ctx (j + 1) (sd j) = .ok (hm j) ∧ (hm j).length = meas.length)
    ⟨(lead_zero meas hm).symm, by omega⟩ ?_) ?_
  · rintro i hi _ ⟨rfl, h2⟩
    rw [getI_tab hi]
    simp only [Except.ok_bind']
    refine (gM i (by omega)).bind fun p hp hl => ?_
    have hpi : hm i = p := okVal_eq hp
    rw [← hpi] at hp hl ⊢
    rw [vecSub_lead (by rw [hl, hmeas])]
    refine Good.ok ⟨rfl, fun j hj => ?_⟩
    rcases Nat.lt_succ_iff_lt_or_eq.1 hj with h' | rfl
    · exact h2 j h'
    · exact ⟨hp, by rw [hl, hmeas]⟩
  rintro _ - ⟨rfl, hmeasOk⟩
  refine (show Good E (P.proveRands ctx (sd M)) _ by rw [← hM1]; exact gR).bind fun prs hprsOk hprs => ?_
  set π := fun i => okVal (P.flp.prove meas (blk P.flp.proveRandLen prs i)
    (blk P.flp.jointRandLen ([] : List F) i)) with hπ
  have hblk0 : ∀ i, blk P.flp.jointRandLen ([] : List F) i = [] := by intro i; simp [blk]
  refine Good.bind (Good.forFold_range P.proofs _ _ (fun i r =>
      r = ((List.range i).flatMap π, prs.drop (P.flp.proveRandLen * i)) ∧
      ∀ j < i, P.flp.prove meas (blk P.flp.proveRandLen prs j)
        (blk P.flp.jointRandLen ([] : List F) j) = .ok (π j) ∧ (π j).length = P.proofLen)
    ⟨by simp, by omega⟩ ?_) ?_
  · rintro i hi _ ⟨rfl, h2⟩
    dsimp only
    rw [front_blk (by rw [hprs]; exact mul_succ_le hi)]
    simp only [Except.ok_bind']
    obtain ⟨p, hp, hl⟩ := W.lawful.prove_total hmeas (blk_length' hprs hi)
      (show (blk P.flp.jointRandLen ([] : List F) i).length = P.flp.jointRandLen by rw [hblk0, hj0]; rfl)
    have hpi : π i = p := okVal_eq hp
    rw [W.proofLen] at hl
    rw [show P.flp.prove meas (blk P.flp.proveRandLen prs i) [] = .ok p by rw [← hblk0 i]; exact hp]
    simp only [Except.ok_bind']
    refine Good.ok ⟨by rw [flatMap_range_succ, hpi], fun j hj => ?_⟩
    rcases Nat.lt_succ_iff_lt_or_eq.1 hj with h' | rfl
    · exact h2 j h'
    · rw [hpi]; exact ⟨hp, (Except.ok.inj hl).symm⟩
  rintro _ - ⟨rfl, hproofOk⟩
  dsimp only
  have hπl := flatMap_range_length fun i hi => (hproofOk i hi).2
  refine (subHelperProofs_gen hM (fun i hi => gP i (by omega)) hπl).bind ?_
  rintro _ - ⟨rfl, hpsOk⟩
  rw [mapRes_range_tab (g := fun j => .helper (sd j) none) (by
    intro j hj; rw [getI_tab hj]; rfl)]
  simp only [Except.ok_bind']
  set hp := fun j => okVal (P.helperProofsShare ctx (j + 1) (sd j))
  refine Good.ok ⟨consFn (lead meas hm M) hm, consFn (lead ((List.range P.proofs).flatMap π) hp M) hp,
    prs, π, ?_, by simp, hprsOk⟩
  refine ⟨by simp [hM], ?_, ?_, hprs, by simp [hj0], hproofOk, ?_, .inl ⟨hj0, rfl, fun _ => rfl⟩⟩
  · rintro j hj
    cases j with
    | zero => exact ⟨_, rfl, rfl⟩
    | succ j =>
      refine ⟨.helper (sd j) none, by simp [tab_getElem? (show j < M by omega)], ?_⟩
      unfold expandInputShare
      rw [if_pos (by omega)]
      dsimp only
      rw [(hmeasOk j (by omega)).1]
      simp only [Except.ok_bind']
      rw [(hpsOk j (by omega)).1]
      rfl
  · exact isSum_lead hM fun i hi => (hmeasOk i hi).2
  · exact isSum_lead hM fun i hi => (hpsOk i hi).2

theorem shardWithoutJointRand_good (hj0 : P.flp.jointRandLen = 0) {meas : List F}
    (hmeas : meas.length = P.flp.measLen) {sd : ℕ → Bytes} {nonce : Bytes}
    (hsd : ∀ i < P.shares, (sd i).length = X.seedSize) :
    Good (Fuel X F) (P.shardWithoutJointRand ctx meas (tab P.shares sd)) fun r =>
      ∃ ms ps prs π, P.Sharded ctx nonce meas r.1 r.2 ms ps (fun _ => none) prs [] π ∧
        r.2.drop 1 = tab (P.shares - 1) (fun j => .helper (sd j) none) ∧
        P.proveRands ctx (sd (P.shares - 1)) = .ok prs :=
  have := W.shares_lt
  have := W.shares_ge
  shardWithoutJointRand_gen W hj0 hmeas
    (fun _ _ => helperMeasShare_good W hctx (by omega) (hsd _ (by omega)))
    (fun _ _ => helperProofsShare_good W hctx (by omega) (hsd _ (by omega)))
    (proveRands_good W hctx (hsd _ (by omega)))

theorem shardWithJointRand_gen {E : Err → Prop} (hj0 : 0 < P.flp.jointRandLen) {meas : List F}
    (hmeas : meas.length = P.flp.measLen) {sd : ℕ → Bytes} {nonce : Bytes}
    (hsd : ∀ i < P.shares + P.shares, (sd i).length = X.seedSize)
    (gM : ∀ j < P.shares - 1, Good E (P.helperMeasShare ctx (j + 1) (sd (2 * j)))
      fun v => v.length = P.flp.measLen)
    (gP : ∀ j < P.shares - 1, Good E (P.helperProofsShare ctx (j + 1) (sd (2 * j)))
      fun v => v.length = P.proofLen * P.proofs)
    (gR : Good E (P.proveRands ctx (sd (2 * P.shares - 1))) fun v => v.length = P.flp.proveRandLen * P.proofs)
    (gJ : ∀ (ms : ℕ → List F) (parts : ℕ → Bytes) (seed : Bytes),
      Spec.IsSum (fun j : Fin P.shares => ms j) meas →
      (∀ j < P.shares - 1, P.helperMeasShare ctx (j + 1) (sd (2 * j)) = .ok (ms (j + 1))) →
      (∀ j < P.shares, P.jointRandPart ctx j (consFn (sd (2 * P.shares - 2)) (fun i => sd (2 * i + 1)) j) (ms j)
        nonce = .ok (parts j)) →
      P.jointRandSeed ctx (tab P.shares parts) = .ok seed → seed.length = X.seedSize →
      Good E (P.jointRands ctx seed) fun v => v.length = P.flp.jointRandLen * P.proofs) :
    Good E (P.shardWithJointRand ctx meas nonce (tab (P.shares + P.shares) sd)) fun r =>
      ∃ ms ps bl prs jrs π, P.Sharded ctx nonce meas r.1 r.2 ms ps bl prs jrs π ∧
        r.2.drop 1 = tab (P.shares - 1) (fun j => .helper (sd (2 * j)) (some (sd (2 * j + 1)))) ∧
        P.proveRands ctx (sd (2 * P.shares - 1)) = .ok prs ∧
        bl 0 = some (sd (2 * P.shares - 2)) := by
  obtain ⟨M, hM⟩ : ∃ M, P.shares = M + 1 := ⟨P.shares - 1, by have := W.shares_ge; omega⟩
  have hM1 : P.shares - 1 = M := by omega
  have hsl := W.shares_lt
  unfold shardWithJointRand
  simp only [hM1]
  rw [front_tab (by omega)]
  simp only [Except.ok_bind']
  rw [mapRes_range_tab (g := fun j => sd (2 * j)) (fun j hj => getI_tab (by omega)),
    mapRes_range_tab (g := fun j => sd (2 * j + 1)) (fun j hj => getI_tab (by omega))]
  simp only [Except.ok_bind']
  rw [front_tab (by omega)]
  simp only [Except.ok_bind']
  rw [getI_tab (by omega), getI_tab (by omega)]
  simp only [Except.ok_bind', add_zero]
  set hm := fun j => okVal (P.helperMeasShare ctx (j + 1) (sd (2 * j))) with hhm
  set hparts := fun j => okVal (P.jointRandPart ctx (j + 1) (sd (2 * j + 1)) (hm j) nonce) with hhp
  refine Good.bind (Good.forFold_range M _ _ (fun i r => r = (lead meas hm i, tab i hparts) ∧
      ∀ j < i, P.helperMeasShare ctx (j + 1) (sd (2 * j)) = .ok (hm j) ∧
        (hm j).length = meas.length ∧
        P.jointRandPart ctx (j + 1) (sd (2 * j + 1)) (hm j) nonce = .ok (hparts j) ∧
        (hparts j).length = X.seedSize)
    ⟨by rw [lead_zero]; rfl, by omega⟩ ?_) ?_
  · rintro i hi _ ⟨rfl, h2⟩
    rw [getI_tab hi]
    simp only [Except.ok_bind']
    refine (gM i (by omega)).bind fun p hp hl => ?_
    have hpi : hm i = p := okVal_eq hp
    rw [← hpi] at hp hl ⊢
    rw [vecSub_lead (by rw [hl, hmeas])]
    simp only [Except.ok_bind']
    rw [getI_tab hi]
    simp only [Except.ok_bind']
    obtain ⟨b, hb, hbl⟩ := jointRandPart_total W hctx (show i + 1 < 256 by omega)
      (hsd (2 * i + 1) (by omega)) (hm i) nonce
    have hbi : hparts i = b := okVal_eq hb
    rw [← hbi] at hb hbl
    rw [hb]
    simp only [Except.ok_bind']
    refine Good.ok ⟨by rw [tab_succ], fun j hj => ?_⟩
    rcases Nat.lt_succ_iff_lt_or_eq.1 hj with h' | rfl
    · exact h2 j h'
    · exact ⟨hp, by rw [hl, hmeas], hb, hbl⟩
  rintro _ - ⟨rfl, hmeasOk⟩
  dsimp only
  obtain ⟨b0, hb0, hbl0⟩ := jointRandPart_total W hctx (show 0 < 256 by omega)
    (hsd (M * 2) (by omega)) (lead meas hm M) nonce
  rw [hb0]
  simp only [Except.ok_bind']
  refine (show Good E (P.proveRands ctx (sd (M * 2 + 1))) _ by
    rw [show M * 2 + 1 = 2 * P.shares - 1 by omega]; exact gR).bind fun prs hprsOk hprs => ?_
  have hparts : b0 :: tab M hparts = tab P.shares (consFn b0 hparts) := by
    rw [hM, tab_succ']; rfl
  rw [hparts]
  obtain ⟨seed, hseed, hseedl⟩ := jointRandSeed_total W hctx (tab P.shares (consFn b0 _))
  rw [hseed]
  simp only [Except.ok_bind']
  refine (gJ (consFn (lead meas hm M) hm) _ seed (isSum_lead hM fun i hi => (hmeasOk i hi).2.1)
    (fun j hj => (hmeasOk j (by omega)).1) (fun j hj => ?_) hseed hseedl).bind fun jrs hjrsOk hjrs => ?_
  · cases j with
    | zero => rw [show 2 * P.shares - 2 = M * 2 by omega]; exact hb0
    | succ j => exact (hmeasOk j (by omega)).2.2.1
  set π := fun i => okVal (P.flp.prove meas (blk P.flp.proveRandLen prs i)
    (blk P.flp.jointRandLen jrs i)) with hπ
  refine Good.bind (Good.forFold_range P.proofs _ _ (fun i r =>
      r = ((List.range i).flatMap π, prs.drop (P.flp.proveRandLen * i),
        jrs.drop (P.flp.jointRandLen * i)) ∧
      ∀ j < i, P.flp.prove meas (blk P.flp.proveRandLen prs j)
        (blk P.flp.jointRandLen jrs j) = .ok (π j) ∧ (π j).length = P.proofLen)
    ⟨by simp, by omega⟩ ?_) ?_
  · rintro i hi _ ⟨rfl, h2⟩
    dsimp only
    rw [front_blk (by rw [hprs]; exact mul_succ_le hi)]
    simp only [Except.ok_bind']
    rw [front_blk (by rw [hjrs]; exact mul_succ_le hi)]
    simp only [Except.ok_bind']
    obtain ⟨p, hp, hl⟩ := W.lawful.prove_total hmeas (blk_length' hprs hi) (blk_length' hjrs hi)
    have hpi : π i = p := okVal_eq hp
    rw [W.proofLen] at hl
    rw [hp]
    simp only [Except.ok_bind']
    refine Good.ok ⟨by rw [flatMap_range_succ, hpi], fun j hj => ?_⟩
    rcases Nat.lt_succ_iff_lt_or_eq.1 hj with h' | rfl
    · exact h2 j h'
    · rw [hpi]; exact ⟨hp, (Except.ok.inj hl).symm⟩
  rintro _ - ⟨rfl, hproofOk⟩
  dsimp only
  have hπl := flatMap_range_length fun i hi => (hproofOk i hi).2
  refine (subHelperProofs_gen hM (fun i hi => gP i (by omega)) hπl).bind ?_
  rintro _ - ⟨rfl, hpsOk⟩
  rw [mapRes_range_tab (g := fun j => .helper (sd (2 * j)) (some (sd (2 * j + 1)))) (by
    intro j hj; rw [getI_tab hj, getI_tab hj]; rfl)]
  simp only [Except.ok_bind']
  set hp := fun j => okVal (P.helperProofsShare ctx (j + 1) (sd (2 * j)))
  refine Good.ok ⟨consFn (lead meas hm M) hm, consFn (lead ((List.range P.proofs).flatMap π) hp M) hp,
    consFn (some (sd (M * 2))) fun j => some (sd (2 * j + 1)),
    prs, jrs, π, ?_, by simp, by rw [show 2 * P.shares - 1 = M * 2 + 1 by omega]; exact hprsOk,
    by rw [show 2 * P.shares - 2 = M * 2 by omega]; rfl⟩
  refine ⟨by simp [hM], ?_, ?_, hprs, hjrs, hproofOk, ?_, .inr ⟨hj0, consFn b0 _,
    consFn (sd (M * 2)) (fun j => sd (2 * j + 1)), seed, rfl, ?_, hseed, hjrsOk⟩⟩
  · rintro j hj
    cases j with
    | zero => exact ⟨_, rfl, rfl⟩
    | succ j =>
      refine ⟨.helper (sd (2 * j)) (some (sd (2 * j + 1))), by simp [tab_getElem? (show j < M by omega)], ?_⟩
      unfold expandInputShare
      rw [if_pos (by omega)]
      dsimp only
      rw [(hmeasOk j (by omega)).1]
      simp only [Except.ok_bind']
      rw [(hpsOk j (by omega)).1]
      rfl
  · exact isSum_lead hM fun i hi => (hmeasOk i hi).2.1
  · exact isSum_lead hM fun i hi => (hpsOk i hi).2
  · rintro j hj
    cases j with
    | zero => exact ⟨rfl, hsd _ (by omega), hb0, hbl0⟩
    | succ j =>
      have := hmeasOk j (by omega)
      exact ⟨rfl, hsd _ (by omega), this.2.2.1, this.2.2.2⟩

theorem shardWithJointRand_good (hj0 : 0 < P.flp.jointRandLen) {meas : List F}
    (hmeas : meas.length = P.flp.measLen) {sd : ℕ → Bytes} {nonce : Bytes}
    (hsd : ∀ i < P.shares + P.shares, (sd i).length = X.seedSize) :
    Good (Fuel X F) (P.shardWithJointRand ctx meas nonce (tab (P.shares + P.shares) sd)) fun r =>
      ∃ ms ps bl prs jrs π, P.Sharded ctx nonce meas r.1 r.2 ms ps bl prs jrs π ∧
        r.2.drop 1 = tab (P.shares - 1) (fun j => .helper (sd (2 * j)) (some (sd (2 * j + 1)))) ∧
        P.proveRands ctx (sd (2 * P.shares - 1)) = .ok prs ∧
        bl 0 = some (sd (2 * P.shares - 2)) :=
  have := W.shares_lt
  have := W.shares_ge
  shardWithJointRand_gen W hctx hj0 hmeas hsd
    (fun _ _ => helperMeasShare_good W hctx (by omega) (hsd _ (by omega)))
    (fun _ _ => helperProofsShare_good W hctx (by omega) (hsd _ (by omega)))
    (proveRands_good W hctx (hsd _ (by omega))) (fun _ _ _ _ _ _ _ h => jointRands_good W hctx h)

omit W hctx in
theorem chunks_length {rand : Bytes} {n l : ℕ} (h : rand.length = n * l) {i : ℕ} (hi : i < n) :
    (slice rand (i * l) (i * l + l)).length = l := by
  have : i * l + l ≤ n * l := by
    calc _ = (i + 1) * l := by ring
      _ ≤ _ := Nat.mul_le_mul_right _ hi
  rw [slice_length _ _ _ (by omega)]
  omega

theorem shard_good {m : Meas} {meas : List F} (he : P.flp.encode m = .ok meas)
    (hmeas : meas.length = P.flp.measLen) {nonce rand : Bytes} (hn : nonce.length = 16)
    (hr : rand.length = P.randSize) :
    Good (Fuel X F) (P.shard ctx m nonce rand) fun r =>
      ∃ ms ps bl prs jrs π, P.Sharded ctx nonce meas r.1 r.2 ms ps bl prs jrs π ∧
        r.2.drop 1 = Spec.helperShares P rand ∧
        P.proveRands ctx (Spec.seedAt P rand (P.numSeeds - 1)) = .ok prs ∧
        (0 < P.flp.jointRandLen → bl 0 = some (Spec.seedAt P rand (P.numSeeds - 2))) := by
  unfold shard
  rw [raiseIf_of_not (by simpa [NONCE_SIZE] using hn), raiseIf_of_not (by simpa using hr), he]
  simp only [Except.ok_bind']
  unfold randSize at hr
  unfold Spec.helperShares Spec.seedAt
  have hc : chunks rand P.numSeeds X.seedSize =
      tab P.numSeeds fun i => slice rand (i * X.seedSize) (i * X.seedSize + X.seedSize) := rfl
  rw [hc]
  have hsd := fun i (hi : i < P.numSeeds) => chunks_length hr hi
  by_cases hj : P.flp.jointRandLen > 0
  · have hns : P.numSeeds = P.shares + P.shares := by unfold numSeeds; rw [if_pos hj]
    rw [if_pos hj]
    simp only [gt_iff_lt] at hj
    simp only [if_pos hj]
    rw [hns] at hsd ⊢
    refine (shardWithJointRand_good W hctx hj hmeas hsd).mono ?_
    rintro r - ⟨ms, ps, bl, prs, jrs, π, h1, h2, h3, h4⟩
    rw [← two_mul]
    exact ⟨ms, ps, bl, prs, jrs, π, h1, h2, h3, fun _ => h4⟩
  · have hns : P.numSeeds = P.shares := by unfold numSeeds; rw [if_neg hj]
    rw [if_neg hj]
    simp only [gt_iff_lt] at hj
    simp only [if_neg hj]
    rw [hns] at hsd ⊢
    refine (shardWithoutJointRand_good W hctx (nonce := nonce) (by omega) hmeas hsd).mono ?_
    rintro r - ⟨ms, ps, prs, π, h1, h2, h3⟩
    exact ⟨ms, ps, fun _ => none, prs, [], π, h1, h2, h3, fun h => absurd h hj⟩

end
end Prio3
end Vdaf
