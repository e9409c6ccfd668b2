import Verif.Spec.AnyFlp
import Verif.Proofs.Prio3Sound
import Verif.Proofs.CustomInst

/-! Prio3 over an arbitrary FLP: the derivations, sharding, and honest verification.  The proofs follow
`Verif.Proofs.Prio3Base`, `Prio3Shard`, `Prio3Verify` and `Prio3Run`. -/

set_option linter.unusedSectionVars false

namespace Vdaf
open Finset

/-- What an honest execution needs from an FLP: `o m` is the truncated encoding of `m`. -/
structure FlpFacts {F : Type} [NttField F] {Meas Agg : Type} (V : FlpImpl F Meas Agg) (valid : Meas → Prop)
    (o : Meas → ℕ → F) : Prop where
  trunc : ∀ {N : ℕ} (es : Fin N → List F) (e : List F), Spec.IsSum es e →
    e.length = V.measLen → ∃ (os : Fin N → List F) (o : List F), V.truncate e = .ok o ∧
      (∀ i, V.truncate (es i) = .ok (os i)) ∧ Spec.IsSum os o ∧ o.length = V.outputLen
  enc : ∀ m, valid m → ∃ e : List F, V.encode m = .ok e ∧ e.length = V.measLen ∧
    V.truncate e = .ok (tab V.outputLen (o m)) ∧ Spec.FlpComplete V e

namespace Prio3Of
open Prio3 (Fuel tag_ok_iff byte_ok_iff isSum_range addL vecAdd_addL)
variable {X : Xof} {F : Type} [NttField F] {Meas Agg : Type} {P : Prio3Of X F Meas Agg}
  {abort : List F → Option Err}

/-- What the constructor guarantees, together with the laws of the FLP. -/
structure WF (P : Prio3Of X F Meas Agg) (abort : List F → Option Err) : Prop where
  id : P.id < 2 ^ 32
  shares_ge : 2 ≤ P.shares
  shares_lt : P.shares < 256
  modulus : P.shares < PyField.modulus F
  proofs : P.proofs < 256
  laws : Spec.FlpLaws P.flp abort
  xof : X.Ok F

section
variable (W : P.WF abort) {ctx : Bytes} (hctx : ctx.length + 8 < 2 ^ 16)
include W hctx

theorem expand_good {usage : ℕ} (hu : usage < 2 ^ 16) {seed binder : Bytes}
    (hs : seed.length = X.seedSize) (n : ℕ) :
    Good (Fuel X F) (do
      let dst ← domainSeparationTag P.id usage ctx
      X.expandIntoVec F seed dst binder n) fun v => v.length = n := by
  obtain ⟨d, h1, h2⟩ := dst_total W.id hu hctx
  rw [h1]
  obtain ⟨B, hB1, hB2, -⟩ := W.xof
  have := expandIntoVec_good (F := F) (binder := binder) hB1 hB2 hs h2 n
  rcases this.cases with ⟨v, hv, hl⟩ | ⟨e, he, rfl⟩
  · simp only [Except.ok_bind']
    exact Good.of_eq hv hl
  · simp only [Except.ok_bind']
    rw [he]
    exact Good.error ⟨rfl, _, _, _, _, he⟩

theorem derive_total {usage : ℕ} (hu : usage < 2 ^ 16) {seed binder : Bytes}
    (hs : seed.length = X.seedSize) :
    ∃ b, (do
      let dst ← domainSeparationTag P.id usage ctx
      X.deriveSeed seed dst binder) = .ok b ∧ b.length = X.seedSize := by
  obtain ⟨d, h1, h2⟩ := dst_total W.id hu hctx
  rw [h1]
  obtain ⟨B, hB1, -, hB2⟩ := W.xof
  exact deriveSeed_total hB1 hB2 hs h2

theorem helperMeasShare_good {j : ℕ} (hj : j < 256) {seed : Bytes} (hs : seed.length = X.seedSize) :
    Good (Fuel X F) (P.helperMeasShare ctx j seed) fun v => v.length = P.flp.measLen := by
  unfold helperMeasShare
  rw [byte_of_lt hj]
  exact expand_good W hctx (by decide) hs _

theorem helperProofsShare_good {j : ℕ} (hj : j < 256) {seed : Bytes} (hs : seed.length = X.seedSize) :
    Good (Fuel X F) (P.helperProofsShare ctx j seed) fun v => v.length = P.flp.proofLen * P.proofs := by
  unfold helperProofsShare
  rw [byte_of_lt hj, byte_of_lt W.proofs]
  exact expand_good W hctx (by decide) hs _

theorem proveRands_good {seed : Bytes} (hs : seed.length = X.seedSize) :
    Good (Fuel X F) (P.proveRands ctx seed) fun v => v.length = P.flp.proveRandLen * P.proofs := by
  unfold proveRands
  rw [byte_of_lt W.proofs]
  exact expand_good W hctx (by decide) hs _

theorem queryRands_good {key nonce : Bytes} (hs : key.length = X.seedSize) :
    Good (Fuel X F) (P.queryRands key ctx nonce) fun v => v.length = P.flp.queryRandLen * P.proofs := by
  unfold queryRands
  rw [byte_of_lt W.proofs]
  exact expand_good W hctx (by decide) hs _

theorem jointRands_good {seed : Bytes} (hs : seed.length = X.seedSize) :
    Good (Fuel X F) (P.jointRands ctx seed) fun v => v.length = P.flp.jointRandLen * P.proofs := by
  unfold jointRands
  rw [byte_of_lt W.proofs]
  exact expand_good W hctx (by decide) hs _

theorem jointRandPart_total {j : ℕ} (hj : j < 256) {blind : Bytes} (hs : blind.length = X.seedSize)
    (meas : List F) (nonce : Bytes) :
    ∃ b, P.jointRandPart ctx j blind meas nonce = .ok b ∧ b.length = X.seedSize := by
  unfold jointRandPart
  rw [byte_of_lt hj, encodeVec_eq]
  exact derive_total W hctx (by decide) hs

theorem jointRandSeed_total (parts : List Bytes) :
    ∃ b, P.jointRandSeed ctx parts = .ok b ∧ b.length = X.seedSize := by
  unfold jointRandSeed
  exact derive_total W hctx (by decide) (by simp [zeros])

end

theorem measShare_ok {ctx s : Bytes} {j : ℕ} {v : List F} : P.helperMeasShare ctx j s = .ok v ↔
    P.id < 2 ^ 32 ∧ j < 256 ∧ Spec.Of.measShare P ctx j s = .ok v := by
  simp only [helperMeasShare, Except.bind_eq_ok, tag_ok_iff, byte_ok_iff, Spec.Of.measShare,
    USAGE_MEAS_SHARE]
  aesop

theorem proofsShare_ok {ctx s : Bytes} {j : ℕ} {v : List F} : P.helperProofsShare ctx j s = .ok v ↔
    P.id < 2 ^ 32 ∧ P.proofs < 256 ∧ j < 256 ∧ Spec.Of.proofsShare P ctx j s = .ok v := by
  simp only [helperProofsShare, Except.bind_eq_ok, tag_ok_iff, byte_ok_iff, Spec.Of.proofsShare,
    USAGE_PROOF_SHARE]
  aesop

theorem jointRands_ok {ctx s : Bytes} {v : List F} : P.jointRands ctx s = .ok v ↔
    P.id < 2 ^ 32 ∧ P.proofs < 256 ∧ Spec.Of.jointRands P ctx s = .ok v := by
  simp only [jointRands, Except.bind_eq_ok, tag_ok_iff, byte_ok_iff, Spec.Of.jointRands,
    USAGE_JOINT_RANDOMNESS]
  aesop

theorem proveRands_ok {ctx s : Bytes} {v : List F} : P.proveRands ctx s = .ok v ↔
    P.id < 2 ^ 32 ∧ P.proofs < 256 ∧ Spec.Of.proveRands P ctx s = .ok v := by
  simp only [proveRands, Except.bind_eq_ok, tag_ok_iff, byte_ok_iff, Spec.Of.proveRands,
    USAGE_PROVE_RANDOMNESS]
  aesop

theorem queryRands_ok {vk ctx nonce : Bytes} {v : List F} : P.queryRands vk ctx nonce = .ok v ↔
    P.id < 2 ^ 32 ∧ P.proofs < 256 ∧ Spec.Of.queryRands P vk ctx nonce = .ok v := by
  simp only [queryRands, Except.bind_eq_ok, tag_ok_iff, byte_ok_iff, Spec.Of.queryRands,
    USAGE_QUERY_RANDOMNESS]
  aesop

theorem jointRandSeed_ok {ctx : Bytes} {parts : List Bytes} {v : Bytes} :
    P.jointRandSeed ctx parts = .ok v ↔
    P.id < 2 ^ 32 ∧ Spec.Of.jointRandSeed P ctx parts = .ok v := by
  simp only [jointRandSeed, Except.bind_eq_ok, tag_ok_iff, Spec.Of.jointRandSeed,
    USAGE_JOINT_RAND_SEED, zeros, concat]
  aesop

theorem jointRandPart_ok {ctx blind nonce : Bytes} {j : ℕ} {ms : List F} {v : Bytes} :
    P.jointRandPart ctx j blind ms nonce = .ok v ↔
    P.id < 2 ^ 32 ∧ j < 256 ∧ Spec.Of.jointRandPart P ctx j blind ms nonce = .ok v := by
  simp only [jointRandPart, Except.bind_eq_ok, tag_ok_iff, byte_ok_iff, Spec.Of.jointRandPart,
    USAGE_JOINT_RAND_PART, encodeVec_eq]
  aesop

theorem expandInputShare_ok {ctx : Bytes} {j : ℕ} {s : Prio3InputShare F} {ms ps : List F}
    {bl : Option Bytes} (h : P.expandInputShare ctx j s = .ok (ms, ps, bl)) :
    Spec.Of.Expands P ctx j s ms ps bl := by
  unfold expandInputShare at h
  split at h
  · next hj =>
    cases s with
    | leader => cases h
    | helper seed b =>
      dsimp only at h
      simp only [Except.bind_eq_ok, Except.pure_eq', Except.ok.injEq, Prod.mk.injEq] at h
      obtain ⟨m, hm, p, hp, rfl, rfl, rfl⟩ := h
      exact .inr ⟨hj, seed, rfl, (measShare_ok.1 hm).2.2, (proofsShare_ok.1 hp).2.2.2⟩
  · next hj =>
    cases s with
    | helper => cases h
    | leader m p b =>
      cases h
      exact .inl ⟨by omega, rfl⟩

theorem expandInputShare_of {ctx : Bytes} {j : ℕ} {s : Prio3InputShare F} {ms ps : List F}
    {bl : Option Bytes} (hid : P.id < 2 ^ 32) (hp : P.proofs < 256) (hj : j < 256)
    (h : Spec.Of.Expands P ctx j s ms ps bl) : P.expandInputShare ctx j s = .ok (ms, ps, bl) := by
  unfold expandInputShare
  rcases h with ⟨rfl, rfl⟩ | ⟨h0, seed, rfl, h1, h2⟩
  · rfl
  · rw [if_pos h0]
    dsimp only
    rw [measShare_ok.2 ⟨hid, hj, h1⟩, proofsShare_ok.2 ⟨hid, hp, hj, h2⟩]
    rfl

/-- What `shard` returns: shares of the encoded measurement and of the proofs, and the joint
randomness derived from them. -/
structure Sharded (P : Prio3Of X F Meas Agg) (ctx nonce : Bytes) (meas : List F)
    (pub : Option (List Bytes)) (ish : List (Prio3InputShare F)) (ms ps : ℕ → List F)
    (bl : ℕ → Option Bytes) (prs jrs : List F) (π : ℕ → List F) : Prop where
  len : ish.length = P.shares
  expand : ∀ j < P.shares, ∃ s, ish[j]? = some s ∧
    P.expandInputShare ctx j s = .ok (ms j, ps j, bl j)
  measSum : Spec.IsSum (fun j : Fin P.shares => ms j) meas
  prsLen : prs.length = P.flp.proveRandLen * P.proofs
  jrsLen : jrs.length = P.flp.jointRandLen * P.proofs
  prove : ∀ i < P.proofs,
    P.flp.prove meas (blk P.flp.proveRandLen prs i) (blk P.flp.jointRandLen jrs i) = .ok (π i) ∧
      (π i).length = P.flp.proofLen
  proofSum : Spec.IsSum (fun j : Fin P.shares => ps j) ((List.range P.proofs).flatMap π)
  joint : (P.flp.jointRandLen = 0 ∧ pub = none ∧ ∀ j, bl j = none) ∨
    (0 < P.flp.jointRandLen ∧ ∃ (parts b : ℕ → Bytes) (seed : Bytes),
      pub = some (tab P.shares parts) ∧
      (∀ j < P.shares, bl j = some (b j) ∧ (b j).length = X.seedSize ∧
        P.jointRandPart ctx j (b j) (ms j) nonce = .ok (parts j) ∧ (parts j).length = X.seedSize) ∧
      P.jointRandSeed ctx (tab P.shares parts) = .ok seed ∧ P.jointRands ctx seed = .ok jrs)

section
variable (W : P.WF abort) {ctx : Bytes} (hctx : ctx.length + 8 < 2 ^ 16)
include W hctx

omit W hctx in
theorem subHelperProofs_gen {E : Err → Prop} {M : ℕ} (hM : P.shares = M + 1) {sd : ℕ → Bytes}
    (hsd : ∀ i < M, Good E (P.helperProofsShare ctx (i + 1) (sd i)) fun v => v.length = P.flp.proofLen * P.proofs)
    {v : List F} (hv : v.length = P.flp.proofLen * P.proofs) :
    Good E (P.subHelperProofs ctx (tab M sd) v) fun r =>
      r = lead v (fun j => okVal (P.helperProofsShare ctx (j + 1) (sd j))) M ∧
      ∀ j < M, P.helperProofsShare ctx (j + 1) (sd j) =
          .ok (okVal (P.helperProofsShare ctx (j + 1) (sd j))) ∧
        (okVal (P.helperProofsShare ctx (j + 1) (sd j))).length = v.length := by
  unfold subHelperProofs
  rw [show P.shares - 1 = M by omega]
  set h := fun j => okVal (P.helperProofsShare ctx (j + 1) (sd j)) with hh
  refine Good.forFold_range M v _ (fun i r => r = lead v h i ∧
      ∀ j < i, P.helperProofsShare ctx (j + 1) (sd j) = .ok (h j) ∧ (h j).length = v.length)
    ⟨(lead_zero v h).symm, by omega⟩ ?_
  rintro i hi _ ⟨rfl, h2⟩
  rw [getI_tab hi]
  simp only [Except.ok_bind']
  refine (hsd i hi).bind fun p hp hl => ?_
  have hpi : h i = p := okVal_eq hp
  rw [← hpi] at hp hl ⊢
  rw [vecSub_lead (by rw [hl, hv])]
  refine Good.ok ⟨rfl, fun j hj => ?_⟩
  rcases Nat.lt_succ_iff_lt_or_eq.1 hj with h' | rfl
  · exact h2 j h'
  · exact ⟨hp, by rw [hl, hv]⟩

omit hctx in
theorem shardWithoutJointRand_gen {E : Err → Prop} (hj0 : P.flp.jointRandLen = 0) {meas : List F}
    (hmeas : meas.length = P.flp.measLen) {sd : ℕ → Bytes} {nonce : Bytes}
    (gM : ∀ j < P.shares - 1, Good E (P.helperMeasShare ctx (j + 1) (sd j)) fun v => v.length = P.flp.measLen)
    (gP : ∀ j < P.shares - 1, Good E (P.helperProofsShare ctx (j + 1) (sd j))
      fun v => v.length = P.flp.proofLen * P.proofs)
    (gR : Good E (P.proveRands ctx (sd (P.shares - 1))) fun v => v.length = P.flp.proveRandLen * P.proofs) :
    Good E (P.shardWithoutJointRand ctx meas (tab P.shares sd)) fun r =>
      ∃ ms ps prs π, P.Sharded ctx nonce meas r.1 r.2 ms ps (fun _ => none) prs [] π ∧
        r.2.drop 1 = tab (P.shares - 1) (fun j => .helper (sd j) none) ∧
        P.proveRands ctx (sd (P.shares - 1)) = .ok prs := by
  obtain ⟨M, hM⟩ : ∃ M, P.shares = M + 1 := ⟨P.shares - 1, by have := W.shares_ge; omega⟩
  have hM1 : P.shares - 1 = M := by omega
  unfold shardWithoutJointRand
  simp only [hM1]
  rw [front_tab (by omega)]
  simp only [Except.ok_bind']
  rw [front_tab (by omega)]
  simp only [Except.ok_bind']
  rw [getI_tab (by omega)]
  simp only [Except.ok_bind', add_zero]
  set hm := fun j => okVal (P.helperMeasShare ctx (j + 1) (sd j)) with hhm
  refine Good.bind (Good.forFold_range M meas _ (fun i r => r = lead meas hm i ∧
      ∀ j < i, P.helperMeasShare ctx (j + 1) (sd j) = .ok (hm j) ∧ (hm j).length = meas.length)
    ⟨(lead_zero meas hm).symm, by omega⟩ ?_) ?_
  · rintro i hi _ ⟨rfl, h2⟩
    rw [getI_tab hi]
    simp only [Except.ok_bind']
    refine (gM i (by omega)).bind fun p hp hl => ?_
    have hpi : hm i = p := okVal_eq hp
    rw [← hpi] at hp hl ⊢
    rw [vecSub_lead (by rw [hl, hmeas])]
    refine Good.ok ⟨rfl, fun j hj => ?_⟩
    rcases Nat.lt_succ_iff_lt_or_eq.1 hj with h' | rfl
    · exact h2 j h'
    · exact ⟨hp, by rw [hl, hmeas]⟩
  rintro _ - ⟨rfl, hmeasOk⟩
  refine (show Good E (P.proveRands ctx (sd M)) _ by rw [← hM1]; exact gR).bind fun prs hprsOk hprs => ?_
  set π := fun i => okVal (P.flp.prove meas (blk P.flp.proveRandLen prs i)
    (blk P.flp.jointRandLen ([] : List F) i)) with hπ
  have hblk0 : ∀ i, blk P.flp.jointRandLen ([] : List F) i = [] := by intro i; simp [blk]
  refine Good.bind (Good.forFold_range P.proofs _ _ (fun i r =>
      r = ((List.range i).flatMap π, prs.drop (P.flp.proveRandLen * i)) ∧
      ∀ j < i, P.flp.prove meas (blk P.flp.proveRandLen prs j)
        (blk P.flp.jointRandLen ([] : List F) j) = .ok (π j) ∧ (π j).length = P.flp.proofLen)
    ⟨by simp, by omega⟩ ?_) ?_
  · rintro i hi _ ⟨rfl, h2⟩
    dsimp only
    rw [front_blk (by rw [hprs]; exact mul_succ_le hi)]
    simp only [Except.ok_bind']
    obtain ⟨p, hp, hl⟩ := W.laws.prove _ _ _ hmeas (blk_length' hprs hi)
      (show (blk P.flp.jointRandLen ([] : List F) i).length = P.flp.jointRandLen by rw [hblk0, hj0]; rfl)
    have hpi : π i = p := okVal_eq hp
    rw [show P.flp.prove meas (blk P.flp.proveRandLen prs i) [] = .ok p by rw [← hblk0 i]; exact hp]
    simp only [Except.ok_bind']
    refine Good.ok ⟨by rw [flatMap_range_succ, hpi], fun j hj => ?_⟩
    rcases Nat.lt_succ_iff_lt_or_eq.1 hj with h' | rfl
    · exact h2 j h'
    · rw [hpi]; exact ⟨hp, hl⟩
  rintro _ - ⟨rfl, hproofOk⟩
  dsimp only
  have hπl := flatMap_range_length fun i hi => (hproofOk i hi).2
  refine (subHelperProofs_gen hM (fun i hi => gP i (by omega)) hπl).bind ?_
  rintro _ - ⟨rfl, hpsOk⟩
  rw [mapRes_range_tab (g := fun j => .helper (sd j) none) (by
    intro j hj; rw [getI_tab hj]; rfl)]
  simp only [Except.ok_bind']
  set hp := fun j => okVal (P.helperProofsShare ctx (j + 1) (sd j))
  refine Good.ok ⟨consFn (lead meas hm M) hm, consFn (lead ((List.range P.proofs).flatMap π) hp M) hp,
    prs, π, ?_, by simp, hprsOk⟩
  refine ⟨by simp [hM], ?_, ?_, hprs, by simp [hj0], hproofOk, ?_, .inl ⟨hj0, rfl, fun _ => rfl⟩⟩
  · rintro j hj
    cases j with
    | zero => exact ⟨_, rfl, rfl⟩
    | succ j =>
      refine ⟨.helper (sd j) none, by simp [tab_getElem? (show j < M by omega)], ?_⟩
      unfold expandInputShare
      rw [if_pos (by omega)]
      dsimp only
      rw [(hmeasOk j (by omega)).1]
      simp only [Except.ok_bind']
      rw [(hpsOk j (by omega)).1]
      rfl
  · exact isSum_lead hM fun i hi => (hmeasOk i hi).2
  · exact isSum_lead hM fun i hi => (hpsOk i hi).2

theorem shardWithoutJointRand_good (hj0 : P.flp.jointRandLen = 0) {meas : List F}
    (hmeas : meas.length = P.flp.measLen) {sd : ℕ → Bytes} {nonce : Bytes}
    (hsd : ∀ i < P.shares, (sd i).length = X.seedSize) :
    Good (Fuel X F) (P.shardWithoutJointRand ctx meas (tab P.shares sd)) fun r =>
      ∃ ms ps prs π, P.Sharded ctx nonce meas r.1 r.2 ms ps (fun _ => none) prs [] π ∧
        r.2.drop 1 = tab (P.shares - 1) (fun j => .helper (sd j) none) ∧
        P.proveRands ctx (sd (P.shares - 1)) = .ok prs :=
  have := W.shares_lt
  have := W.shares_ge
  shardWithoutJointRand_gen W hj0 hmeas
    (fun _ _ => helperMeasShare_good W hctx (by omega) (hsd _ (by omega)))
    (fun _ _ => helperProofsShare_good W hctx (by omega) (hsd _ (by omega)))
    (proveRands_good W hctx (hsd _ (by omega)))

theorem shardWithJointRand_gen {E : Err → Prop} (hj0 : 0 < P.flp.jointRandLen) {meas : List F}
    (hmeas : meas.length = P.flp.measLen) {sd : ℕ → Bytes} {nonce : Bytes}
    (hsd : ∀ i < P.shares + P.shares, (sd i).length = X.seedSize)
    (gM : ∀ j < P.shares - 1, Good E (P.helperMeasShare ctx (j + 1) (sd (2 * j)))
      fun v => v.length = P.flp.measLen)
    (gP : ∀ j < P.shares - 1, Good E (P.helperProofsShare ctx (j + 1) (sd (2 * j)))
      fun v => v.length = P.flp.proofLen * P.proofs)
    (gR : Good E (P.proveRands ctx (sd (2 * P.shares - 1))) fun v => v.length = P.flp.proveRandLen * P.proofs)
    (gJ : ∀ (ms : ℕ → List F) (parts : ℕ → Bytes) (seed : Bytes),
      Spec.IsSum (fun j : Fin P.shares => ms j) meas →
      (∀ j < P.shares - 1, P.helperMeasShare ctx (j + 1) (sd (2 * j)) = .ok (ms (j + 1))) →
      (∀ j < P.shares, P.jointRandPart ctx j (consFn (sd (2 * P.shares - 2)) (fun i => sd (2 * i + 1)) j) (ms j)
        nonce = .ok (parts j)) →
      P.jointRandSeed ctx (tab P.shares parts) = .ok seed → seed.length = X.seedSize →
      Good E (P.jointRands ctx seed) fun v => v.length = P.flp.jointRandLen * P.proofs) :
    Good E (P.shardWithJointRand ctx meas nonce (tab (P.shares + P.shares) sd)) fun r =>
      ∃ ms ps bl prs jrs π, P.Sharded ctx nonce meas r.1 r.2 ms ps bl prs jrs π ∧
        r.2.drop 1 = tab (P.shares - 1) (fun j => .helper (sd (2 * j)) (some (sd (2 * j + 1)))) ∧
        P.proveRands ctx (sd (2 * P.shares - 1)) = .ok prs ∧
        bl 0 = some (sd (2 * P.shares - 2)) := by
  obtain ⟨M, hM⟩ : ∃ M, P.shares = M + 1 := ⟨P.shares - 1, by have := W.shares_ge; omega⟩
  have hM1 : P.shares - 1 = M := by omega
  have hsl := W.shares_lt
  unfold shardWithJointRand
  simp only [hM1]
  rw [front_tab (by omega)]
  simp only [Except.ok_bind']
  rw [mapRes_range_tab (g := fun j => sd (2 * j)) (fun j hj => getI_tab (by omega)),
    mapRes_range_tab (g := fun j => sd (2 * j + 1)) (fun j hj => getI_tab (by omega))]
  simp only [Except.ok_bind']
  rw [front_tab (by omega)]
  simp only [Except.ok_bind']
  rw [getI_tab (by omega), getI_tab (by omega)]
  simp only [Except.ok_bind', add_zero]
  set hm := fun j => okVal (P.helperMeasShare ctx (j + 1) (sd (2 * j))) with hhm
  set hparts := fun j => okVal (P.jointRandPart ctx (j + 1) (sd (2 * j + 1)) (hm j) nonce) with hhp
  refine Good.bind (Good.forFold_range M _ _ (fun i r => r = (lead meas hm i, tab i hparts) ∧
      ∀ j < i, P.helperMeasShare ctx (j + 1) (sd (2 * j)) = .ok (hm j) ∧
        (hm j).length = meas.length ∧
        P.jointRandPart ctx (j + 1) (sd (2 * j + 1)) (hm j) nonce = .ok (hparts j) ∧
        (hparts j).length = X.seedSize)
    ⟨by rw [lead_zero]; rfl, by omega⟩ ?_) ?_
  · rintro i hi _ ⟨rfl, h2⟩
    rw [getI_tab hi]
    simp only [Except.ok_bind']
    refine (gM i (by omega)).bind fun p hp hl => ?_
    have hpi : hm i = p := okVal_eq hp
    rw [← hpi] at hp hl ⊢
    rw [vecSub_lead (by rw [hl, hmeas])]
    simp only [Except.ok_bind']
    rw [getI_tab hi]
    simp only [Except.ok_bind']
    obtain ⟨b, hb, hbl⟩ := jointRandPart_total W hctx (show i + 1 < 256 by omega)
      (hsd (2 * i + 1) (by omega)) (hm i) nonce
    have hbi : hparts i = b := okVal_eq hb
    rw [← hbi] at hb hbl
    rw [hb]
    simp only [Except.ok_bind']
    refine Good.ok ⟨by rw [tab_succ], fun j hj => ?_⟩
    rcases Nat.lt_succ_iff_lt_or_eq.1 hj with h' | rfl
    · exact h2 j h'
    · exact ⟨hp, by rw [hl, hmeas], hb, hbl⟩
  rintro _ - ⟨rfl, hmeasOk⟩
  dsimp only
  obtain ⟨b0, hb0, hbl0⟩ := jointRandPart_total W hctx (show 0 < 256 by omega)
    (hsd (M * 2) (by omega)) (lead meas hm M) nonce
  rw [hb0]
  simp only [Except.ok_bind']
  refine (show Good E (P.proveRands ctx (sd (M * 2 + 1))) _ by
    rw [show M * 2 + 1 = 2 * P.shares - 1 by omega]; exact gR).bind fun prs hprsOk hprs => ?_
  have hparts : b0 :: tab M hparts = tab P.shares (consFn b0 hparts) := by
    rw [hM, tab_succ']; rfl
  rw [hparts]
  obtain ⟨seed, hseed, hseedl⟩ := jointRandSeed_total W hctx (tab P.shares (consFn b0 _))
  rw [hseed]
  simp only [Except.ok_bind']
  refine (gJ (consFn (lead meas hm M) hm) _ seed (isSum_lead hM fun i hi => (hmeasOk i hi).2.1)
    (fun j hj => (hmeasOk j (by omega)).1) (fun j hj => ?_) hseed hseedl).bind fun jrs hjrsOk hjrs => ?_
  · cases j with
    | zero => rw [show 2 * P.shares - 2 = M * 2 by omega]; exact hb0
    | succ j => exact (hmeasOk j (by omega)).2.2.1
  set π := fun i => okVal (P.flp.prove meas (blk P.flp.proveRandLen prs i)
    (blk P.flp.jointRandLen jrs i)) with hπ
  refine Good.bind (Good.forFold_range P.proofs _ _ (fun i r =>
      r = ((List.range i).flatMap π, prs.drop (P.flp.proveRandLen * i),
        jrs.drop (P.flp.jointRandLen * i)) ∧
      ∀ j < i, P.flp.prove meas (blk P.flp.proveRandLen prs j)
        (blk P.flp.jointRandLen jrs j) = .ok (π j) ∧ (π j).length = P.flp.proofLen)
    ⟨by simp, by omega⟩ ?_) ?_
  · rintro i hi _ ⟨rfl, h2⟩
    dsimp only
    rw [front_blk (by rw [hprs]; exact mul_succ_le hi)]
    simp only [Except.ok_bind']
    rw [front_blk (by rw [hjrs]; exact mul_succ_le hi)]
    simp only [Except.ok_bind']
    obtain ⟨p, hp, hl⟩ := W.laws.prove _ _ _ hmeas (blk_length' hprs hi) (blk_length' hjrs hi)
    have hpi : π i = p := okVal_eq hp
    rw [hp]
    simp only [Except.ok_bind']
    refine Good.ok ⟨by rw [flatMap_range_succ, hpi], fun j hj => ?_⟩
    rcases Nat.lt_succ_iff_lt_or_eq.1 hj with h' | rfl
    · exact h2 j h'
    · rw [hpi]; exact ⟨hp, hl⟩
  rintro _ - ⟨rfl, hproofOk⟩
  dsimp only
  have hπl := flatMap_range_length fun i hi => (hproofOk i hi).2
  refine (subHelperProofs_gen hM (fun i hi => gP i (by omega)) hπl).bind ?_
  rintro _ - ⟨rfl, hpsOk⟩
  rw [mapRes_range_tab (g := fun j => .helper (sd (2 * j)) (some (sd (2 * j + 1)))) (by
    intro j hj; rw [getI_tab hj, getI_tab hj]; rfl)]
  simp only [Except.ok_bind']
  set hp := fun j => okVal (P.helperProofsShare ctx (j + 1) (sd (2 * j)))
  refine Good.ok ⟨consFn (lead meas hm M) hm, consFn (lead ((List.range P.proofs).flatMap π) hp M) hp,
    consFn (some (sd (M * 2))) fun j => some (sd (2 * j + 1)),
    prs, jrs, π, ?_, by simp, by rw [show 2 * P.shares - 1 = M * 2 + 1 by omega]; exact hprsOk,
    by rw [show 2 * P.shares - 2 = M * 2 by omega]; rfl⟩
  refine ⟨by simp [hM], ?_, ?_, hprs, hjrs, hproofOk, ?_, .inr ⟨hj0, consFn b0 _,
    consFn (sd (M * 2)) (fun j => sd (2 * j + 1)), seed, rfl, ?_, hseed, hjrsOk⟩⟩
  · rintro j hj
    cases j with
    | zero => exact ⟨_, rfl, rfl⟩
    | succ j =>
      refine ⟨.helper (sd (2 * j)) (some (sd (2 * j + 1))), by simp [tab_getElem? (show j < M by omega)], ?_⟩
      unfold expandInputShare
      rw [if_pos (by omega)]
      dsimp only
      rw [(hmeasOk j (by omega)).1]
      simp only [Except.ok_bind']
      rw [(hpsOk j (by omega)).1]
      rfl
  · exact isSum_lead hM fun i hi => (hmeasOk i hi).2.1
  · exact isSum_lead hM fun i hi => (hpsOk i hi).2
  · rintro j hj
    cases j with
    | zero => exact ⟨rfl, hsd _ (by omega), hb0, hbl0⟩
    | succ j =>
      have := hmeasOk j (by omega)
      exact ⟨rfl, hsd _ (by omega), this.2.2.1, this.2.2.2⟩

theorem shardWithJointRand_good (hj0 : 0 < P.flp.jointRandLen) {meas : List F}
    (hmeas : meas.length = P.flp.measLen) {sd : ℕ → Bytes} {nonce : Bytes}
    (hsd : ∀ i < P.shares + P.shares, (sd i).length = X.seedSize) :
    Good (Fuel X F) (P.shardWithJointRand ctx meas nonce (tab (P.shares + P.shares) sd)) fun r =>
      ∃ ms ps bl prs jrs π, P.Sharded ctx nonce meas r.1 r.2 ms ps bl prs jrs π ∧
        r.2.drop 1 = tab (P.shares - 1) (fun j => .helper (sd (2 * j)) (some (sd (2 * j + 1)))) ∧
        P.proveRands ctx (sd (2 * P.shares - 1)) = .ok prs ∧
        bl 0 = some (sd (2 * P.shares - 2)) :=
  have := W.shares_lt
  have := W.shares_ge
  shardWithJointRand_gen W hctx hj0 hmeas hsd
    (fun _ _ => helperMeasShare_good W hctx (by omega) (hsd _ (by omega)))
    (fun _ _ => helperProofsShare_good W hctx (by omega) (hsd _ (by omega)))
    (proveRands_good W hctx (hsd _ (by omega))) (fun _ _ _ _ _ _ _ h => jointRands_good W hctx h)

omit W hctx in
theorem chunks_length {rand : Bytes} {n l : ℕ} (h : rand.length = n * l) {i : ℕ} (hi : i < n) :
    (slice rand (i * l) (i * l + l)).length = l := by
  have : i * l + l ≤ n * l := by
    calc _ = (i + 1) * l := by ring
      _ ≤ _ := Nat.mul_le_mul_right _ hi
  rw [slice_length _ _ _ (by omega)]
  omega

theorem shard_good {m : Meas} {meas : List F} (he : P.flp.encode m = .ok meas)
    (hmeas : meas.length = P.flp.measLen) {nonce rand : Bytes} (hn : nonce.length = 16)
    (hr : rand.length = P.randSize) :
    Good (Fuel X F) (P.shard ctx m nonce rand) fun r =>
      ∃ ms ps bl prs jrs π, P.Sharded ctx nonce meas r.1 r.2 ms ps bl prs jrs π := by
  unfold shard
  rw [raiseIf_of_not (by simpa [NONCE_SIZE] using hn), raiseIf_of_not (by simpa using hr), he]
  simp only [Except.ok_bind']
  unfold randSize at hr
  have hc : chunks rand P.numSeeds X.seedSize =
      tab P.numSeeds fun i => slice rand (i * X.seedSize) (i * X.seedSize + X.seedSize) := rfl
  rw [hc]
  have hsd := fun i (hi : i < P.numSeeds) => chunks_length hr hi
  by_cases hj : P.flp.jointRandLen > 0
  · have hns : P.numSeeds = P.shares + P.shares := by unfold numSeeds; rw [if_pos hj]
    rw [if_pos hj]
    rw [hns] at hsd ⊢
    refine (shardWithJointRand_good W hctx hj hmeas hsd).mono ?_
    rintro r - ⟨ms, ps, bl, prs, jrs, π, h1, h2, h3, h4⟩
    exact ⟨ms, ps, bl, prs, jrs, π, h1⟩
  · have hns : P.numSeeds = P.shares := by unfold numSeeds; rw [if_neg hj]
    rw [if_neg hj]
    rw [hns] at hsd ⊢
    refine (shardWithoutJointRand_good W hctx (nonce := nonce) (by omega) hmeas hsd).mono ?_
    rintro r - ⟨ms, ps, prs, π, h1, h2, h3⟩
    exact ⟨ms, ps, fun _ => none, prs, [], π, h1⟩

end

theorem nextJointRand_eq {jrs : List F} (h : jrs.length = P.flp.jointRandLen * P.proofs) {i : ℕ}
    (hi : i < P.proofs) : P.nextJointRand (jrs.drop (P.flp.jointRandLen * i)) =
      .ok (blk P.flp.jointRandLen jrs i, jrs.drop (P.flp.jointRandLen * (i + 1))) := by
  unfold nextJointRand
  by_cases hj : P.flp.jointRandLen > 0
  · rw [if_pos hj, front_blk (by rw [h]; exact mul_succ_le hi)]
  · rw [if_neg hj, show P.flp.jointRandLen = 0 by omega]
    simp [blk]

theorem queryLoop_good {E : Err → Prop} {ms ps qrs jrs : List F}
    (hps : ps.length = P.flp.proofLen * P.proofs) (hqrs : qrs.length = P.flp.queryRandLen * P.proofs)
    (hjrs : jrs.length = P.flp.jointRandLen * P.proofs) {v : ℕ → List F}
    (hv : v = fun i => okVal (P.flp.query ms (blk P.flp.proofLen ps i) (blk P.flp.queryRandLen qrs i)
        (blk P.flp.jointRandLen jrs i) P.shares))
    (hq : ∀ i < P.proofs, Good E (P.flp.query ms (blk P.flp.proofLen ps i)
      (blk P.flp.queryRandLen qrs i) (blk P.flp.jointRandLen jrs i) P.shares) fun _ => True) :
    Good E (P.queryLoop ms ps qrs jrs) fun r => r = (List.range P.proofs).flatMap v ∧
      ∀ i < P.proofs, P.flp.query ms (blk P.flp.proofLen ps i) (blk P.flp.queryRandLen qrs i)
        (blk P.flp.jointRandLen jrs i) P.shares = .ok (v i) := by
  unfold queryLoop
  refine Good.bind (Good.forFold_range P.proofs _ _ (fun i r =>
    r = ((List.range i).flatMap v, ps.drop (P.flp.proofLen * i), qrs.drop (P.flp.queryRandLen * i),
      jrs.drop (P.flp.jointRandLen * i)) ∧
    ∀ k < i, P.flp.query ms (blk P.flp.proofLen ps k) (blk P.flp.queryRandLen qrs k)
        (blk P.flp.jointRandLen jrs k) P.shares = .ok (v k)) ⟨by simp, by omega⟩ ?_) ?_
  · rintro i hi _ ⟨rfl, h2⟩
    dsimp only
    rw [front_blk (by rw [hps]; exact mul_succ_le hi)]
    simp only [Except.ok_bind']
    rw [front_blk (by rw [hqrs]; exact mul_succ_le hi)]
    simp only [Except.ok_bind']
    rw [nextJointRand_eq hjrs hi]
    simp only [Except.ok_bind']
    refine (hq i hi).bind fun p hp _ => ?_
    have hpi : v i = p := by rw [hv]; exact okVal_eq hp
    refine Good.ok ⟨by rw [flatMap_range_succ, hpi], fun k hk => ?_⟩
    rcases Nat.lt_succ_iff_lt_or_eq.1 hk with h' | rfl
    · exact h2 k h'
    · rw [hpi]; exact hp
  · rintro _ - ⟨rfl, h2⟩
    exact Good.ok ⟨rfl, h2⟩

/-- The parts of the joint randomness in the verifier shares. -/
def partsOf (P : Prio3Of X F Meas Agg) (n : ℕ) (part : ℕ → Bytes) : List Bytes :=
  if P.flp.jointRandLen > 0 then tab n part else []

theorem decideLoop_ok {vs : List F} (hl : vs.length = P.flp.verifierLen * P.proofs) :
    P.decideLoop vs = .ok () ↔ ∀ i < P.proofs, P.flp.decide (blk P.flp.verifierLen vs i) = .ok true := by
  unfold decideLoop
  set f := fun (verifiers : List F) (_ : ℕ) => (do
    let (verifier, verifiers) ← front P.flp.verifierLen verifiers
    let ok ← P.flp.decide verifier
    raiseIf (ok = false) "proof verifier check failed"
    return verifiers : Res (List F)) with hf
  have key : ∀ n ≤ P.proofs, ∀ r, forFold (List.range n) vs f = .ok r ↔
      r = vs.drop (P.flp.verifierLen * n) ∧
        ∀ i < n, P.flp.decide (blk P.flp.verifierLen vs i) = .ok true := by
    intro n
    induction n with
    | zero => intro _ r; simp [eq_comm]
    | succ n ih =>
      intro hn r
      rw [List.range_succ, forFold_append, Except.bind_eq_ok]
      constructor
      · rintro ⟨s, hs, hr⟩
        obtain ⟨rfl, h2⟩ := (ih (by omega) s).1 hs
        rw [forFold_cons] at hr
        simp only [hf] at hr
        rw [front_blk (by rw [hl]; exact mul_succ_le hn)] at hr
        simp only [Except.ok_bind'] at hr
        obtain ⟨t, ht, hr⟩ := Except.bind_eq_ok.1 hr
        obtain ⟨b, hb, ht⟩ := Except.bind_eq_ok.1 ht
        obtain ⟨u, hu, ht⟩ := Except.bind_eq_ok.1 ht
        cases ht; cases hr
        refine ⟨rfl, fun i hi => ?_⟩
        rcases Nat.lt_succ_iff_lt_or_eq.1 hi with h' | rfl
        · exact h2 i h'
        · cases b
          · simp [raiseIf] at hu
          · exact hb
      · rintro ⟨rfl, h2⟩
        refine ⟨_, (ih (by omega) _).2 ⟨rfl, fun i hi => h2 i (by omega)⟩, ?_⟩
        rw [forFold_cons]
        simp only [hf]
        rw [front_blk (by rw [hl]; exact mul_succ_le hn)]
        simp only [Except.ok_bind']
        rw [h2 n (by omega)]
        rfl
  rw [Except.bind_eq_ok]
  constructor
  · rintro ⟨r, hr, -⟩
    exact ((key _ le_rfl r).1 hr).2
  · intro h
    exact ⟨_, (key _ le_rfl _).2 ⟨rfl, h⟩, rfl⟩

/-- The sums computed by `verifier_shares_to_message`. -/
theorem sharesToMessage_eq {ctx : Bytes} {N : ℕ} {w : ℕ → List F} {part : ℕ → Option Bytes}
    {pb : ℕ → Bytes}
    (hw : ∀ j < N, (w j).length = P.flp.verifierLen * P.proofs)
    (hp : 0 < P.flp.jointRandLen → ∀ j < N, part j = some (pb j)) :
    P.sharesToMessage ctx () (tab N fun j => (w j, part j)) = (do
      P.decideLoop (tab (P.flp.verifierLen * P.proofs) fun k => ∑ j ∈ range N, coef (w j) k)
      if P.flp.jointRandLen > 0 then do
        let seed ← P.jointRandSeed ctx (tab N pb)
        return some seed
      else return none) := by
  unfold sharesToMessage
  set n := P.flp.verifierLen * P.proofs with hn
  have key : ∀ M ≤ N, forFold (tab M fun j => (w j, part j)) (fieldZeros F n, ([] : List Bytes))
      (fun (x : List F × List Bytes) (y : List F × Option Bytes) => do
        let verifiers ← vecAdd x.1 y.1
        let jointRandParts ← P.appendPart x.2 y.2
        return (verifiers, jointRandParts)) =
      .ok (tab n fun k => ∑ j ∈ range M, coef (w j) k, P.partsOf M pb) := by
    intro M
    induction M with
    | zero =>
      intro _
      have : fieldZeros F n = tab n fun _ => 0 := by
        simp [fieldZeros, tab, List.map_const']
      simp [tab_zero, this, partsOf]
    | succ M ih =>
      intro hM
      rw [tab_succ, forFold_append, ih (by omega)]
      simp only [Except.ok_bind']
      rw [forFold_cons]
      dsimp only
      rw [eq_tab (hw M (by omega)), vecAdd_tab]
      simp only [Except.ok_bind']
      have : P.appendPart (P.partsOf M pb) (part M) = .ok (P.partsOf (M + 1) pb) := by
        unfold appendPart partsOf
        by_cases hj : P.flp.jointRandLen > 0
        · simp only [if_pos hj, hp hj M (by omega), tab_succ]
        · simp only [if_neg hj]
      rw [this]
      simp only [Except.ok_bind', forFold_nil, Except.pure_eq']
      congr 2
      apply tab_congr
      intro k hk
      rw [sum_range_succ]
  have := key N le_rfl
  simp only at this ⊢
  rw [this]
  simp only [Except.ok_bind', partsOf]
  by_cases hj : P.flp.jointRandLen > 0
  · simp only [if_pos hj]
  · simp only [if_neg hj]

/-- What `verify_init` returns for aggregator `j`. -/
structure Verified (P : Prio3Of X F Meas Agg) (ctx nonce vk : Bytes) (pub : Option (List Bytes))
    (ish : List (Prio3InputShare F)) (os : ℕ → List F) (seed : Option Bytes)
    (w : ℕ → List F) (part : ℕ → Option Bytes) : Prop where
  init : ∀ j < P.shares, ∃ s, ish[j]? = some s ∧
    P.verifyInit vk ctx j () nonce pub s = .ok ((os j, seed), (w j, part j))
  msg : P.sharesToMessage ctx () (tab P.shares fun j => (w j, part j)) = .ok seed

section
variable (W : P.WF abort) {ctx : Bytes} (hctx : ctx.length + 8 < 2 ^ 16)
include W hctx

theorem verify_good {nonce vk : Bytes} (hvk : vk.length = X.seedSize) {meas : List F}
    (hmeas : meas.length = P.flp.measLen)
    (hacc : Spec.FlpComplete P.flp meas)
    {pub : Option (List Bytes)} {ish : List (Prio3InputShare F)} {ms ps : ℕ → List F}
    {bl : ℕ → Option Bytes} {prs jrs : List F} {π : ℕ → List F}
    (S : P.Sharded ctx nonce meas pub ish ms ps bl prs jrs π)
    {os : ℕ → List F} (hos : ∀ j < P.shares, P.flp.truncate (ms j) = .ok (os j)) :
    (∃ seed w part, P.Verified ctx nonce vk pub ish os seed w part) ∨
    ∃ e, Spec.Of.HonestFailure P abort vk ctx [nonce] e ∧ ∃ s, ish[0]? = some s ∧
      P.verifyInit vk ctx 0 () nonce pub s = .error e := by
  have hsh := W.shares_ge
  -- the joint randomness is the one the client used
  obtain ⟨seed, part, pb, hjr, hpb, hmsg⟩ : ∃ (seed : Option Bytes) (part : ℕ → Option Bytes) (pb : ℕ → Bytes),
      (∀ j < P.shares, P.verifyJointRand ctx j nonce pub (ms j) (bl j) = .ok (jrs, seed, part j)) ∧
      (0 < P.flp.jointRandLen → ∀ j < P.shares, part j = some (pb j)) ∧
      (if P.flp.jointRandLen > 0 then do
        let seed ← P.jointRandSeed ctx (tab P.shares pb)
        return some seed
      else return none) = .ok seed := by
    rcases S.joint with ⟨h0, rfl, hbl⟩ | ⟨h0, parts, b, seed, rfl, hb, hs1, hs2⟩
    · refine ⟨none, fun _ => none, fun _ => [], fun j hj => ?_, fun h => by omega, ?_⟩
      · unfold verifyJointRand
        rw [if_neg (by omega)]
        have : jrs = [] := List.length_eq_zero_iff.1 (by rw [S.jrsLen, h0]; simp)
        rw [this]
      · rw [if_neg (by omega)]; rfl
    · refine ⟨some seed, fun j => some (parts j), parts, fun j hj => ?_, fun _ _ _ => rfl, ?_⟩
      · obtain ⟨h1, h2, h3, h4⟩ := hb j hj
        unfold verifyJointRand
        rw [if_pos h0, h1]
        dsimp only
        rw [h3]
        simp only [Except.ok_bind']
        rw [setI_self (tab_getElem? hj)]
        simp only [Except.ok_bind']
        rw [hs1]
        simp only [Except.ok_bind']
        rw [hs2]
        rfl
      · rw [if_pos h0, hs1]; rfl
  -- `verify_init` is determined by the query randomness and the query loop
  have hinit : ∀ j < P.shares, ∃ s, ish[j]? = some s ∧ P.verifyInit vk ctx j () nonce pub s = (do
      let queryRands ← P.queryRands vk ctx nonce
      let verifiersShare ← P.queryLoop (ms j) (ps j) queryRands jrs
      return ((os j, seed), (verifiersShare, part j))) := by
    intro j hj
    obtain ⟨s, hs1, hs2⟩ := S.expand j hj
    refine ⟨s, hs1, ?_⟩
    unfold verifyInit
    rw [hs2]
    simp only [Except.ok_bind']
    rw [hos j hj]
    simp only [Except.ok_bind']
    rw [hjr j hj]
    rfl
  rcases (queryRands_good W hctx (nonce := nonce) hvk).cases with ⟨qrs, hq1, hqrs⟩ | ⟨e, he1, he2⟩
  swap
  · refine .inr ⟨e, .inl he2, ?_⟩
    obtain ⟨s, hs1, hs2⟩ := hinit 0 (by omega)
    exact ⟨s, hs1, by rw [hs2, he1]; rfl⟩
  have hps : ∀ j < P.shares, (ps j).length = P.flp.proofLen * P.proofs := by
    intro j hj
    rw [S.proofSum.1 ⟨j, hj⟩]
    exact flatMap_range_length fun i hi => (S.prove i hi).2
  -- each proof
  have hone : ∀ i < P.proofs, (∃ e, abort (blk P.flp.queryRandLen qrs i) = some e ∧
        ∀ j < P.shares, P.flp.query (ms j) (blk P.flp.proofLen (ps j) i)
        (blk P.flp.queryRandLen qrs i) (blk P.flp.jointRandLen jrs i) P.shares = .error e) ∨
      (abort (blk P.flp.queryRandLen qrs i) = none ∧
      ∃ (vs : ℕ → List F) (v : List F), (∀ j < P.shares, P.flp.query (ms j) (blk P.flp.proofLen (ps j) i)
        (blk P.flp.queryRandLen qrs i) (blk P.flp.jointRandLen jrs i) P.shares = .ok (vs j)) ∧
        Spec.IsSum (fun j : Fin P.shares => vs j) v ∧ v.length = P.flp.verifierLen ∧
        P.flp.decide v = .ok true) := by
    intro i hi
    have hsum : Spec.IsSum (fun j : Fin P.shares => blk P.flp.proofLen (ps j) i) (π i) := by
      have := isSum_blk S.proofSum P.flp.proofLen i
      rwa [blk_flatMap (fun i hi => (S.prove i hi).2) hi] at this
    rcases W.laws.query P.shares _ _ _ _ _ _ (by omega) W.modulus S.measSum hsum hmeas (S.prove i hi).2
      (blk_length' hqrs hi) (blk_length' S.jrsLen hi) with ⟨e, h1, -, h2⟩ | ⟨h0, v, vs, h1, h2, h3, h4⟩
    · exact .inl ⟨e, h1, fun j hj => h2 ⟨j, hj⟩⟩
    · refine .inr ⟨h0, fun j => if h : j < P.shares then vs ⟨j, h⟩ else [], v, fun j hj => ?_, ?_, h4,
        hacc _ _ _ _ _ (blk_length' S.prsLen hi) (blk_length' hqrs hi) (blk_length' S.jrsLen hi) (S.prove i hi).1 h1⟩
      · simp only [dif_pos hj]; exact h2 ⟨j, hj⟩
      · have : (fun j : Fin P.shares => if h : (j : ℕ) < P.shares then vs ⟨j, h⟩ else []) = vs := by
          funext j; simp
        rw [this]; exact h3
  by_cases hbad : ∃ i < P.proofs, ∃ e, abort (blk P.flp.queryRandLen qrs i) = some e
  · -- the FLP aborts
    obtain ⟨i, hi, e, hbt⟩ := hbad
    obtain ⟨s, hs1, hs2⟩ := hinit 0 (by omega)
    have hg := queryLoop_good (P := P)
      (E := fun e => ∃ i < P.proofs, abort (blk P.flp.queryRandLen qrs i) = some e) (hps 0 (by omega)) hqrs S.jrsLen rfl
      (ms := ms 0) fun k hk => by
        rcases hone k hk with ⟨e, he, h⟩ | ⟨-, vs, v, h, -⟩
        · rw [h 0 (by omega)]; exact Good.error ⟨k, hk, he⟩
        · rw [h 0 (by omega)]; exact Good.ok trivial
    rcases hg.cases with ⟨r, hr, -, hall⟩ | ⟨e', he, k, hk, hab⟩
    · have h1 := hall i hi
      rcases hone i hi with ⟨e', he, h⟩ | ⟨h, -⟩
      · rw [h 0 (by omega)] at h1; cases h1
      · rw [h] at hbt; cases hbt
    · refine .inr ⟨e', .inr ⟨nonce, by simp, qrs, (queryRands_ok.1 hq1).2.2, k, hk, hab⟩, s, hs1, ?_⟩
      rw [hs2, hq1]
      simp only [Except.ok_bind']
      rw [he]; rfl
  · push Not at hbad
    have hone' : ∀ i, ∃ (vs : ℕ → List F) (v : List F), i < P.proofs → (∀ j < P.shares, P.flp.query (ms j) (blk P.flp.proofLen (ps j) i)
        (blk P.flp.queryRandLen qrs i) (blk P.flp.jointRandLen jrs i) P.shares = .ok (vs j)) ∧
        Spec.IsSum (fun j : Fin P.shares => vs j) v ∧ v.length = P.flp.verifierLen ∧
        P.flp.decide v = .ok true := by
      intro i
      by_cases hi : i < P.proofs
      · rcases hone i hi with ⟨e, hbt, h⟩ | ⟨-, vs, v, h⟩
        · exact absurd hbt (hbad i hi e)
        · exact ⟨vs, v, fun _ => h⟩
      · exact ⟨fun _ => [], [], fun h => absurd h hi⟩
    choose vs v hv using hone'
    have hvl : ∀ i < P.proofs, ∀ j < P.shares, (vs i j).length = P.flp.verifierLen := by
      intro i hi j hj
      rw [(hv i hi).2.1.1 ⟨j, hj⟩, (hv i hi).2.2.1]
    set w := fun j => (List.range P.proofs).flatMap fun i => vs i j with hw
    have hwl : ∀ j < P.shares, (w j).length = P.flp.verifierLen * P.proofs :=
      fun j hj => flatMap_range_length fun i hi => hvl i hi j hj
    refine .inl ⟨seed, w, part, ⟨fun j hj => ?_, ?_⟩⟩
    · obtain ⟨s, hs1, hs2⟩ := hinit j hj
      refine ⟨s, hs1, ?_⟩
      rw [hs2, hq1]
      simp only [Except.ok_bind']
      have hg := queryLoop_good (P := P) (E := fun _ => False) (hps j hj) hqrs S.jrsLen rfl
        (ms := ms j) fun k hk => by
          rw [(hv k hk).1 j hj]; exact Good.ok trivial
      rcases hg.cases with ⟨r, hr, rfl, hall⟩ | ⟨e, he, h⟩
      · rw [hr]
        simp only [Except.ok_bind', hw]
        congr 3
        apply List.flatMap_congr
        intro i hi
        exact okVal_eq ((hv i (by simpa using hi)).1 j hj)
      · exact h.elim
    · rw [sharesToMessage_eq hwl hpb]
      rw [(decideLoop_ok (by simp)).2]
      · simpa using hmsg
      · intro i hi
        have h1 := isSum_blk (isSum_range hwl) P.flp.verifierLen i
        have h2 : (fun j : Fin P.shares => blk P.flp.verifierLen (w j) i) = fun j : Fin P.shares => vs i j := by
          funext j
          exact blk_flatMap (fun i hi => hvl i hi j j.2) hi
        rw [h2] at h1
        rw [IsSum.unique h1 (hv i hi).2.1 (by
          rw [← (hv i hi).2.1.1 ⟨0, by omega⟩, ← h1.1 ⟨0, by omega⟩])]
        exact (hv i hi).2.2.2

end
/-- The aggregate shares `A j` have the right length and sum to `T`. -/
def Totals (P : Prio3Of X F Meas Agg) (A : ℕ → List F) (T : ℕ → F) : Prop :=
  (∀ j < P.shares, (A j).length = P.flp.outputLen) ∧
    ∀ k < P.flp.outputLen, ∑ j ∈ range P.shares, coef (A j) k = T k

/-- One of the last steps of a report: `agg_update` for each Aggregator. -/
theorem update_loop {ctx : Bytes} {A os : ℕ → List F} {seed : Option Bytes}
    (hA : ∀ j < P.shares, (A j).length = P.flp.outputLen)
    (ho : ∀ j < P.shares, (os j).length = P.flp.outputLen) :
    (forFold (List.range P.vdaf.shares) (tab P.shares A) fun aggShares j => do
      let s ← getI (tab P.shares fun j => (os j, seed)) j
      let outShare ← P.vdaf.verifyNextOut ctx s seed
      let a ← getI aggShares j
      let a ← P.vdaf.aggUpdate () a outShare
      setI aggShares j a) = .ok (tab P.shares fun j => addL P.flp.outputLen (A j) (os j)) := by
  have key : ∀ n ≤ P.shares, (forFold (List.range n) (tab P.shares A) fun aggShares j => do
      let s ← getI (tab P.shares fun j => (os j, seed)) j
      let outShare ← P.vdaf.verifyNextOut ctx s seed
      let a ← getI aggShares j
      let a ← P.vdaf.aggUpdate () a outShare
      setI aggShares j a) =
      .ok (tab P.shares fun j => if j < n then addL P.flp.outputLen (A j) (os j) else A j) := by
    intro n
    induction n with
    | zero => intro _; simp
    | succ n ih =>
      intro hn
      rw [List.range_succ, forFold_append, ih (by omega)]
      simp only [Except.ok_bind', forFold_cons, forFold_nil]
      rw [getI_tab (by omega)]
      simp only [Except.ok_bind']
      have : P.vdaf.verifyNextOut ctx (os n, seed) seed = .ok (os n) := by
        simp [VdafImpl.verifyNextOut, vdaf, verifyNext, raiseIf]
      rw [this]
      simp only [Except.ok_bind']
      rw [getI_tab (by omega)]
      simp only [Except.ok_bind', lt_irrefl, if_false]
      have : P.vdaf.aggUpdate () (A n) (os n) = .ok (addL P.flp.outputLen (A n) (os n)) :=
        vecAdd_addL (hA n (by omega)) (ho n (by omega))
      rw [this]
      simp only [Except.ok_bind']
      rw [setI_tab (by omega)]
      simp only [Except.ok_bind']
      congr 1
      apply tab_congr
      intro j hj
      by_cases hjn : j = n
      · subst hjn; simp
      · rw [Function.update_of_ne hjn]
        by_cases h1 : j < n
        · rw [if_pos h1, if_pos (by omega)]
        · rw [if_neg h1, if_neg (by omega)]
  rw [show P.vdaf.shares = P.shares from rfl, key _ le_rfl]
  congr 1
  apply tab_congr
  intro j hj
  rw [if_pos hj]

theorem Totals.add {A os : ℕ → List F} {T : ℕ → F} {o : List F} (h : P.Totals A T)
    (hs : Spec.IsSum (fun j : Fin P.shares => os j) o) :
    P.Totals (fun j => addL P.flp.outputLen (A j) (os j)) fun k => T k + coef o k := by
  refine ⟨fun j hj => by simp [addL], fun k hk => ?_⟩
  have h1 := (isSum_iff.1 hs).2 k
  rw [Fin.sum_univ_eq_sum_range fun j => coef (os j) k] at h1
  simp only [addL, coef_tab, if_pos hk]
  rw [sum_add_distrib, h.2 k hk, h1]

section
variable (W : P.WF abort) {ctx : Bytes} (hctx : ctx.length + 8 < 2 ^ 16)
include W hctx

theorem runVerify_good {valid : Meas → Prop} {o' : Meas → ℕ → F} (H : FlpFacts P.flp valid o') {vk : Bytes}
    (hvk : vk.length = X.seedSize) {m : Meas} {meas o : List F}
    (he : P.flp.encode m = .ok meas) (hmeas : meas.length = P.flp.measLen)
    (ho : P.flp.truncate meas = .ok o)
    (hacc : Spec.FlpComplete P.flp meas)
    {nonce rand : Bytes}
    (hn : nonce.length = 16) (hr : rand.length = P.randSize) :
    Good (Spec.Of.HonestFailure P abort vk ctx [nonce]) (P.vdaf.runVerify vk () ctx m nonce rand) fun r =>
      ∃ (os : ℕ → List F) (seed : Option Bytes), r = (tab P.shares fun j => (os j, seed), seed) ∧
        Spec.IsSum (fun j : Fin P.shares => os j) o ∧ o.length = P.flp.outputLen := by
  have hsh := W.shares_ge
  unfold VdafImpl.runVerify
  refine Good.bind ((shard_good W hctx he hmeas hn hr).weaken fun e h => .inl h) ?_
  rintro ⟨pub, ish⟩ - ⟨ms, ps, bl, prs, jrs, π, S⟩
  dsimp only at S ⊢
  obtain ⟨os', o', h1, h2, h3, h4⟩ := H.trunc _ _ S.measSum hmeas
  rw [ho] at h1; cases h1
  set os : ℕ → List F := fun j => if h : j < P.shares then os' ⟨j, h⟩ else [] with hos
  have hos' : ∀ j < P.shares, P.flp.truncate (ms j) = .ok (os j) := by
    intro j hj; simp only [hos, dif_pos hj]; exact h2 ⟨j, hj⟩
  have hsum : Spec.IsSum (fun j : Fin P.shares => os j) o := by
    have : (fun j : Fin P.shares => os j) = os' := by funext j; simp [hos]
    rw [this]; exact h3
  rcases verify_good W hctx hvk hmeas hacc S hos' with ⟨seed, w, part, V⟩ | ⟨e, he1, he2⟩
  · have hmap : mapRes (fun j => do
        let inputShare ← getI ish j
        P.vdaf.verifyInit vk ctx j () nonce pub inputShare) (List.range P.vdaf.shares) =
        .ok (tab P.shares fun j => ((os j, seed), (w j, part j))) := by
      apply mapRes_range_tab
      intro j hj
      obtain ⟨s, hs1, hs2⟩ := V.init j hj
      rw [getI_of_some hs1]
      exact hs2
    rw [hmap]
    simp only [Except.ok_bind']
    have h0 : List.range (P.vdaf.rounds - 1) = [] := rfl
    have e1 : (tab P.shares fun j => ((os j, seed), (w j, part j))).map Prod.fst =
        tab P.shares fun j => (os j, seed) := by simp [tab, Function.comp_def]
    have e2 : (tab P.shares fun j => ((os j, seed), (w j, part j))).map Prod.snd =
        tab P.shares fun j => (w j, part j) := by simp [tab, Function.comp_def]
    rw [h0, forFold_nil, e1, e2]
    simp only [Except.ok_bind']
    have : P.vdaf.sharesToMessage ctx () (tab P.shares fun j => (w j, part j)) = .ok seed := V.msg
    rw [this]
    exact Good.ok ⟨os, seed, rfl, hsum, h4⟩
  · have : mapRes (fun j => do
        let inputShare ← getI ish j
        P.vdaf.verifyInit vk ctx j () nonce pub inputShare) (List.range P.vdaf.shares) =
        .error e := by
      apply mapRes_first_error (a := 0)
      · have : 0 < P.vdaf.shares := show 0 < P.shares by omega
        rw [List.head?_range]; simp; omega
      · obtain ⟨s, hs1, hs2⟩ := he2
        rw [getI_of_some hs1]
        exact hs2
    rw [this]
    exact Good.error he1

theorem runVdaf_gen {valid : Meas → Prop} {o : Meas → ℕ → F} (H : FlpFacts P.flp valid o) {vk : Bytes}
    (hvk : vk.length = X.seedSize) {ms : List (Meas × Bytes × Bytes)}
    (hms : ∀ m ∈ ms, valid m.1 ∧ m.2.1.length = 16 ∧ m.2.2.length = P.randSize) {Q : Agg → Prop}
    (hdec : ∃ R, P.flp.decode (tab P.flp.outputLen fun k => (ms.map fun m => o m.1 k).sum) ms.length = .ok R ∧
      Q R) :
    Good (Spec.Of.HonestFailure P abort vk ctx (ms.map fun m => m.2.1)) (runVdaf P.vdaf vk () ctx ms) Q := by
  unfold runVdaf
  rw [raiseIf_of_not (show ¬ (vk.length ≠ P.vdaf.verifyKeySize) from fun h => h hvk)]
  simp only [Except.ok_bind']
  have hinit : mapRes (fun _ => P.vdaf.aggInit ()) (List.range P.vdaf.shares) =
      .ok (tab P.shares fun _ => fieldZeros F P.flp.outputLen) :=
    mapRes_range_tab fun j _ => rfl
  rw [hinit]
  simp only [Except.ok_bind']
  have hloop : ∀ (l : List (Meas × Bytes × Bytes)) (A : ℕ → List F) (T : ℕ → F),
      l ⊆ ms → (∀ m ∈ l, valid m.1 ∧ m.2.1.length = 16 ∧ m.2.2.length = P.randSize) → P.Totals A T →
      Good (Spec.Of.HonestFailure P abort vk ctx (ms.map fun m => m.2.1)) (forFold l (tab P.shares A) fun aggShares (m, nonce, rand) =>
        P.vdaf.runReport vk () ctx aggShares m nonce rand) fun r =>
        ∃ A', r = tab P.shares A' ∧
          P.Totals A' fun k => T k + (l.map fun m => o m.1 k).sum := by
    intro l
    induction l with
    | nil =>
      intro A T _ _ hA
      exact Good.ok ⟨A, rfl, by simpa using hA⟩
    | cons m l ih =>
      intro A T hsub hl hA
      rw [forFold_cons]
      obtain ⟨m, nonce, rand⟩ := m
      obtain ⟨hv, hn, hr⟩ := hl (m, nonce, rand) (by simp)
      dsimp only at hv hn hr ⊢
      obtain ⟨meas, he, hmeas, ho, hacc⟩ := H.enc m hv
      refine Good.bind (Q := fun r => ∃ A', r = tab P.shares A' ∧
          P.Totals A' fun k => T k + o m k) ?_ ?_
      · unfold VdafImpl.runReport
        refine ((runVerify_good W hctx H hvk he hmeas ho hacc hn hr).weaken ?_).bind ?_
        · rintro e (h | ⟨n, hn, h'⟩)
          · exact .inl h
          · rw [List.mem_singleton.1 hn] at h'
            exact .inr ⟨nonce, List.mem_map.2 ⟨_, hsub (List.mem_cons_self ..), rfl⟩, h'⟩
        rintro _ - ⟨os, seed, rfl, hsum, hol⟩
        dsimp only
        rw [update_loop hA.1 (fun j hj => by rw [← hol]; exact hsum.1 ⟨j, hj⟩)]
        refine Good.ok ⟨_, rfl, ?_⟩
        have := hA.add hsum
        refine ⟨this.1, fun k hk => ?_⟩
        rw [this.2 k hk]
        dsimp only
        rw [coef_tab, if_pos hk]
      · rintro _ - ⟨A', rfl, hA'⟩
        refine (ih A' _ (fun m hm => hsub (by simp [hm])) (fun m hm => hl m (by simp [hm])) hA').mono ?_
        rintro _ - ⟨A'', rfl, hA''⟩
        refine ⟨A'', rfl, hA''.1, fun k hk => ?_⟩
        rw [hA''.2 k hk]
        simp only [List.map_cons, List.sum_cons]
        ring
  have hz : P.Totals (fun _ => fieldZeros F P.flp.outputLen) fun _ => (0 : F) := by
    refine ⟨fun j _ => by simp [fieldZeros], fun k hk => ?_⟩
    apply sum_eq_zero
    intro j _
    rw [coef_of_lt (by simpa [fieldZeros] using hk)]
    simp [fieldZeros]
  refine (hloop ms _ _ (List.Subset.refl _) hms hz).bind ?_
  rintro _ - ⟨A, rfl, hA1, hA2⟩
  show Good (Spec.Of.HonestFailure P abort vk ctx (ms.map fun m => m.2.1)) (P.unshard () (tab P.shares A) ms.length) _
  unfold unshard merge aggInit
  simp only [Except.ok_bind']
  have hzt : fieldZeros F P.flp.outputLen = tab P.flp.outputLen fun _ => 0 := by
    simp [fieldZeros, tab, List.map_const']
  have hcol : ∀ k, colsum (tab P.shares A) k = ∑ j ∈ range P.shares, coef (A j) k := by
    intro k
    unfold colsum tab
    rw [List.map_map]
    exact list_sum_range _ _
  rw [hzt, vecAdd_fold _ (by
    intro v hv
    simp only [tab, List.mem_map, List.mem_range] at hv
    obtain ⟨j, hj, rfl⟩ := hv
    exact hA1 j hj)]
  simp only [Except.ok_bind']
  have htot : (tab P.flp.outputLen fun j => (0 : F) + colsum (tab P.shares A) j) =
      tab P.flp.outputLen fun k => (ms.map fun m => o m.1 k).sum := by
    apply tab_congr
    intro k hk
    rw [hcol, hA2 k hk]
    dsimp only
    rw [zero_add, zero_add]
  rw [htot]
  obtain ⟨R, h1, h2⟩ := hdec
  rw [h1]
  exact Good.ok h2

end

end Prio3Of
end Vdaf
