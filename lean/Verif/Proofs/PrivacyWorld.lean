import Verif.Proofs.Prio3Verify
import Verif.Proofs.Prio3Inst
import Verif.Proofs.Drivers
import Verif.Spec.Privacy

/-! What happens when Prio3 processes one report, in terms of the values derived. -/

set_option linter.unusedSectionVars false

namespace Vdaf
open Finset

namespace Prio3
variable {X : Xof} {F : Type} [NttField F] {Meas Agg : Type} {P : Prio3 X F Meas Agg}

/-- The joint randomness derived from the public share: the corrected seed, the parts, and the joint randomness. -/
def JointOf (P : Prio3 X F Meas Agg) (ctx : Bytes) (pub : Option (List Bytes)) (seed : Option Bytes)
    (part : ℕ → Option Bytes) (jrs : List F) : Prop :=
  (P.flp.jointRandLen = 0 ∧ pub = none ∧ seed = none ∧ (∀ j < P.shares, part j = none) ∧ jrs = []) ∨
  (0 < P.flp.jointRandLen ∧ ∃ parts s, pub = some (tab P.shares parts) ∧ seed = some s ∧
    (∀ j < P.shares, part j = some (parts j)) ∧ P.jointRandSeed ctx (tab P.shares parts) = .ok s ∧
    P.jointRands ctx s = .ok jrs)

theorem JointOf.unique {ctx : Bytes} {pub : Option (List Bytes)} {seed seed' : Option Bytes}
    {part part' : ℕ → Option Bytes} {jrs jrs' : List F} (h : P.JointOf ctx pub seed part jrs)
    (h' : P.JointOf ctx pub seed' part' jrs') :
    seed = seed' ∧ (∀ j < P.shares, part j = part' j) ∧ jrs = jrs' := by
  rcases h with ⟨h0, rfl, rfl, h1, rfl⟩ | ⟨h0, parts, s, rfl, rfl, h1, h2, h3⟩
  · rcases h' with ⟨-, -, rfl, h1', rfl⟩ | ⟨h0', -⟩
    · exact ⟨rfl, fun j hj => (h1 j hj).trans (h1' j hj).symm, rfl⟩
    · omega
  · rcases h' with ⟨h0', -⟩ | ⟨-, parts', s', e, rfl, h1', h2', h3'⟩
    · omega
    · have e := Option.some.inj e
      rw [← e, h2] at h2'
      cases h2'
      rw [h3] at h3'
      cases h3'
      refine ⟨rfl, fun j hj => ?_, rfl⟩
      rw [h1 j hj, h1' j hj, ← tab_getElem? hj, e, tab_getElem? hj]

theorem Sharded.jointOf {ctx nonce : Bytes} {meas : List F} {pub : Option (List Bytes)}
    {ish : List (Prio3InputShare F)} {ms ps : ℕ → List F} {bl : ℕ → Option Bytes} {prs jrs : List F}
    {π : ℕ → List F} (S : P.Sharded ctx nonce meas pub ish ms ps bl prs jrs π) :
    ∃ seed part, P.JointOf ctx pub seed part jrs ∧
      ∀ j < P.shares, P.verifyJointRand ctx j nonce pub (ms j) (bl j) = .ok (jrs, seed, part j) := by
  rcases S.joint with ⟨h0, rfl, hbl⟩ | ⟨h0, parts, b, seed, rfl, hb, hs1, hs2⟩
  · have hj : jrs = [] := List.length_eq_zero_iff.1 (by rw [S.jrsLen, h0]; simp)
    refine ⟨none, fun _ => none, .inl ⟨h0, rfl, rfl, fun _ _ => rfl, hj⟩, fun j _ => ?_⟩
    unfold verifyJointRand
    rw [if_neg (by omega), hj]
  · refine ⟨some seed, fun j => some (parts j), .inr ⟨h0, parts, seed, rfl, rfl, fun _ _ => rfl, hs1, hs2⟩,
      fun j hj => ?_⟩
    obtain ⟨h1, h2, h3, h4⟩ := hb j hj
    unfold verifyJointRand
    rw [if_pos h0, h1]
    dsimp only
    rw [h3]
    simp only [Except.ok_bind']
    rw [setI_self (tab_getElem? hj)]
    simp only [Except.ok_bind']
    rw [hs1]
    simp only [Except.ok_bind']
    rw [hs2]
    rfl

/-- The values derived while a report is processed. -/
structure World (P : Prio3 X F Meas Agg) (vk ctx nonce rand : Bytes) (a : List F) (t : Spec.Transcript F)
    (ms ps : ℕ → List F) (bl : ℕ → Option Bytes) (prs jrs qrs : List F) (π os w : ℕ → List F)
    (seed : Option Bytes) (part : ℕ → Option Bytes) : Prop where
  S : P.Sharded ctx nonce a t.publicShare t.inputShares ms ps bl prs jrs π
  helpers : t.inputShares.drop 1 = Spec.helperShares P rand
  prsOk : P.proveRands ctx (Spec.proveSeed P rand) = .ok prs
  bl0 : 0 < P.flp.jointRandLen → bl 0 = some (Spec.blindSeed P rand 0)
  qrsOk : P.queryRands vk ctx nonce = .ok qrs
  osOk : ∀ j < P.shares, P.flp.truncate (ms j) = .ok (os j)
  wOk : ∀ j < P.shares, P.queryLoop (ms j) (ps j) qrs jrs = .ok (w j)
  joint : P.JointOf ctx t.publicShare seed part jrs
  states : t.states = tab P.shares fun j => (os j, seed)
  vshares : t.verifierShares = tab P.shares fun j => (w j, part j)
  msg : P.sharesToMessage ctx () t.verifierShares = .ok t.message

theorem numSeeds_eq : Spec.numSeeds P = P.numSeeds := by
  unfold Spec.numSeeds numSeeds
  split <;> omega

section
variable (W : P.WF) {ctx : Bytes} (hctx : ctx.length + 8 < 2 ^ 16)
include W hctx

theorem world_of {vk nonce rand : Bytes} {m : Meas} {a : List F} (he : P.flp.encode m = .ok a)
    (ha : a.length = P.flp.measLen) {t : Spec.Transcript F}
    (h : Spec.transcript P vk ctx m nonce rand = .ok t) :
    ∃ ms ps bl prs jrs qrs π os w seed part, World P vk ctx nonce rand a t ms ps bl prs jrs qrs π os w seed part := by
  unfold Spec.transcript at h
  obtain ⟨⟨pub, ish⟩, h1, h⟩ := Except.bind_eq_ok.1 h
  dsimp only at h
  obtain ⟨outs, h2, h⟩ := Except.bind_eq_ok.1 h
  obtain ⟨msg, h3, h⟩ := Except.bind_eq_ok.1 h
  cases h
  have hnr : nonce.length = 16 ∧ rand.length = P.randSize := by
    unfold shard at h1
    obtain ⟨_, h4, h1⟩ := Except.bind_eq_ok.1 h1
    obtain ⟨_, h5, h1⟩ := Except.bind_eq_ok.1 h1
    have h4' := of_decide_eq_false (raiseIf_eq_ok.1 h4)
    have h5' := of_decide_eq_false (raiseIf_eq_ok.1 h5)
    exact ⟨by simpa [NONCE_SIZE] using h4', by simpa using h5'⟩
  have hg := shard_good W hctx he ha hnr.1 hnr.2
  rw [h1] at hg
  obtain ⟨ms, ps, bl, prs, jrs, π, S, g1, g2, g3⟩ := hg
  obtain ⟨seed, part, hj1, hj2⟩ := S.jointOf
  obtain ⟨g, rfl, hg⟩ := mapRes_range_ok h2
  -- what `verify_init` computes
  have hv : ∀ j < P.shares, ∃ os qrs w, P.flp.truncate (ms j) = .ok os ∧ P.queryRands vk ctx nonce = .ok qrs ∧
        P.queryLoop (ms j) (ps j) qrs jrs = .ok w ∧ g j = ((os, seed), (w, part j)) := by
    intro j hj
    obtain ⟨s, e1, e2⟩ := S.expand j hj
    have h4 := hg j hj
    rw [getI_of_some e1] at h4
    simp only [Except.ok_bind'] at h4
    unfold verifyInit at h4
    rw [e2] at h4
    simp only [Except.ok_bind'] at h4
    obtain ⟨os, e3, h4⟩ := Except.bind_eq_ok.1 h4
    rw [hj2 j hj] at h4
    simp only [Except.ok_bind'] at h4
    obtain ⟨qrs, e4, h4⟩ := Except.bind_eq_ok.1 h4
    obtain ⟨w, e5, h4⟩ := Except.bind_eq_ok.1 h4
    exact ⟨os, qrs, w, e3, e4, e5, (Except.ok.inj h4).symm⟩
  obtain ⟨-, qrs, -, -, hq, -, -⟩ := hv 0 (by have := W.shares_ge; omega)
  have hv' : ∀ j < P.shares, P.flp.truncate (ms j) = .ok (g j).1.1 ∧
      P.queryLoop (ms j) (ps j) qrs jrs = .ok (g j).2.1 ∧ g j = (((g j).1.1, seed), ((g j).2.1, part j)) := by
    intro j hj
    obtain ⟨os, qrs', w, e1, e2, e3, e4⟩ := hv j hj
    rw [hq] at e2
    cases e2
    rw [e4]
    exact ⟨e1, e3, rfl⟩
  refine ⟨ms, ps, bl, prs, jrs, qrs, π, fun j => (g j).1.1, fun j => (g j).2.1, seed, part, S, g1, ?_, ?_, hq,
    fun j hj => (hv' j hj).1, fun j hj => (hv' j hj).2.1, hj1, ?_, ?_, h3⟩
  · unfold Spec.proveSeed
    rw [numSeeds_eq]
    exact g2
  · intro h0
    rw [g3 h0]
    unfold Spec.blindSeed numSeeds
    rw [if_pos h0, if_pos rfl, ← two_mul]
  · dsimp only
    unfold tab
    rw [List.map_map]
    apply List.map_congr_left
    intro j hj
    have := (hv' j (by simpa using hj)).2.2
    rw [Function.comp, this]
  · dsimp only
    unfold tab
    rw [List.map_map]
    apply List.map_congr_left
    intro j hj
    have := (hv' j (by simpa using hj)).2.2
    rw [Function.comp, this]

/-- A report is processed successfully if the values can be derived. -/
theorem transcript_of {vk nonce rand : Bytes} {m : Meas} {a : List F} {t : Spec.Transcript F}
    {ms ps : ℕ → List F} {bl : ℕ → Option Bytes} {prs jrs qrs : List F} {π os w : ℕ → List F}
    {seed : Option Bytes} {part : ℕ → Option Bytes}
    (h : World P vk ctx nonce rand a t ms ps bl prs jrs qrs π os w seed part)
    (hs : P.shard ctx m nonce rand = .ok (t.publicShare, t.inputShares)) :
    Spec.transcript P vk ctx m nonce rand = .ok t := by
  unfold Spec.transcript
  rw [hs]
  simp only [Except.ok_bind']
  obtain ⟨seed', part', hj1, hj2⟩ := h.S.jointOf
  obtain ⟨rfl, hp, -⟩ := h.joint.unique hj1
  rw [mapRes_range_tab (g := fun j => ((os j, seed), (w j, part j)))]
  · simp only [Except.ok_bind', tab, List.map_map]
    have h1 := h.vshares
    have h2 := h.states
    have h3 := h.msg
    unfold tab at h1 h2
    change (do
      let msg ← P.sharesToMessage ctx () (List.map (fun j => (w j, part j)) (List.range P.shares))
      return ⟨t.publicShare, t.inputShares, List.map (fun j => (os j, seed)) (List.range P.shares),
        List.map (fun j => (w j, part j)) (List.range P.shares), msg⟩ : Res (Spec.Transcript F)) = _
    rw [← h1, ← h2, h3]
    rfl
  · intro j hj
    obtain ⟨s, e1, e2⟩ := h.S.expand j hj
    rw [getI_of_some e1]
    simp only [Except.ok_bind']
    unfold verifyInit
    rw [e2]
    simp only [Except.ok_bind']
    rw [h.osOk j hj]
    simp only [Except.ok_bind']
    rw [hj2 j hj]
    simp only [Except.ok_bind']
    rw [h.qrsOk]
    simp only [Except.ok_bind']
    rw [h.wOk j hj, hp j hj]
    rfl

/-- `shard` succeeds if all the expansions of seeds succeed. -/
theorem shard_exact {m : Meas} {a : List F} (he : P.flp.encode m = .ok a)
    (ha : a.length = P.flp.measLen) {nonce rand : Bytes} (hn : nonce.length = 16) (hr : rand.length = P.randSize)
    (gM : ∀ j, 0 < j → j < P.shares → ∃ v, P.helperMeasShare ctx j (Spec.shareSeed P rand j) = .ok v)
    (gP : ∀ j, 0 < j → j < P.shares → ∃ v, P.helperProofsShare ctx j (Spec.shareSeed P rand j) = .ok v)
    (gR : ∃ v, P.proveRands ctx (Spec.proveSeed P rand) = .ok v)
    (gJ : 0 < P.flp.jointRandLen → ∀ (ms : ℕ → List F) (parts : ℕ → Bytes) (seed : Bytes),
      Spec.IsSum (fun j : Fin P.shares => ms j) a →
      (∀ j, 0 < j → j < P.shares → P.helperMeasShare ctx j (Spec.shareSeed P rand j) = .ok (ms j)) →
      (∀ j < P.shares, P.jointRandPart ctx j (Spec.blindSeed P rand j) (ms j) nonce = .ok (parts j)) →
      P.jointRandSeed ctx (tab P.shares parts) = .ok seed → ∃ v, P.jointRands ctx seed = .ok v) :
    ∃ pub ish ms ps bl prs jrs π, P.shard ctx m nonce rand = .ok (pub, ish) ∧
      P.Sharded ctx nonce a pub ish ms ps bl prs jrs π ∧ ish.drop 1 = Spec.helperShares P rand ∧
      P.proveRands ctx (Spec.proveSeed P rand) = .ok prs ∧
      (0 < P.flp.jointRandLen → bl 0 = some (Spec.blindSeed P rand 0)) := by
  unfold Spec.shareSeed at gM gP gJ
  unfold Spec.proveSeed at gR ⊢
  unfold Spec.blindSeed at gJ ⊢
  rw [numSeeds_eq] at gR ⊢
  unfold shard
  rw [raiseIf_of_not (by simpa [NONCE_SIZE] using hn), raiseIf_of_not (by simpa using hr), he]
  simp only [Except.ok_bind']
  unfold randSize at hr
  have hc : chunks rand P.numSeeds X.seedSize =
      tab P.numSeeds fun i => slice rand (i * X.seedSize) (i * X.seedSize + X.seedSize) := rfl
  rw [hc]
  have hsd := fun i (hi : i < P.numSeeds) => chunks_length hr hi
  have := W.shares_ge
  have toGood : ∀ {r : Res (List F)} {n : ℕ}, (∃ v, r = .ok v) →
      (∀ v, r = .ok v → v.length = n) → Good (fun _ => False) r fun v => v.length = n := by
    rintro r n ⟨v, hv⟩ hl
    exact Good.of_eq hv (hl v hv)
  have lM : ∀ {j s v}, P.helperMeasShare ctx j s = .ok v → v.length = P.flp.measLen := fun h =>
    expandIntoVec_length (measShare_ok.1 h).2.2
  have lP : ∀ {j s v}, P.helperProofsShare ctx j s = .ok v → v.length = P.proofLen * P.proofs := fun h =>
    expandIntoVec_length (proofsShare_ok.1 h).2.2.2
  have lR : ∀ {s v}, P.proveRands ctx s = .ok v → v.length = P.flp.proveRandLen * P.proofs := fun h =>
    expandIntoVec_length (proveRands_ok.1 h).2.2
  have lJ : ∀ {s v}, P.jointRands ctx s = .ok v → v.length = P.flp.jointRandLen * P.proofs := fun h =>
    expandIntoVec_length (jointRands_ok.1 h).2.2
  by_cases hj : P.flp.jointRandLen > 0
  · have hns : P.numSeeds = P.shares + P.shares := by unfold numSeeds; rw [if_pos hj]
    rw [if_pos hj]
    simp only [gt_iff_lt] at hj
    simp only [if_pos hj] at gM gP gJ
    rw [hns] at hsd gR ⊢
    have key := shardWithJointRand_gen (E := fun _ => False) W hctx hj ha hsd (nonce := nonce)
      (fun j hj => toGood (gM (j + 1) (by omega) (by omega)) fun _ => lM)
      (fun j hj => toGood (gP (j + 1) (by omega) (by omega)) fun _ => lP)
      (toGood (by rw [two_mul]; exact gR) fun _ => lR)
      (fun ms parts seed h1 h2 h3 h4 _ => toGood (gJ hj ms parts seed h1
        (fun j h0 hj => by
          have := h2 (j - 1) (by omega)
          rw [show j - 1 + 1 = j by omega] at this
          exact this)
        (fun j hj => by
          rw [← h3 j hj]
          cases j with
          | zero => rfl
          | succ j => rfl) h4) fun _ => lJ)
    rcases key.cases with ⟨⟨pub, ish⟩, h1, ms, ps, bl, prs, jrs, π, h2, h3, h4, h5⟩ | ⟨e, -, hF⟩
    · refine ⟨pub, ish, ms, ps, bl, prs, jrs, π, h1, h2, ?_, by rw [← two_mul]; exact h4, fun _ => by simp only [if_true]; exact h5⟩
      rw [h3]
      unfold Spec.helperShares
      simp only [if_pos hj]
      rfl
    · exact hF.elim
  · have hns : P.numSeeds = P.shares := by unfold numSeeds; rw [if_neg hj]
    rw [if_neg hj]
    simp only [gt_iff_lt] at hj
    simp only [if_neg hj] at gM gP
    rw [hns] at hsd gR ⊢
    have key := shardWithoutJointRand_gen (E := fun _ => False) W (by omega) ha (nonce := nonce) (ctx := ctx)
      (sd := fun i => slice rand (i * X.seedSize) (i * X.seedSize + X.seedSize))
      (fun j hj => toGood (gM (j + 1) (by omega) (by omega)) fun _ => lM)
      (fun j hj => toGood (gP (j + 1) (by omega) (by omega)) fun _ => lP)
      (toGood gR fun _ => lR)
    rcases key.cases with ⟨⟨pub, ish⟩, h1, ms, ps, prs, π, h2, h3, h4⟩ | ⟨e, -, hF⟩
    · refine ⟨pub, ish, ms, ps, _, prs, _, π, h1, h2, ?_, h4, fun h => absurd h hj⟩
      rw [h3]
      unfold Spec.helperShares
      simp only [if_neg hj]
      rfl
    · exact hF.elim

end
end Prio3
end Vdaf
