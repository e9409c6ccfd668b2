import Verif.Proofs.Prio3Shard

/-! Verification of honestly generated reports. -/

set_option linter.unusedSectionVars false

namespace Vdaf
open Finset

namespace Prio3
variable {X : Xof} {F : Type} [NttField F] {Meas Agg : Type} {P : Prio3 X F Meas Agg}

theorem nextJointRand_eq {jrs : List F} (h : jrs.length = P.flp.jointRandLen * P.proofs) {i : ℕ}
    (hi : i < P.proofs) : P.nextJointRand (jrs.drop (P.flp.jointRandLen * i)) =
      .ok (blk P.flp.jointRandLen jrs i, jrs.drop (P.flp.jointRandLen * (i + 1))) := by
  unfold nextJointRand
  by_cases hj : P.flp.jointRandLen > 0
  · rw [if_pos hj, front_blk (by rw [h]; exact mul_succ_le hi)]
  · rw [if_neg hj, show P.flp.jointRandLen = 0 by omega]
    simp [blk]

theorem queryLoop_good {E : Err → Prop} {ms ps qrs jrs : List F}
    (hps : ps.length = P.proofLen * P.proofs) (hqrs : qrs.length = P.flp.queryRandLen * P.proofs)
    (hjrs : jrs.length = P.flp.jointRandLen * P.proofs) {v : ℕ → List F}
    (hv : v = fun i => okVal (P.flp.query ms (blk P.proofLen ps i) (blk P.flp.queryRandLen qrs i)
        (blk P.flp.jointRandLen jrs i) P.shares))
    (hq : ∀ i < P.proofs, Good E (P.flp.query ms (blk P.proofLen ps i)
      (blk P.flp.queryRandLen qrs i) (blk P.flp.jointRandLen jrs i) P.shares) fun _ => True) :
    Good E (P.queryLoop ms ps qrs jrs) fun r => r = (List.range P.proofs).flatMap v ∧
      ∀ i < P.proofs, P.flp.query ms (blk P.proofLen ps i) (blk P.flp.queryRandLen qrs i)
        (blk P.flp.jointRandLen jrs i) P.shares = .ok (v i) := by
  unfold queryLoop
  refine Good.bind (Good.forFold_range P.proofs _ _ (fun i r =>
    r = ((List.range i).flatMap v, ps.drop (P.proofLen * i), qrs.drop (P.flp.queryRandLen * i),
      jrs.drop (P.flp.jointRandLen * i)) ∧
    ∀ k < i, P.flp.query ms (blk P.proofLen ps k) (blk P.flp.queryRandLen qrs k)
        (blk P.flp.jointRandLen jrs k) P.shares = .ok (v k)) ⟨by simp, by omega⟩ ?_) ?_
  · rintro i hi _ ⟨rfl, h2⟩
    dsimp only
    rw [front_blk (by rw [hps]; exact mul_succ_le hi)]
    simp only [Except.ok_bind']
    rw [front_blk (by rw [hqrs]; exact mul_succ_le hi)]
    simp only [Except.ok_bind']
    rw [nextJointRand_eq hjrs hi]
    simp only [Except.ok_bind']
    refine (hq i hi).bind fun p hp _ => ?_
    have hpi : v i = p := by rw [hv]; exact okVal_eq hp
    refine Good.ok ⟨by rw [flatMap_range_succ, hpi], fun k hk => ?_⟩
    rcases Nat.lt_succ_iff_lt_or_eq.1 hk with h' | rfl
    · exact h2 k h'
    · rw [hpi]; exact hp
  · rintro _ - ⟨rfl, h2⟩
    exact Good.ok ⟨rfl, h2⟩

/-- The parts of the joint randomness in the verifier shares. -/
def partsOf (P : Prio3 X F Meas Agg) (n : ℕ) (part : ℕ → Bytes) : List Bytes :=
  if P.flp.jointRandLen > 0 then tab n part else []

theorem decideLoop_ok {vs : List F} (hl : vs.length = P.flp.verifierLen * P.proofs) :
    P.decideLoop vs = .ok () ↔ ∀ i < P.proofs, P.flp.decide (blk P.flp.verifierLen vs i) = .ok true := by
  unfold decideLoop
  set f := fun (verifiers : List F) (_ : ℕ) => (do
    let (verifier, verifiers) ← front P.flp.verifierLen verifiers
    let ok ← P.flp.decide verifier
    raiseIf (ok = false) "proof verifier check failed"
    return verifiers : Res (List F)) with hf
  have key : ∀ n ≤ P.proofs, ∀ r, forFold (List.range n) vs f = .ok r ↔
      r = vs.drop (P.flp.verifierLen * n) ∧
        ∀ i < n, P.flp.decide (blk P.flp.verifierLen vs i) = .ok true := by
    intro n
    induction n with
    | zero => intro _ r; simp [eq_comm]
    | succ n ih =>
      intro hn r
      rw [List.range_succ, forFold_append, Except.bind_eq_ok]
      constructor
      · rintro ⟨s, hs, hr⟩
        obtain ⟨rfl, h2⟩ := (ih (by omega) s).1 hs
        rw [forFold_cons] at hr
        simp only [hf] at hr
        rw [front_blk (by rw [hl]; exact mul_succ_le hn)] at hr
        simp only [Except.ok_bind'] at hr
        obtain ⟨t, ht, hr⟩ := Except.bind_eq_ok.1 hr
        obtain ⟨b, hb, ht⟩ := Except.bind_eq_ok.1 ht
        obtain ⟨u, hu, ht⟩ := Except.bind_eq_ok.1 ht
        cases ht; cases hr
        refine ⟨rfl, fun i hi => ?_⟩
        rcases Nat.lt_succ_iff_lt_or_eq.1 hi with h' | rfl
        · exact h2 i h'
        · cases b
          · simp [raiseIf] at hu
          · exact hb
      · rintro ⟨rfl, h2⟩
        refine ⟨_, (ih (by omega) _).2 ⟨rfl, fun i hi => h2 i (by omega)⟩, ?_⟩
        rw [forFold_cons]
        simp only [hf]
        rw [front_blk (by rw [hl]; exact mul_succ_le hn)]
        simp only [Except.ok_bind']
        rw [h2 n (by omega)]
        rfl
  rw [Except.bind_eq_ok]
  constructor
  · rintro ⟨r, hr, -⟩
    exact ((key _ le_rfl r).1 hr).2
  · intro h
    exact ⟨_, (key _ le_rfl _).2 ⟨rfl, h⟩, rfl⟩

/-- The sums computed by `verifier_shares_to_message`. -/
theorem sharesToMessage_eq {ctx : Bytes} {N : ℕ} {w : ℕ → List F} {part : ℕ → Option Bytes}
    {pb : ℕ → Bytes}
    (hw : ∀ j < N, (w j).length = P.flp.verifierLen * P.proofs)
    (hp : 0 < P.flp.jointRandLen → ∀ j < N, part j = some (pb j)) :
    P.sharesToMessage ctx () (tab N fun j => (w j, part j)) = (do
      P.decideLoop (tab (P.flp.verifierLen * P.proofs) fun k => ∑ j ∈ range N, coef (w j) k)
      if P.flp.jointRandLen > 0 then do
        let seed ← P.jointRandSeed ctx (tab N pb)
        return some seed
      else return none) := by
  unfold sharesToMessage
  set n := P.flp.verifierLen * P.proofs with hn
  have key : ∀ M ≤ N, forFold (tab M fun j => (w j, part j)) (fieldZeros F n, ([] : List Bytes))
      (fun (x : List F × List Bytes) (y : List F × Option Bytes) => do
        let verifiers ← vecAdd x.1 y.1
        let jointRandParts ← P.appendPart x.2 y.2
        return (verifiers, jointRandParts)) =
      .ok (tab n fun k => ∑ j ∈ range M, coef (w j) k, P.partsOf M pb) := by
    intro M
    induction M with
    | zero =>
      intro _
      have : fieldZeros F n = tab n fun _ => 0 := by
        simp [fieldZeros, tab, List.map_const']
      simp [tab_zero, this, partsOf]
    | succ M ih =>
      intro hM
      rw [tab_succ, forFold_append, ih (by omega)]
      simp only [Except.ok_bind']
      rw [forFold_cons]
      dsimp only
      rw [eq_tab (hw M (by omega)), vecAdd_tab]
      simp only [Except.ok_bind']
      have : P.appendPart (P.partsOf M pb) (part M) = .ok (P.partsOf (M + 1) pb) := by
        unfold appendPart partsOf
        by_cases hj : P.flp.jointRandLen > 0
        · simp only [if_pos hj, hp hj M (by omega), tab_succ]
        · simp only [if_neg hj]
      rw [this]
      simp only [Except.ok_bind', forFold_nil, Except.pure_eq']
      congr 2
      apply tab_congr
      intro k hk
      rw [sum_range_succ]
  have := key N le_rfl
  simp only at this ⊢
  rw [this]
  simp only [Except.ok_bind', partsOf]
  by_cases hj : P.flp.jointRandLen > 0
  · simp only [if_pos hj]
  · simp only [if_neg hj]

theorem isSum_range {N n : ℕ} {w : ℕ → List F} (hw : ∀ j < N, (w j).length = n) :
    Spec.IsSum (fun j : Fin N => w j) (tab n fun k => ∑ j ∈ range N, coef (w j) k) := by
  rw [isSum_iff]
  refine ⟨fun i => by simp [hw i i.2], fun k => ?_⟩
  rw [coef_tab]
  split
  · rw [Fin.sum_univ_eq_sum_range fun i => coef (w i) k]
  · next h =>
    rw [sum_eq_zero]
    intro i _
    exact coef_of_le (by rw [hw i i.2]; omega)

/-- What `verify_init` returns for aggregator `j`. -/
structure Verified (P : Prio3 X F Meas Agg) (ctx nonce vk : Bytes) (pub : Option (List Bytes))
    (ish : List (Prio3InputShare F)) (os : ℕ → List F) (seed : Option Bytes)
    (w : ℕ → List F) (part : ℕ → Option Bytes) : Prop where
  init : ∀ j < P.shares, ∃ s, ish[j]? = some s ∧
    P.verifyInit vk ctx j () nonce pub s = .ok ((os j, seed), (w j, part j))
  msg : P.sharesToMessage ctx () (tab P.shares fun j => (w j, part j)) = .ok seed

section
variable (W : P.WF) {ctx : Bytes} (hctx : ctx.length + 8 < 2 ^ 16)
include W hctx

theorem verify_gen {E : Err → Prop} {nonce vk : Bytes}
    (gQ : Good E (P.queryRands vk ctx nonce) fun v => v.length = P.flp.queryRandLen * P.proofs) {meas : List F}
    (hmeas : meas.length = P.flp.measLen)
    (hacc : ∀ jr : List F, jr.length = P.flp.jointRandLen → Spec.Accepts P.flp meas jr)
    {pub : Option (List Bytes)} {ish : List (Prio3InputShare F)} {ms ps : ℕ → List F}
    {bl : ℕ → Option Bytes} {prs jrs : List F} {π : ℕ → List F}
    (S : P.Sharded ctx nonce meas pub ish ms ps bl prs jrs π)
    {os : ℕ → List F} (hos : ∀ j < P.shares, P.flp.truncate (ms j) = .ok (os j)) :
    (∃ seed w part, P.Verified ctx nonce vk pub ish os seed w part) ∨
    ∃ e, (E e ∨ (e = rootOfUnityErr ∧ Spec.RootHit P vk ctx nonce)) ∧ ∀ j < P.shares, ∃ s, ish[j]? = some s ∧
      P.verifyInit vk ctx j () nonce pub s = .error e := by
  -- the joint randomness is the one the client used
  obtain ⟨seed, part, pb, hjr, hpb, hmsg⟩ : ∃ (seed : Option Bytes) (part : ℕ → Option Bytes) (pb : ℕ → Bytes),
      (∀ j < P.shares, P.verifyJointRand ctx j nonce pub (ms j) (bl j) = .ok (jrs, seed, part j)) ∧
      (0 < P.flp.jointRandLen → ∀ j < P.shares, part j = some (pb j)) ∧
      (if P.flp.jointRandLen > 0 then do
        let seed ← P.jointRandSeed ctx (tab P.shares pb)
        return some seed
      else return none) = .ok seed := by
    rcases S.joint with ⟨h0, rfl, hbl⟩ | ⟨h0, parts, b, seed, rfl, hb, hs1, hs2⟩
    · refine ⟨none, fun _ => none, fun _ => [], fun j hj => ?_, fun h => by omega, ?_⟩
      · unfold verifyJointRand
        rw [if_neg (by omega)]
        have : jrs = [] := List.length_eq_zero_iff.1 (by rw [S.jrsLen, h0]; simp)
        rw [this]
      · rw [if_neg (by omega)]; rfl
    · refine ⟨some seed, fun j => some (parts j), parts, fun j hj => ?_, fun _ _ _ => rfl, ?_⟩
      · obtain ⟨h1, h2, h3, h4⟩ := hb j hj
        unfold verifyJointRand
        rw [if_pos h0, h1]
        dsimp only
        rw [h3]
        simp only [Except.ok_bind']
        rw [setI_self (tab_getElem? hj)]
        simp only [Except.ok_bind']
        rw [hs1]
        simp only [Except.ok_bind']
        rw [hs2]
        rfl
      · rw [if_pos h0, hs1]; rfl
  -- `verify_init` is determined by the query randomness and the query loop
  have hinit : ∀ j < P.shares, ∃ s, ish[j]? = some s ∧ P.verifyInit vk ctx j () nonce pub s = (do
      let queryRands ← P.queryRands vk ctx nonce
      let verifiersShare ← P.queryLoop (ms j) (ps j) queryRands jrs
      return ((os j, seed), (verifiersShare, part j))) := by
    intro j hj
    obtain ⟨s, hs1, hs2⟩ := S.expand j hj
    refine ⟨s, hs1, ?_⟩
    unfold verifyInit
    rw [hs2]
    simp only [Except.ok_bind']
    rw [hos j hj]
    simp only [Except.ok_bind']
    rw [hjr j hj]
    rfl
  rcases gQ.cases with ⟨qrs, hq1, hqrs⟩ | ⟨e, he1, he2⟩
  swap
  · refine .inr ⟨e, .inl he2, fun j hj => ?_⟩
    obtain ⟨s, hs1, hs2⟩ := hinit j hj
    exact ⟨s, hs1, by rw [hs2, he1]; rfl⟩
  have hsh := W.shares_ge
  have hps : ∀ j < P.shares, (ps j).length = P.proofLen * P.proofs := by
    intro j hj
    rw [S.proofSum.1 ⟨j, hj⟩]
    exact flatMap_range_length fun i hi => (S.prove i hi).2
  -- each proof
  have hone : ∀ i < P.proofs, (Spec.BadTestPoint P.flp (blk P.flp.queryRandLen qrs i) ∧
        ∀ j < P.shares, P.flp.query (ms j) (blk P.proofLen (ps j) i)
        (blk P.flp.queryRandLen qrs i) (blk P.flp.jointRandLen jrs i) P.shares = .error rootOfUnityErr) ∨
      ∃ (vs : ℕ → List F) (v : List F), (∀ j < P.shares, P.flp.query (ms j) (blk P.proofLen (ps j) i)
        (blk P.flp.queryRandLen qrs i) (blk P.flp.jointRandLen jrs i) P.shares = .ok (vs j)) ∧
        Spec.IsSum (fun j : Fin P.shares => vs j) v ∧ v.length = P.flp.verifierLen ∧
        P.flp.decide v = .ok true := by
    intro i hi
    obtain ⟨π', h1, h2, h3⟩ := W.lawful.complete hmeas (blk_length' S.jrsLen hi)
      (blk_length' S.prsLen hi) (blk_length' hqrs hi) (hacc _ (blk_length' S.jrsLen hi))
    have hπ : π' = π i := by
      have := (S.prove i hi).1; rw [h1] at this; exact Except.ok.inj this
    subst hπ
    have hsum : Spec.IsSum (fun j : Fin P.shares => blk P.proofLen (ps j) i) (π i) := by
      have := isSum_blk S.proofSum P.proofLen i
      rwa [blk_flatMap (fun i hi => (S.prove i hi).2) hi] at this
    rcases h3 P.shares (by omega) W.modulus _ _ S.measSum hsum with ⟨hbt, hb⟩ | ⟨-, vs, v, ha, hb, hc, hd⟩
    · exact .inl ⟨hbt, fun j hj => hb ⟨j, hj⟩⟩
    · refine .inr ⟨fun j => if h : j < P.shares then vs ⟨j, h⟩ else [], v, fun j hj => ?_, ?_, hc, hd⟩
      · simp only [dif_pos hj]; exact ha ⟨j, hj⟩
      · have : (fun j : Fin P.shares => if h : (j : ℕ) < P.shares then vs ⟨j, h⟩ else []) = vs := by
          funext j; simp
        rw [this]; exact hb
  by_cases hbad : ∃ i < P.proofs, Spec.BadTestPoint P.flp (blk P.flp.queryRandLen qrs i) ∧
      ∀ j < P.shares, P.flp.query (ms j) (blk P.proofLen (ps j) i)
        (blk P.flp.queryRandLen qrs i) (blk P.flp.jointRandLen jrs i) P.shares = .error rootOfUnityErr
  · -- some test point is a root of unity
    obtain ⟨i, hi, hbt, hb⟩ := hbad
    refine .inr ⟨rootOfUnityErr, .inr ⟨rfl, qrs, (queryRands_ok.1 hq1).2.2, i, hi, hbt⟩, fun j hj => ?_⟩
    obtain ⟨s, hs1, hs2⟩ := hinit j hj
    refine ⟨s, hs1, ?_⟩
    rw [hs2, hq1]
    simp only [Except.ok_bind']
    have hg := queryLoop_good (P := P) (E := fun e => e = rootOfUnityErr) (hps j hj) hqrs S.jrsLen rfl
      (ms := ms j) fun k hk => by
        rcases hone k hk with ⟨-, h⟩ | ⟨vs, v, h, -⟩
        · rw [h j hj]; exact Good.error rfl
        · rw [h j hj]; exact Good.ok trivial
    rcases hg.cases with ⟨r, hr, -, hall⟩ | ⟨e, he, rfl⟩
    · have := hall i hi
      rw [hb j hj] at this; cases this
    · rw [he]; rfl
  · push Not at hbad
    have hone' : ∀ i, ∃ (vs : ℕ → List F) (v : List F), i < P.proofs → (∀ j < P.shares, P.flp.query (ms j) (blk P.proofLen (ps j) i)
        (blk P.flp.queryRandLen qrs i) (blk P.flp.jointRandLen jrs i) P.shares = .ok (vs j)) ∧
        Spec.IsSum (fun j : Fin P.shares => vs j) v ∧ v.length = P.flp.verifierLen ∧
        P.flp.decide v = .ok true := by
      intro i
      by_cases hi : i < P.proofs
      · rcases hone i hi with ⟨hbt, h⟩ | ⟨vs, v, h⟩
        · obtain ⟨j, hj, h'⟩ := hbad i hi hbt
          exact absurd (h j hj) h'
        · exact ⟨vs, v, fun _ => h⟩
      · exact ⟨fun _ => [], [], fun h => absurd h hi⟩
    choose vs v hv using hone'
    have hvl : ∀ i < P.proofs, ∀ j < P.shares, (vs i j).length = P.flp.verifierLen := by
      intro i hi j hj
      rw [(hv i hi).2.1.1 ⟨j, hj⟩, (hv i hi).2.2.1]
    set w := fun j => (List.range P.proofs).flatMap fun i => vs i j with hw
    have hwl : ∀ j < P.shares, (w j).length = P.flp.verifierLen * P.proofs :=
      fun j hj => flatMap_range_length fun i hi => hvl i hi j hj
    refine .inl ⟨seed, w, part, ⟨fun j hj => ?_, ?_⟩⟩
    · obtain ⟨s, hs1, hs2⟩ := hinit j hj
      refine ⟨s, hs1, ?_⟩
      rw [hs2, hq1]
      simp only [Except.ok_bind']
      have hg := queryLoop_good (P := P) (E := fun _ => False) (hps j hj) hqrs S.jrsLen rfl
        (ms := ms j) fun k hk => by
          rw [(hv k hk).1 j hj]; exact Good.ok trivial
      rcases hg.cases with ⟨r, hr, rfl, hall⟩ | ⟨e, he, h⟩
      · rw [hr]
        simp only [Except.ok_bind', hw]
        congr 3
        apply List.flatMap_congr
        intro i hi
        exact okVal_eq ((hv i (by simpa using hi)).1 j hj)
      · exact h.elim
    · rw [sharesToMessage_eq hwl hpb]
      rw [(decideLoop_ok (by simp)).2]
      · simpa using hmsg
      · intro i hi
        have h1 := isSum_blk (isSum_range hwl) P.flp.verifierLen i
        have h2 : (fun j : Fin P.shares => blk P.flp.verifierLen (w j) i) = fun j : Fin P.shares => vs i j := by
          funext j
          exact blk_flatMap (fun i hi => hvl i hi j j.2) hi
        rw [h2] at h1
        rw [IsSum.unique h1 (hv i hi).2.1 (by
          rw [← (hv i hi).2.1.1 ⟨0, by omega⟩, ← h1.1 ⟨0, by omega⟩])]
        exact (hv i hi).2.2.2

theorem verify_good {nonce vk : Bytes} (hvk : vk.length = X.seedSize) {meas : List F}
    (hmeas : meas.length = P.flp.measLen)
    (hacc : ∀ jr : List F, jr.length = P.flp.jointRandLen → Spec.Accepts P.flp meas jr)
    {pub : Option (List Bytes)} {ish : List (Prio3InputShare F)} {ms ps : ℕ → List F}
    {bl : ℕ → Option Bytes} {prs jrs : List F} {π : ℕ → List F}
    (S : P.Sharded ctx nonce meas pub ish ms ps bl prs jrs π)
    {os : ℕ → List F} (hos : ∀ j < P.shares, P.flp.truncate (ms j) = .ok (os j)) :
    (∃ seed w part, P.Verified ctx nonce vk pub ish os seed w part) ∨
    ∃ e, Spec.HonestFailure P vk ctx [nonce] e ∧ ∀ j < P.shares, ∃ s, ish[j]? = some s ∧
      P.verifyInit vk ctx j () nonce pub s = .error e := by
  rcases verify_gen W hctx (queryRands_good W hctx (nonce := nonce) hvk) hmeas hacc S hos with h | ⟨e, h1 | ⟨h1, h2⟩, h3⟩
  · exact .inl h
  · exact .inr ⟨e, .inl h1, h3⟩
  · exact .inr ⟨e, .inr ⟨h1, nonce, by simp, h2⟩, h3⟩

end
end Prio3
end Vdaf
