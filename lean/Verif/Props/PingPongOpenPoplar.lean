import Verif.Proofs.OpenPoplar
import Verif.Proofs.OpenView
import Verif.Props.PingPongPoplar

/-!
# C78: privacy of Poplar1 in the ping-pong topology with dishonest Clients

As in C74, one of the two Aggregators and the Collector do not follow the protocol.  They also submit reports of their own,
chosen from all that they have seen up to now, as in C77.
-/

namespace Vdaf
open Spec Open
variable {prims : Prims} {fuel bits : ℕ}

/-- The attackers that submit reports are as likely to see `E` as those that do not are to see what leads to `E`. -/
theorem poplar1OpenProbability_eq (verifyKey ctx : Bytes) (isLeader : Bool) (n : ℕ) (candidates : ℕ → List (List Bool))
    (ms : ℕ → List Bool) (nonces : ℕ → Bytes) {m : ℕ} {σ : OpenStrategy FieldVec} (hσ : OpenAskAtMost m σ) (q : ℕ)
    (S : Set Bytes) (N : ℕ) (E : Set (List (Bytes × Bytes) × List (PeerReply FieldVec))) :
    poplar1OpenProbability prims fuel bits verifyKey ctx isLeader n candidates ms nonces σ q S N E =
      poplar1PeerProbability prims fuel bits verifyKey ctx isLeader n candidates ms nonces
        (strategyOf (fun p => (⟨poplarIdpf bits⟩ : Poplar1).vdaf p fuel) prims (sameFixed prims)
          (m * (bits * (2 * fuel + 9)) + 2) isLeader verifyKey ctx σ)
        ((m * (bits * (2 * fuel + 9)) + 3) * q) S N
        (openEvent (fun p => (⟨poplarIdpf bits⟩ : Poplar1).vdaf p fuel) prims (sameFixed prims)
          (m * (bits * (2 * fuel + 9)) + 2) isLeader verifyKey ctx σ E) := by
  unfold poplar1OpenProbability poplar1PeerProbability
  congr 3
  ext x
  refine and_congr_right fun _ => ?_
  unfold poplar1OpenView poplar1PeerView
  cases mapRes (fun k => do
      let (pub, own, other) ← treeReport (withOracles prims x.2.1 x.2.2) fuel bits ctx (if isLeader then 1 else 0)
        (candidates k) (ms k) (coinsOf nonces x.1 k).nonce (coinsOf nonces x.1 k).rand
      wireReport ((⟨poplarIdpf bits⟩ : Poplar1).vdaf (withOracles prims x.2.1 x.2.2) fuel) (coinsOf nonces x.1 k).nonce pub
        (if isLeader then [other, own] else [own, other])) (List.range n) with
  | error e => constructor <;> rintro ⟨v, -, h⟩ <;> cases h
  | ok reports =>
    exact openView_iff (V := fun p => (⟨poplarIdpf bits⟩ : Poplar1).vdaf p fuel) (p0 := prims)
      (p := withOracles prims x.2.1 x.2.2)
      (fun views => poplar_feasible (prims := prims) ⟨poplarIdpf bits⟩ isLeader verifyKey ctx hσ views) (fun m => rfl)
      ⟨(poplar_static _).aggUpdate _, (poplar_static _).decodeAggParam _⟩ reports q E

/-- C78: for two choices of measurements of the honest Clients, the probabilities that what the attackers see in `q` moves is
in `E` differ by at most the bound, provided that in each view in `E`, for each aggregate share that the attackers got and
each of its prefixes, as many of the honest reports in the batch begin with the prefix in both cases. -/
theorem C78_poplar1_privacy (hfuel : fuel < 2 ^ 120) (hbits : 0 < bits) {verifyKey ctx : Bytes}
    (hkey : verifyKey.length = 32) (hctx : ctx.length + 8 < 2 ^ 16) (isLeader : Bool) {n B : ℕ} (hB : B ≤ 2 ^ 128)
    (hN : 32 * fuel * (bits + 2) + 32 ≤ 16 * B) {nonces : ℕ → Bytes} (hn : ∀ k < n, (nonces k).length = 16) {S : Set Bytes}
    (hfin : S.Finite) (hS : ∀ k < n, poplar1Inputs ctx (nonces k) ⊆ S) {m0 m1 : ℕ → List Bool}
    (hm0 : ∀ k < n, (m0 k).length = bits) (hm1 : ∀ k < n, (m1 k).length = bits) {m : ℕ} {σ : OpenStrategy FieldVec}
    (hσ : OpenAskAtMost m σ) (q : ℕ) {E : Set (List (Bytes × Bytes) × List (PeerReply FieldVec))}
    (hE : ∀ v ∈ E, PeerSameCounts m0 m1 v) :
    |poplar1OpenProbability prims fuel bits verifyKey ctx isLeader n (fun k => [m0 k, m1 k]) m0 nonces σ q S (16 * B) E -
        poplar1OpenProbability prims fuel bits verifyKey ctx isLeader n (fun k => [m0 k, m1 k]) m1 nonces σ q S (16 * B) E| ≤
      (n * (2 * bits + 3) * B : ℕ) * (n * (2 * bits + 3) * B + 4 * n * bits * B +
        3 * ((m * (bits * (2 * fuel + 9)) + 3) * q) * (1 + 2 * m * bits * B) : ℕ) / 2 ^ 126 := by
  rw [poplar1OpenProbability_eq _ _ _ _ _ _ _ hσ, poplar1OpenProbability_eq _ _ _ _ _ _ _ hσ]
  refine C74_poplar1_privacy hfuel hbits hkey hctx isLeader hB hN hn hfin hS hm0 hm1 (strategyOf_ask hσ) _ ?_
  rintro v ⟨s, -, hv, hs⟩ aggParam ks share a ht ha
  obtain ⟨share', h'⟩ := hs aggParam ks share ht
  exact hE _ hv aggParam ks share' a h' ha

/-! ## A concrete case

The case of C74, but with a report of the attackers, which is verified first, and then aggregated together with those of the
honest Clients. -/

/-- The attackers' report, of the measurement `11` -/
def ownTreeReport : WireReport :=
  match (do
    let (pub, shares) ← peerTree.shard [1] [true, true] (List.replicate 16 9) (List.replicate 128 3)
    wireReport peerTree (List.replicate 16 9) pub shares) with
  | .ok r => r
  | .error _ => ⟨[], [], [], []⟩

/-- The state of a Leader for this report after the first step -/
def ownTreeLeader := PingPong.leaderInit peerTree (List.replicate 32 1) [1] peerTreeParam (List.replicate 16 9)
  ownTreeReport.publicShare ownTreeReport.leaderShare

/-- Its first message -/
def ownTreeOpen : OpenMove :=
  match ownTreeLeader with
  | .ok (.continued _ _ m) => .start 0 peerTreeParam m
  | _ => .submit ownTreeReport

/-- Its second message -/
def ownTreeGoOn (reply : Option (PeerReply FieldVec)) : OpenMove :=
  match ownTreeLeader, reply with
  | .ok (.continued st r _), some (.sent inbound) =>
    match PingPong.leaderContinued peerTree [1] peerTreeParam st r inbound with
    | .ok (.finishedWithOutbound _ m) => .deliver 0 peerTreeParam m
    | _ => .submit ownTreeReport
  | _, _ => .submit ownTreeReport

/-- The strategy -/
def openTreeStrategy : OpenStrategy FieldVec := fun views replies =>
  match replies.length with
  | 0 => .submit ownTreeReport
  | 1 => ownTreeOpen
  | 2 => ownTreeGoOn replies[1]?
  | 7 => .collect peerTreeParam [0, 1] [0]
  | _ => .honest (peerTreeStrategy views (replies.drop 3))

-- a run: all three reports are accepted and the last reply is an aggregate share that includes the honest ones
set_option maxRecDepth 4000 in
example : ∃ v, poplar1OpenView toyPrims 20 2 (List.replicate 32 1) [1] false 2 (fun k => [treeExample0 k, treeExample1 k])
      treeExample0 (coinsOf (fun _ => List.replicate 16 7) fun k : Fin 2 => List.replicate 128 (UInt8.ofNat k))
      openTreeStrategy 8 = .ok v ∧
    v.2.map peerReplyKind = [(4, []), (4, []), (5, []), (4, []), (5, []), (4, []), (5, []), (6, [0, 1])] := by
  have h : (match poplar1OpenView toyPrims 20 2 (List.replicate 32 1) [1] false 2
        (fun k => [treeExample0 k, treeExample1 k])
      treeExample0 (coinsOf (fun _ => List.replicate 16 7) fun k : Fin 2 => List.replicate 128 (UInt8.ofNat k))
      openTreeStrategy 8 with
    | .ok v => decide (v.2.map peerReplyKind =
        [(4, []), (4, []), (5, []), (4, []), (5, []), (4, []), (5, []), (6, [0, 1])])
    | .error _ => false) = true := by decide +kernel
  split at h
  · next v hv => exact ⟨v, hv, of_decide_eq_true h⟩
  · cases h

theorem openTreeStrategy_param {views replies k ap inbound} (h : openTreeStrategy views replies =
    .honest (.start k ap inbound) ∨ openTreeStrategy views replies = .start k ap inbound) : ap = peerTreeParam := by
  have hh : ∀ r, peerTreeStrategy views r = .start k ap inbound → ap = peerTreeParam := by
    intro r h
    unfold peerTreeStrategy peerTreeOpen peerTreeGoOn at h
    split at h <;> first
      | (cases h; rfl)
      | cases h
      | (split at h <;> first | (cases h; rfl) | cases h | (split at h <;> cases h))
  unfold openTreeStrategy ownTreeOpen ownTreeGoOn at h
  rcases h with h | h
  · split at h
    · cases h
    · split at h <;> cases h
    · split at h
      · split at h <;> cases h
      · cases h
    · cases h
    · injection h with h
      exact hh _ h
  · split at h
    · cases h
    · split at h
      · cases h; rfl
      · cases h
    · split at h
      · split at h <;> cases h
      · cases h
    · cases h
    · cases h

-- the attackers cannot tell the two families of measurements from each other
example : |poplar1OpenProbability toyPrims 20 2 (List.replicate 32 1) [1] false 2
        (fun k => [treeExample0 k, treeExample1 k]) treeExample0 (fun _ => List.replicate 16 7) openTreeStrategy 8
        (poplar1Inputs [1] (List.replicate 16 7)) (16 * 162) peerTreeEvent -
      poplar1OpenProbability toyPrims 20 2 (List.replicate 32 1) [1] false 2
        (fun k => [treeExample0 k, treeExample1 k]) treeExample1 (fun _ => List.replicate 16 7) openTreeStrategy 8
        (poplar1Inputs [1] (List.replicate 16 7)) (16 * 162) peerTreeEvent| ≤ 1 / 2 ^ 90 := by
  have hp : Poplar1.decodeAggParam peerTreeParam = .ok (0, [[false], [true]]) := by decide +kernel
  refine (C78_poplar1_privacy (m := 2) (by decide) (by decide) (by decide) (by decide) false (by decide) (by decide)
    (fun _ _ => by decide) (C72_inputs _ _) (fun _ _ => subset_rfl) (m0 := treeExample0) (m1 := treeExample1) ?_ ?_ ?_ 8 ?_).trans
    ?_
  · intro k _; unfold treeExample0; split <;> rfl
  · intro k _; unfold treeExample1; split <;> rfl
  · intro views replies k ap inbound a h ha
    rw [openTreeStrategy_param h, hp] at ha
    cases ha
    decide
  · intro v hv ap ks share a h ha p hpp
    obtain ⟨rfl, rfl⟩ := hv ap ks share h
    rw [hp] at ha
    cases ha
    simp only [List.mem_cons, List.not_mem_nil, or_false] at hpp
    rcases hpp with rfl | rfl <;> decide
  · norm_num

end Vdaf
