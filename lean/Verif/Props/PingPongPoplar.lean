import Verif.Proofs.PingPongPoplarReduce

/-!
# C74: privacy of Poplar1 in the ping-pong topology

As C73, for Poplar1: one of the two Aggregators, the Leader or the Helper, is honest and runs the functions of
`vdaf_ping_pong.py`.  The other one and the Collector choose when and with what bytes the honest Aggregator begins with the
verification of a report, what messages it gets, and which batches are aggregated, and evaluate TurboSHAKE128 and AES-128 at
any inputs.
-/

namespace Vdaf
open Spec
variable {prims : Prims} {fuel bits : ℕ}

/-- C74: for two families of measurements, the probabilities that what the attackers see in `q` moves is in `E` differ by at
most `t (t + 4 n bits B + 3 q (1 + 2 m bits B)) / 2^126` with `t = n (2 bits + 3) B`, provided that in each view in `E` the
counts that the aggregate shares reveal are the same.  Here `n` is the number of reports, `m` the largest number of prefixes
in an aggregation parameter that the attackers choose, and `B` the number of blocks of 16 bytes that may be read from a
stream.  The probabilities are over the random bytes of the Clients, over the first `16 B` bytes of TurboSHAKE128 at the
inputs in `S`, a finite set that contains at least those inputs that have a seed of a report in them, and over AES-128. -/
theorem C74_poplar1_privacy (hfuel : fuel < 2 ^ 120) (hbits : 0 < bits) {verifyKey ctx : Bytes}
    (hkey : verifyKey.length = 32) (hctx : ctx.length + 8 < 2 ^ 16) (isLeader : Bool) {n B : ℕ} (hB : B ≤ 2 ^ 128)
    (hN : 32 * fuel * (bits + 2) + 32 ≤ 16 * B) {nonces : ℕ → Bytes} (hn : ∀ k < n, (nonces k).length = 16) {S : Set Bytes}
    (hfin : S.Finite) (hS : ∀ k < n, poplar1Inputs ctx (nonces k) ⊆ S) {m0 m1 : ℕ → List Bool}
    (hm0 : ∀ k < n, (m0 k).length = bits) (hm1 : ∀ k < n, (m1 k).length = bits) {m : ℕ} {σ : PeerStrategy FieldVec}
    (hσ : PeerAskAtMost m σ) (q : ℕ) {E : Set (List (Bytes × Bytes) × List (PeerReply FieldVec))}
    (hE : ∀ v ∈ E, PeerSameCounts m0 m1 v) :
    |poplar1PeerProbability prims fuel bits verifyKey ctx isLeader n (fun k => [m0 k, m1 k]) m0 nonces σ q S (16 * B) E -
        poplar1PeerProbability prims fuel bits verifyKey ctx isLeader n (fun k => [m0 k, m1 k]) m1 nonces σ q S (16 * B) E| ≤
      (n * (2 * bits + 3) * B : ℕ) * (n * (2 * bits + 3) * B + 4 * n * bits * B + 3 * q * (1 + 2 * m * bits * B) : ℕ) /
        2 ^ 126 := by
  rw [PopPeer.peerProbability_eq hfuel hbits hkey hctx hm0 hn, PopPeer.peerProbability_eq hfuel hbits hkey hctx hm1 hn]
  exact C72_privacy hfuel hbits hkey hctx (by cases isLeader <;> decide) hB hN hn hfin hS hm0 hm1
    (PopPeer.simStrategy_ask hσ) (3 * q) (PopPeer.simEvent_counts hE)

/-! ## A concrete case

The Helper is honest.  The attackers behave towards it as a Leader would for which TurboSHAKE128 and AES-128 were those of
`toyPrims`, for the prefixes of length 1 of two reports, have the reports aggregated and evaluate the oracles. -/

/-- Poplar1 for measurements of two bits -/
abbrev peerTree := (⟨poplarIdpf 2⟩ : Poplar1).vdaf toyPrims 20

/-- The encoded aggregation parameter for level 0 and the prefixes `0` and `1` -/
def peerTreeParam : Bytes := [0, 0, 0, 0, 0, 2, 0, 128]

example : Poplar1.decodeAggParam peerTreeParam = .ok (0, [[false], [true]]) := by decide +kernel

/-- The state of a Leader after the first step -/
def peerTreeLeader (view : Option (Bytes × Bytes)) :=
  match view with
  | some (pub, share) => PingPong.leaderInit peerTree (List.replicate 32 1) [1] peerTreeParam (List.replicate 16 7) pub share
  | none => .ok .rejected

/-- Its first message -/
def peerTreeOpen (k : ℕ) (view : Option (Bytes × Bytes)) : PeerMove :=
  match peerTreeLeader view with
  | .ok (.continued _ _ m) => .start k peerTreeParam m
  | _ => .collect [] []

/-- Its second message -/
def peerTreeGoOn (k : ℕ) (view : Option (Bytes × Bytes)) (reply : Option (PeerReply FieldVec)) : PeerMove :=
  match peerTreeLeader view, reply with
  | .ok (.continued st r _), some (.sent inbound) =>
    match PingPong.leaderContinued peerTree [1] peerTreeParam st r inbound with
    | .ok (.continued _ _ m) => .deliver k peerTreeParam m
    | .ok (.finishedWithOutbound _ m) => .deliver k peerTreeParam m
    | _ => .collect [] []
  | _, _ => .collect [] []

/-- The strategy -/
def peerTreeStrategy : PeerStrategy FieldVec := fun views replies =>
  match replies.length with
  | 0 => peerTreeOpen 0 views[0]?
  | 1 => peerTreeGoOn 0 views[0]? replies[0]?
  | 2 => peerTreeOpen 1 views[1]?
  | 3 => peerTreeGoOn 1 views[1]? replies[2]?
  | 4 => .collect peerTreeParam [0, 1]
  | 5 => .start 0 peerTreeParam []
  | 6 => .turboShake [1, 2, 3]
  | _ => .cipher (List.replicate 16 1) (List.replicate 16 2)

/-- What kind of reply it is: the place in the definition of `PeerReply`, and the reports that are aggregated -/
def peerReplyKind : PeerReply FieldVec → ℕ × List ℕ
  | .output _ => (0, [])
  | .block _ => (1, [])
  | .refused => (2, [])
  | .rejected => (3, [])
  | .sent _ => (4, [])
  | .finished _ => (5, [])
  | .total _ ks _ => (6, ks)

-- a run: both reports are accepted and the fifth reply is an aggregate share for both
set_option maxRecDepth 4000 in
example : ∃ v, poplar1PeerView toyPrims 20 2 (List.replicate 32 1) [1] false 2 (fun k => [treeExample0 k, treeExample1 k])
      treeExample0 (coinsOf (fun _ => List.replicate 16 7) fun k : Fin 2 => List.replicate 128 (UInt8.ofNat k))
      peerTreeStrategy 8 = .ok v ∧
    v.2.map peerReplyKind = [(4, []), (5, []), (4, []), (5, []), (6, [0, 1]), (2, []), (0, []), (1, [])] := by
  have h : (match poplar1PeerView toyPrims 20 2 (List.replicate 32 1) [1] false 2
        (fun k => [treeExample0 k, treeExample1 k])
      treeExample0 (coinsOf (fun _ => List.replicate 16 7) fun k : Fin 2 => List.replicate 128 (UInt8.ofNat k))
      peerTreeStrategy 8 with
    | .ok v => decide (v.2.map peerReplyKind = [(4, []), (5, []), (4, []), (5, []), (6, [0, 1]), (2, []), (0, []), (1, [])])
    | .error _ => false) = true := by decide +kernel
  split at h
  · next v hv => exact ⟨v, hv, of_decide_eq_true h⟩
  · cases h

/-- The views in which both reports are aggregated for the parameter above if any are -/
def peerTreeEvent : Set (List (Bytes × Bytes) × List (PeerReply FieldVec)) :=
  {v | ∀ aggParam ks share, .total aggParam ks share ∈ v.2 → aggParam = peerTreeParam ∧ ks = [0, 1]}

-- the attackers cannot tell the two families of measurements from each other
example : |poplar1PeerProbability toyPrims 20 2 (List.replicate 32 1) [1] false 2
        (fun k => [treeExample0 k, treeExample1 k]) treeExample0 (fun _ => List.replicate 16 7) peerTreeStrategy 8
        (poplar1Inputs [1] (List.replicate 16 7)) (16 * 162) peerTreeEvent -
      poplar1PeerProbability toyPrims 20 2 (List.replicate 32 1) [1] false 2
        (fun k => [treeExample0 k, treeExample1 k]) treeExample1 (fun _ => List.replicate 16 7) peerTreeStrategy 8
        (poplar1Inputs [1] (List.replicate 16 7)) (16 * 162) peerTreeEvent| ≤ 1 / 2 ^ 99 := by
  have hp : Poplar1.decodeAggParam peerTreeParam = .ok (0, [[false], [true]]) := by decide +kernel
  refine (C74_poplar1_privacy (m := 2) (by decide) (by decide) (by decide) (by decide) false (by decide) (by decide)
    (fun _ _ => by decide) (C72_inputs _ _) (fun _ _ => subset_rfl) (m0 := treeExample0) (m1 := treeExample1) ?_ ?_ ?_ 8 ?_).trans
    ?_
  · intro k _; unfold treeExample0; split <;> rfl
  · intro k _; unfold treeExample1; split <;> rfl
  · intro views replies k ap inbound a h ha
    have : ap = peerTreeParam := by
      unfold peerTreeStrategy peerTreeOpen peerTreeGoOn at h
      split at h <;> first
        | (cases h; rfl)
        | cases h
        | (split at h <;> first | (cases h; rfl) | cases h | (split at h <;> first | (cases h; rfl) | cases h))
    subst this
    rw [hp] at ha
    cases ha
    decide
  · intro v hv ap ks share a h ha p hpp
    obtain ⟨rfl, rfl⟩ := hv ap ks share h
    rw [hp] at ha
    cases ha
    simp only [List.mem_cons, List.not_mem_nil, or_false] at hpp
    rcases hpp with rfl | rfl <;> decide
  · norm_num

end Vdaf
