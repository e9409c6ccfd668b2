import Verif.Spec.PingPong
import Verif.Spec.PrivacyOracle
import Verif.Spec.Poplar1Oracle

/-!
# Specification vocabulary for the privacy of the ping-pong topology

One of the two Aggregators, the Leader or the Helper, is honest: it runs the functions of `vdaf_ping_pong.py` on the byte
strings that it gets.  The other one works together with the Collector and does not follow the protocol: it chooses the
aggregation parameters and sends arbitrary byte strings.  The Clients are honest.
-/

namespace Vdaf.Spec
open PingPong

/-- What the attackers can do next: evaluate TurboSHAKE128 or AES-128, have the honest Aggregator begin with the
verification of report `k` for an encoded aggregation parameter (if it is the Helper, with a first message), send it a
message for a report and an aggregation parameter, or ask for its aggregate share -/
inductive PeerMove where
  | turboShake (input : Bytes)
  | cipher (key block : Bytes)
  | start (k : ℕ) (aggParam inbound : Bytes)
  | deliver (k : ℕ) (aggParam inbound : Bytes)
  | collect (aggParam : Bytes) (ks : List ℕ)

/-- What the attackers learn: the output of TurboSHAKE128 or of AES-128, that the honest Aggregator refuses the request,
that it rejects the report, that it goes on and sends a message, that it finishes (and may send a last message), or its
aggregate share for the aggregation parameter and those of the reports in question that it has accepted for it -/
inductive PeerReply (AggShare : Type) where
  | output (stream : ℕ → UInt8)
  | block (bytes : Bytes)
  | refused
  | rejected
  | sent (outbound : Bytes)
  | finished (outbound : Option Bytes)
  | total (aggParam : Bytes) (ks : List ℕ) (share : AggShare)

/-- The attackers: from what they know of the reports and all the replies up to now they decide on the next move. -/
abbrev PeerStrategy (AggShare : Type) := List (Bytes × Bytes) → List (PeerReply AggShare) → PeerMove

/-- An encoded report -/
structure WireReport where
  nonce : Bytes
  publicShare : Bytes
  leaderShare : Bytes
  helperShare : Bytes

section
variable {Meas AggParam PubShare InShare OutShare AggShare AggRes VState VShare VMsg : Type}

/-- What the honest Aggregator has: the state of each report and encoded aggregation parameter, the aggregation parameters
with which it has begun for each report, and the output shares of the reports that it has accepted, in this order -/
structure PeerMemory (AggParam VState VShare OutShare : Type) where
  states : ℕ → Bytes → PingPongState VState VShare OutShare
  previous : ℕ → List AggParam
  outs : List (ℕ × Bytes × OutShare)

/-- At the beginning -/
def PeerMemory.empty : PeerMemory AggParam VState VShare OutShare := ⟨fun _ _ => .start, fun _ => [], []⟩

/-- Enter the new state of report `k`. -/
def PeerMemory.put (mem : PeerMemory AggParam VState VShare OutShare) (k : ℕ) (aggParam : Bytes)
    (s : PingPongState VState VShare OutShare) : PeerMemory AggParam VState VShare OutShare where
  states k' aggParam' := if k' = k ∧ aggParam' = aggParam then s else mem.states k' aggParam'
  previous := mem.previous
  outs := mem.outs ++ ((outShare s).map fun o => (k, aggParam, o)).toList

/-- Remember that the verification of report `k` has begun for the aggregation parameter `a`. -/
def PeerMemory.begin (mem : PeerMemory AggParam VState VShare OutShare) (k : ℕ) (a : AggParam) :
    PeerMemory AggParam VState VShare OutShare :=
  { mem with previous := fun k' => if k' = k then mem.previous k ++ [a] else mem.previous k' }

/-- What the attackers learn from the new state of a report -/
def seenOf (s : PingPongState VState VShare OutShare) : PeerReply AggShare :=
  match s with
  | .continued _ _ m => .sent m
  | .finished _ => .finished none
  | .finishedWithOutbound _ m => .finished (some m)
  | _ => .rejected

variable (V : VdafImpl Meas AggParam PubShare InShare OutShare AggShare AggRes VState VShare VMsg)

/-- The reply to a move.  The honest Aggregator begins with the verification of a report only if `is_valid` says so for
the aggregation parameter and those that it has used for this report before. -/
def peerRespond (prims : Prims) (isLeader : Bool) (verifyKey ctx : Bytes) (reports : List WireReport)
    (mem : PeerMemory AggParam VState VShare OutShare) :
    PeerMove → Res (PeerReply AggShare × PeerMemory AggParam VState VShare OutShare)
  | .turboShake m => return (.output (prims.turboShake m 1), mem)
  | .cipher key block => return (.block (prims.aes key block), mem)
  | .start k aggParam inbound =>
    match reports[k]?, V.decodeAggParam aggParam with
    | some r, .ok a =>
      match V.isValid a (mem.previous k) with
      | .ok true => do
        let s ← if isLeader then leaderInit V verifyKey ctx aggParam r.nonce r.publicShare r.leaderShare
          else helperInit V verifyKey ctx aggParam r.nonce r.publicShare r.helperShare inbound
        return (seenOf s, (mem.begin k a).put k aggParam s)
      | _ => return (.refused, mem)
    | _, _ => return (.refused, mem)
  | .deliver k aggParam inbound =>
    match mem.states k aggParam with
    | .continued st r _ => do
      let s ← if isLeader then leaderContinued V ctx aggParam st r inbound else helperContinued V ctx aggParam st r inbound
      return (seenOf s, mem.put k aggParam s)
    | _ => return (.refused, mem)
  | .collect aggParam ks =>
    match V.decodeAggParam aggParam with
    | .ok a => do
      let batch := mem.outs.filter fun o => o.2.1 = aggParam ∧ o.1 ∈ ks
      let share ← aggregate V a (batch.map (·.2.2))
      return (.total aggParam (batch.map (·.1)) share, mem)
    | .error _ => return (.refused, mem)

/-- The first `q` moves: the replies, and what the honest Aggregator has -/
def peerPlay (prims : Prims) (isLeader : Bool) (verifyKey ctx : Bytes) (reports : List WireReport)
    (σ : List (PeerReply AggShare) → PeerMove) :
    ℕ → Res (List (PeerReply AggShare) × PeerMemory AggParam VState VShare OutShare)
  | 0 => return ([], .empty)
  | q + 1 => do
    let (replies, mem) ← peerPlay prims isLeader verifyKey ctx reports σ q
    let (reply, mem) ← peerRespond V prims isLeader verifyKey ctx reports mem (σ replies)
    return (replies ++ [reply], mem)

/-- What the attackers know of a report: the public share and their own input share -/
def WireReport.view (isLeader : Bool) (r : WireReport) : Bytes × Bytes :=
  (r.publicShare, if isLeader then r.helperShare else r.leaderShare)

/-- All that the attackers see in `q` moves -/
def peerView (prims : Prims) (isLeader : Bool) (verifyKey ctx : Bytes) (reports : List WireReport)
    (σ : PeerStrategy AggShare) (q : ℕ) : Res (List (Bytes × Bytes) × List (PeerReply AggShare)) := do
  let views := reports.map (WireReport.view isLeader)
  let (replies, _) ← peerPlay V prims isLeader verifyKey ctx reports (σ views) q
  return (views, replies)

/-- The encoding of a report with two input shares -/
def wireReport (nonce : Bytes) (pub : PubShare) (shares : List InShare) : Res WireReport := do
  let p ← V.encodePublicShare pub
  let s0 ← getI shares 0
  let s1 ← getI shares 1
  let b0 ← V.encodeInputShare s0
  let b1 ← V.encodeInputShare s1
  return ⟨nonce, p, b0, b1⟩
end

/-! ### Prio3 -/

section
variable {F : Type} [NttField F] {Meas Agg : Type} {prims : Prims} {fuel : ℕ}
variable (P : Prio3 (XofTurboShake128 prims fuel) F Meas Agg)

/-- The attack on `n` reports of Prio3 with the measurements `ms`.  Reports for which the honest execution fails are left
out. -/
def prio3PeerView (verifyKey ctx : Bytes) (isLeader : Bool) (n : ℕ) (ms : ℕ → Meas) (rs : ℕ → Coins)
    (σ : PeerStrategy (List F)) (q : ℕ) : Res (List (Bytes × Bytes) × List (PeerReply (List F))) := do
  let reports ← mapRes (fun k => do
    let t ← transcript P verifyKey ctx (ms k) (rs k).nonce (rs k).rand
    wireReport P.vdaf (rs k).nonce t.publicShare t.inputShares) (List.range n)
  peerView P.vdaf prims isLeader verifyKey ctx reports σ q

/-- The probability that what the attackers see is in `E`, over the random bytes of the Clients and over TurboSHAKE128 -/
noncomputable def prio3PeerProbability (verifyKey ctx : Bytes) (isLeader : Bool) (n : ℕ) (ms : ℕ → Meas)
    (nonces : ℕ → Bytes) (σ : PeerStrategy (List F)) (q : ℕ) (S : Set Bytes) (N : ℕ)
    (E : Set (List (Bytes × Bytes) × List (PeerReply (List F)))) : ℚ :=
  (Set.ncard {x ∈ worlds P n S N |
    ∃ v ∈ E, prio3PeerView (runWith P x.2) verifyKey ctx isLeader n ms (coinsOf nonces x.1) σ q = .ok v} : ℚ) /
    Set.ncard (worlds P n S N)
end

/-! ### Poplar1 -/

section
variable (prims : Prims) (fuel bits : ℕ)

/-- The attack on `n` reports of Poplar1 with the measurements `ms`; `candidates` as in `treeReport` -/
def poplar1PeerView (verifyKey ctx : Bytes) (isLeader : Bool) (n : ℕ) (candidates : ℕ → List (List Bool))
    (ms : ℕ → List Bool) (rs : ℕ → Coins) (σ : PeerStrategy FieldVec) (q : ℕ) :
    Res (List (Bytes × Bytes) × List (PeerReply FieldVec)) := do
  let reports ← mapRes (fun k => do
    let (pub, own, other) ← treeReport prims fuel bits ctx (if isLeader then 1 else 0) (candidates k) (ms k) (rs k).nonce
      (rs k).rand
    wireReport ((⟨poplarIdpf bits⟩ : Poplar1).vdaf prims fuel) (rs k).nonce pub
      (if isLeader then [other, own] else [own, other])) (List.range n)
  peerView ((⟨poplarIdpf bits⟩ : Poplar1).vdaf prims fuel) prims isLeader verifyKey ctx reports σ q

/-- The probability that what the attackers see is in `E`, over the random bytes of the Clients, over TurboSHAKE128 and over
AES-128 -/
noncomputable def poplar1PeerProbability (verifyKey ctx : Bytes) (isLeader : Bool) (n : ℕ)
    (candidates : ℕ → List (List Bool)) (ms : ℕ → List Bool) (nonces : ℕ → Bytes) (σ : PeerStrategy FieldVec) (q : ℕ)
    (S : Set Bytes) (N : ℕ) (E : Set (List (Bytes × Bytes) × List (PeerReply FieldVec))) : ℚ :=
  (Set.ncard {x ∈ treeWorlds prims n S N | ∃ v ∈ E, poplar1PeerView (withOracles prims x.2.1 x.2.2) fuel bits verifyKey ctx
    isLeader n candidates ms (coinsOf nonces x.1) σ q = .ok v} : ℚ) / Set.ncard (treeWorlds prims n S N)

/-- The attackers ask for at most `m` prefixes at once. -/
def PeerAskAtMost (m : ℕ) (σ : PeerStrategy FieldVec) : Prop :=
  ∀ views replies k aggParam inbound a, σ views replies = .start k aggParam inbound →
    Poplar1.decodeAggParam aggParam = .ok a → a.2.length ≤ m

/-- For each of the aggregate shares that the attackers got, and each of its prefixes, as many of the aggregated reports begin
with the prefix for the measurements `m0` as for the measurements `m1`. -/
def PeerSameCounts (m0 m1 : ℕ → List Bool) (v : List (Bytes × Bytes) × List (PeerReply FieldVec)) : Prop :=
  ∀ aggParam ks share a, .total aggParam ks share ∈ v.2 → Poplar1.decodeAggParam aggParam = .ok a → ∀ p ∈ a.2,
    ks.countP (fun k => p <+: m0 k) = ks.countP (fun k => p <+: m1 k)

end
end Vdaf.Spec
