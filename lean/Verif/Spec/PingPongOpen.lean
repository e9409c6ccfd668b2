import Verif.Spec.PingPongAttack

/-!
# Specification vocabulary for the privacy of the ping-pong topology, with dishonest Clients

As in `Spec/PingPongAttack.lean`, one of the two Aggregators and the Collector do not follow the protocol.  In addition the
attackers submit reports of their own, which are arbitrary byte strings: the honest Aggregator verifies them with the peer and
aggregates them together with the reports of the honest Clients.
-/

namespace Vdaf.Spec
open PingPong

/-- What the attackers can do next: a move as before, submit a report, have the honest Aggregator begin with the verification
of their report `j`, send it a message for this report, or ask for its aggregate share, for a batch with the reports `ks` of
the honest Clients and their own reports `js` -/
inductive OpenMove where
  | honest (move : PeerMove)
  | submit (r : WireReport)
  | start (j : ℕ) (aggParam inbound : Bytes)
  | deliver (j : ℕ) (aggParam inbound : Bytes)
  | collect (aggParam : Bytes) (ks js : List ℕ)

/-- The attackers: from what they know of the honest Clients' reports and all the replies up to now they decide on the next
move.  The replies are those of `PeerReply`; the reports that it names for an aggregate share are those of the honest
Clients. -/
abbrev OpenStrategy (AggShare : Type) := List (Bytes × Bytes) → List (PeerReply AggShare) → OpenMove

section
variable {Meas AggParam PubShare InShare OutShare AggShare AggRes VState VShare VMsg : Type}

/-- What the honest Aggregator has: for the reports of the honest Clients, and the reports of the attackers and what it has
for those -/
structure OpenMemory (AggParam VState VShare OutShare : Type) where
  honest : PeerMemory AggParam VState VShare OutShare
  submitted : List WireReport
  own : PeerMemory AggParam VState VShare OutShare

variable (V : VdafImpl Meas AggParam PubShare InShare OutShare AggShare AggRes VState VShare VMsg)

/-- The reply to a move.  The honest Aggregator does the same with the reports of the attackers as with those of the honest
Clients. -/
def openRespond (prims : Prims) (isLeader : Bool) (verifyKey ctx : Bytes) (reports : List WireReport)
    (mem : OpenMemory AggParam VState VShare OutShare) :
    OpenMove → Res (PeerReply AggShare × OpenMemory AggParam VState VShare OutShare)
  | .honest move => do
    let (reply, honest) ← peerRespond V prims isLeader verifyKey ctx reports mem.honest move
    return (reply, { mem with honest := honest })
  | .submit r => return (.sent [], { mem with submitted := mem.submitted ++ [r] })
  | .start j aggParam inbound => do
    let (reply, own) ← peerRespond V prims isLeader verifyKey ctx mem.submitted mem.own (.start j aggParam inbound)
    return (reply, { mem with own := own })
  | .deliver j aggParam inbound => do
    let (reply, own) ← peerRespond V prims isLeader verifyKey ctx mem.submitted mem.own (.deliver j aggParam inbound)
    return (reply, { mem with own := own })
  | .collect aggParam ks js =>
    match V.decodeAggParam aggParam with
    | .ok a => do
      let batch := mem.honest.outs.filter fun o => o.2.1 = aggParam ∧ o.1 ∈ ks
      let ownBatch := mem.own.outs.filter fun o => o.2.1 = aggParam ∧ o.1 ∈ js
      let share ← aggregate V a (batch.map (·.2.2) ++ ownBatch.map (·.2.2))
      return (.total aggParam (batch.map (·.1)) share, mem)
    | .error _ => return (.refused, mem)

/-- The first `q` moves: the replies, and what the honest Aggregator has -/
def openPlay (prims : Prims) (isLeader : Bool) (verifyKey ctx : Bytes) (reports : List WireReport)
    (σ : List (PeerReply AggShare) → OpenMove) :
    ℕ → Res (List (PeerReply AggShare) × OpenMemory AggParam VState VShare OutShare)
  | 0 => return ([], ⟨.empty, [], .empty⟩)
  | q + 1 => do
    let (replies, mem) ← openPlay prims isLeader verifyKey ctx reports σ q
    let (reply, mem) ← openRespond V prims isLeader verifyKey ctx reports mem (σ replies)
    return (replies ++ [reply], mem)

/-- All that the attackers see in `q` moves -/
def openView (prims : Prims) (isLeader : Bool) (verifyKey ctx : Bytes) (reports : List WireReport)
    (σ : OpenStrategy AggShare) (q : ℕ) : Res (List (Bytes × Bytes) × List (PeerReply AggShare)) := do
  let views := reports.map (WireReport.view isLeader)
  let (replies, _) ← openPlay V prims isLeader verifyKey ctx reports (σ views) q
  return (views, replies)
end

/-! ### Prio3 -/

section
variable {F : Type} [NttField F] {Meas Agg : Type} {prims : Prims} {fuel : ℕ}
variable (P : Prio3 (XofTurboShake128 prims fuel) F Meas Agg)

/-- The attack on `n` reports of Prio3 with the measurements `ms`, as in `prio3PeerView` -/
def prio3OpenView (verifyKey ctx : Bytes) (isLeader : Bool) (n : ℕ) (ms : ℕ → Meas) (rs : ℕ → Coins)
    (σ : OpenStrategy (List F)) (q : ℕ) : Res (List (Bytes × Bytes) × List (PeerReply (List F))) := do
  let reports ← mapRes (fun k => do
    let t ← transcript P verifyKey ctx (ms k) (rs k).nonce (rs k).rand
    wireReport P.vdaf (rs k).nonce t.publicShare t.inputShares) (List.range n)
  openView P.vdaf prims isLeader verifyKey ctx reports σ q

/-- The probability that what the attackers see is in `E`, over the random bytes of the honest Clients and over
TurboSHAKE128 -/
noncomputable def prio3OpenProbability (verifyKey ctx : Bytes) (isLeader : Bool) (n : ℕ) (ms : ℕ → Meas)
    (nonces : ℕ → Bytes) (σ : OpenStrategy (List F)) (q : ℕ) (S : Set Bytes) (N : ℕ)
    (E : Set (List (Bytes × Bytes) × List (PeerReply (List F)))) : ℚ :=
  (Set.ncard {x ∈ worlds P n S N |
    ∃ v ∈ E, prio3OpenView (runWith P x.2) verifyKey ctx isLeader n ms (coinsOf nonces x.1) σ q = .ok v} : ℚ) /
    Set.ncard (worlds P n S N)
end

/-! ### Poplar1 -/

section
variable (prims : Prims) (fuel bits : ℕ)

/-- The attack on `n` reports of Poplar1 with the measurements `ms`, as in `poplar1PeerView` -/
def poplar1OpenView (verifyKey ctx : Bytes) (isLeader : Bool) (n : ℕ) (candidates : ℕ → List (List Bool))
    (ms : ℕ → List Bool) (rs : ℕ → Coins) (σ : OpenStrategy FieldVec) (q : ℕ) :
    Res (List (Bytes × Bytes) × List (PeerReply FieldVec)) := do
  let reports ← mapRes (fun k => do
    let (pub, own, other) ← treeReport prims fuel bits ctx (if isLeader then 1 else 0) (candidates k) (ms k) (rs k).nonce
      (rs k).rand
    wireReport ((⟨poplarIdpf bits⟩ : Poplar1).vdaf prims fuel) (rs k).nonce pub
      (if isLeader then [other, own] else [own, other])) (List.range n)
  openView ((⟨poplarIdpf bits⟩ : Poplar1).vdaf prims fuel) prims isLeader verifyKey ctx reports σ q

/-- The probability that what the attackers see is in `E`, over the random bytes of the honest Clients, over TurboSHAKE128
and over AES-128 -/
noncomputable def poplar1OpenProbability (verifyKey ctx : Bytes) (isLeader : Bool) (n : ℕ)
    (candidates : ℕ → List (List Bool)) (ms : ℕ → List Bool) (nonces : ℕ → Bytes) (σ : OpenStrategy FieldVec) (q : ℕ)
    (S : Set Bytes) (N : ℕ) (E : Set (List (Bytes × Bytes) × List (PeerReply FieldVec))) : ℚ :=
  (Set.ncard {x ∈ treeWorlds prims n S N | ∃ v ∈ E, poplar1OpenView (withOracles prims x.2.1 x.2.2) fuel bits verifyKey ctx
    isLeader n candidates ms (coinsOf nonces x.1) σ q = .ok v} : ℚ) / Set.ncard (treeWorlds prims n S N)

/-- The attackers ask for at most `m` prefixes at once, for the honest Clients' reports and for their own. -/
def OpenAskAtMost (m : ℕ) (σ : OpenStrategy FieldVec) : Prop :=
  ∀ views replies k aggParam inbound a, (σ views replies = .honest (.start k aggParam inbound) ∨
    σ views replies = .start k aggParam inbound) → Poplar1.decodeAggParam aggParam = .ok a → a.2.length ≤ m

end
end Vdaf.Spec
