import Verif.Proofs.OpenPrio3
import Verif.Proofs.OpenView

/-!
# C77: privacy in the ping-pong topology with dishonest Clients

As in C73, one of the two Aggregators and the Collector do not follow the protocol.  They also submit reports of their own,
chosen from all that they have seen up to now, which the honest Aggregator verifies with the peer and aggregates together with
the reports of the honest Clients.  So a batch can consist of few honest reports and any number of the attackers' reports:
what counts are the aggregate results of the honest ones.
-/

namespace Vdaf
open Spec Open
variable {F : Type} [NttField F] {Meas Agg : Type} {prims : Prims} {fuel : ℕ}

/-- The attackers that submit reports are as likely to see `E` as those that do not are to see what leads to `E`. -/
theorem prio3OpenProbability_eq (P : Prio3 (XofTurboShake128 prims fuel) F Meas Agg) (verifyKey ctx : Bytes)
    (isLeader : Bool) (n : ℕ) (ms : ℕ → Meas) (nonces : ℕ → Bytes) (σ : OpenStrategy (List F)) (q : ℕ) (S : Set Bytes)
    (N : ℕ) (E : Set (List (Bytes × Bytes) × List (PeerReply (List F)))) :
    prio3OpenProbability P verifyKey ctx isLeader n ms nonces σ q S N E =
      prio3PeerProbability P verifyKey ctx isLeader n ms nonces
        (strategyOf (fun p => (withPrims P p).vdaf) prims Set.univ 7 isLeader verifyKey ctx σ) (8 * q) S N
        (openEvent (fun p => (withPrims P p).vdaf) prims Set.univ 7 isLeader verifyKey ctx σ E) := by
  unfold prio3OpenProbability prio3PeerProbability
  congr 3
  ext x
  refine and_congr_right fun _ => ?_
  unfold prio3OpenView prio3PeerView
  cases mapRes (fun k => do
      let t ← transcript (runWith P x.2) verifyKey ctx (ms k) (coinsOf nonces x.1 k).nonce (coinsOf nonces x.1 k).rand
      wireReport (runWith P x.2).vdaf (coinsOf nonces x.1 k).nonce t.publicShare t.inputShares) (List.range n) with
  | error e => constructor <;> rintro ⟨v, -, h⟩ <;> cases h
  | ok reports =>
    exact openView_iff (V := fun p => (withPrims P p).vdaf) (p := withOracle prims x.2)
      (fun views => prio3_feasible P isLeader verifyKey ctx (σ views)) trivial
      ⟨(prio3_static P).aggUpdate _, (prio3_static P).decodeAggParam _⟩ reports q E

/-- C77 for the circuits supplied by users: the truncated encodings have the same sums for the honest reports in each batch
whose aggregate share the attackers got. -/
theorem C77_prio3_privacy_custom {P : Prio3 (XofTurboShake128 prims fuel) F Meas Agg} {T : Spec.Task Meas Agg}
    (I : Spec.CustomInstance P T) (h2 : P.shares = 2) {verifyKey ctx : Bytes} (hkey : verifyKey.length = 32)
    (hctx : ctx.length + 8 < 2 ^ 16) (isLeader : Bool) {n N : ℕ} (hN : 32 ≤ N)
    (hN' : fuel * PyField.encSize F ≤ N) {nonces : ℕ → Bytes} (hn : ∀ k < n, (nonces k).length = 16)
    {S : Set Bytes} (hfin : S.Finite)
    (hS : ∀ rand nonce : Bytes, rand.length = P.randSize → nonce.length = 16 →
      secretInputs P rand ctx nonce (if isLeader then 0 else 1) ⊆ S)
    {m0 m1 : ℕ → Meas} (hm0 : ∀ k < n, T.valid (m0 k)) (hm1 : ∀ k < n, T.valid (m1 k)) (σ : OpenStrategy (List F)) (q : ℕ)
    {E : Set (List (Bytes × Bytes) × List (PeerReply (List F)))}
    (htot : ∀ v ∈ E, ∀ a B share, .total a B share ∈ v.2 → (∀ k ∈ B, k < n) →
      ∃ tot, TotalOf P.flp (B.map m0) tot ∧ TotalOf P.flp (B.map m1) tot) :
    |prio3OpenProbability P verifyKey ctx isLeader n m0 nonces σ q S N E -
        prio3OpenProbability P verifyKey ctx isLeader n m1 nonces σ q S N E| ≤ (144 * n * q + 3 * n ^ 2) / 2 ^ 256 := by
  rw [prio3OpenProbability_eq, prio3OpenProbability_eq]
  refine (C73_prio3_privacy_custom I h2 hkey hctx isLeader hN hN' hn hfin hS hm0 hm1 _ (8 * q) ?_).trans
    (le_of_eq (by push_cast; ring))
  rintro v ⟨s, -, hE, hs⟩ a B share hB hBn
  obtain ⟨share', h'⟩ := hs a B share hB
  exact htot _ hE a B share' h' hBn

/-- C77: for two choices of valid measurements of the honest Clients, the probabilities that what the attackers see in `q`
moves is in `E` differ by at most `(144 n q + 3 n²) / 2^256`, provided that in each view in `E` the aggregate results of the
honest reports agree for each batch whose aggregate share the attackers got.  The probabilities are over the random bytes of
the `n` honest Clients and over the values of TurboSHAKE128 at the inputs in `S`, a finite set that contains at least those
inputs that have a seed in them that the attackers do not know. -/
theorem C77_prio3_privacy {P : Prio3 (XofTurboShake128 prims fuel) F Meas Agg} {fn : Spec.Fun Meas Agg}
    (I : Spec.Instance P fn) (h2 : P.shares = 2) {verifyKey ctx : Bytes} (hkey : verifyKey.length = 32)
    (hctx : ctx.length + 8 < 2 ^ 16) (isLeader : Bool) {n N : ℕ} (hN : 32 ≤ N)
    (hN' : fuel * PyField.encSize F ≤ N) {nonces : ℕ → Bytes} (hn : ∀ k < n, (nonces k).length = 16)
    {S : Set Bytes} (hfin : S.Finite)
    (hS : ∀ rand nonce : Bytes, rand.length = P.randSize → nonce.length = 16 →
      secretInputs P rand ctx nonce (if isLeader then 0 else 1) ⊆ S)
    {m0 m1 : ℕ → Meas} (hm0 : ∀ k < n, fn.valid (m0 k)) (hm1 : ∀ k < n, fn.valid (m1 k)) (σ : OpenStrategy (List F)) (q : ℕ)
    {E : Set (List (Bytes × Bytes) × List (PeerReply (List F)))}
    (hagg : ∀ v ∈ E, ∀ a B share, .total a B share ∈ v.2 → (∀ k ∈ B, k < n) → fn.agg (B.map m0) = fn.agg (B.map m1)) :
    |prio3OpenProbability P verifyKey ctx isLeader n m0 nonces σ q S N E -
        prio3OpenProbability P verifyKey ctx isLeader n m1 nonces σ q S N E| ≤ (144 * n * q + 3 * n ^ 2) / 2 ^ 256 :=
  C77_prio3_privacy_custom I.custom h2 hkey hctx isLeader hN hN' hn hfin hS hm0 hm1 σ q fun v hv a B share hB hBn =>
    totals_agree I hm0 hm1 hBn (hagg v hv a B share hB hBn)

/-! ## A concrete case

The instance of C73, where the Helper is honest.  The attackers submit a report of the measurement 1, have it verified, have
report 1 of the honest Clients verified, and ask for the aggregate share of both. -/

/-- The attackers' report -/
def ownReportExample : WireReport :=
  match (do
    let t ← transcript peerExample (List.replicate 32 1) [1] 1 (List.replicate 16 9) (List.replicate 128 3)
    wireReport peerExample.vdaf (List.replicate 16 9) t.publicShare t.inputShares) with
  | .ok r => r
  | .error _ => ⟨[], [], [], []⟩

/-- The message that an honest Leader would send if TurboSHAKE128 were `toyPrims.turboShake` -/
def leaderMessageExample (nonce pub share : Bytes) : Bytes :=
  match PingPong.leaderInit peerExample.vdaf (List.replicate 32 1) [1] [] nonce pub share with
  | .ok (.continued _ _ m) => m
  | _ => []

/-- The strategy -/
def openStrategyExample : OpenStrategy (List Field128) := fun views replies =>
  match replies with
  | [] => .submit ownReportExample
  | [_] => .start 0 [] (leaderMessageExample (List.replicate 16 9) ownReportExample.publicShare ownReportExample.leaderShare)
  | [_, _] =>
    match views[1]? with
    | some (pub, share) => .honest (.start 1 [] (leaderMessageExample (List.replicate 16 7) pub share))
    | none => .honest (.turboShake [])
  | _ => .collect [] [0, 1] [0]

/-- What the attackers see, for a given oracle -/
def openExampleRun (m : ℕ → Int) : Res (List (Bytes × Bytes) × List (PeerReply (List Field128))) :=
  prio3OpenView (runWith peerExample fun m i => toyPrims.turboShake m 1 i) (List.replicate 32 1) [1] false 2 m
    (fun k => ⟨List.replicate 16 7, List.replicate 128 (UInt8.ofNat (k + 7))⟩) openStrategyExample 4

-- a run in which both reports are accepted, and aggregated
example : ∃ views m m' a share, openExampleRun (fun k => (k : Int)) =
    .ok (views, [.sent [], .finished (some m), .finished (some m'), .total a [1] share]) := by
  have h : (match openExampleRun (fun k => (k : Int)) with
    | .ok (_, [.sent [], .finished (some _), .finished (some _), .total _ [1] _]) => true
    | _ => false) = true := by decide +kernel
  split at h
  · next views m m' a share hv => exact ⟨views, m, m', a, share, hv⟩
  · cases h

-- the measurements `0, 1` and `1, 1`: the attackers cannot tell them from each other if report 1 is aggregated
example : |prio3OpenProbability peerExample (List.replicate 32 1) [1] false 2 (fun k => (k : Int))
        (fun _ => List.replicate 16 7) openStrategyExample 4
        {m | ∃ rand nonce : Bytes, rand.length = peerExample.randSize ∧ nonce.length = 16 ∧
          m ∈ secretInputs peerExample rand [1] nonce 1} 640 onlyReport1 -
      prio3OpenProbability peerExample (List.replicate 32 1) [1] false 2 (fun _ => 1) (fun _ => List.replicate 16 7)
        openStrategyExample 4
        {m | ∃ rand nonce : Bytes, rand.length = peerExample.randSize ∧ nonce.length = 16 ∧
          m ∈ secretInputs peerExample rand [1] nonce 1} 640 onlyReport1| ≤ 1164 / 2 ^ 256 := by
  refine (C77_prio3_privacy peerExample_instance rfl (by decide) (by decide) false (by decide) (by decide)
    (fun _ _ => by decide) (C70_inputs _ _ _) (fun rand nonce h1 h2 m hm => ⟨rand, nonce, h1, h2, hm⟩)
    (m0 := fun k => (k : Int)) (m1 := fun _ => 1) ?_ ?_ openStrategyExample 4 ?_).trans (le_of_eq (by norm_num))
  · intro k hk; interval_cases k <;> simp [Spec.histogramFun]
  · intro k hk; simp [Spec.histogramFun]
  · intro v hv a B share hB _
    rw [hv a B share hB]
    rfl

end Vdaf
