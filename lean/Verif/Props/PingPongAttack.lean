import Verif.Proofs.PingPongReduce

/-!
# C73: privacy in the ping-pong topology

One of the two Aggregators, the Leader or the Helper, is honest and runs the functions of `vdaf_ping_pong.py`.  The other one
and the Collector do not follow the protocol: they choose when and with what bytes the honest Aggregator begins with the
verification of a report, what messages it gets, and which batches are aggregated, and evaluate TurboSHAKE128 at any inputs.
They see the public shares and their own input shares, each message of the honest Aggregator and whether it rejects a report,
and its aggregate shares.
-/

namespace Vdaf
open Spec
variable {F : Type} [NttField F] {Meas Agg : Type} {prims : Prims} {fuel : ℕ}

/-- C73 for the circuits supplied by users: the truncated encodings have the same sums for each batch whose aggregate share
the attackers got. -/
theorem C73_prio3_privacy_custom {P : Prio3 (XofTurboShake128 prims fuel) F Meas Agg} {T : Spec.Task Meas Agg}
    (I : Spec.CustomInstance P T) (h2 : P.shares = 2) {verifyKey ctx : Bytes} (hkey : verifyKey.length = 32)
    (hctx : ctx.length + 8 < 2 ^ 16) (isLeader : Bool) {n N : ℕ} (hN : 32 ≤ N)
    (hN' : fuel * PyField.encSize F ≤ N) {nonces : ℕ → Bytes} (hn : ∀ k < n, (nonces k).length = 16)
    {S : Set Bytes} (hfin : S.Finite)
    (hS : ∀ rand nonce : Bytes, rand.length = P.randSize → nonce.length = 16 →
      secretInputs P rand ctx nonce (if isLeader then 0 else 1) ⊆ S)
    {m0 m1 : ℕ → Meas} (hm0 : ∀ k < n, T.valid (m0 k)) (hm1 : ∀ k < n, T.valid (m1 k)) (σ : PeerStrategy (List F)) (q : ℕ)
    {E : Set (List (Bytes × Bytes) × List (PeerReply (List F)))}
    (htot : ∀ v ∈ E, ∀ a B share, .total a B share ∈ v.2 → (∀ k ∈ B, k < n) →
      ∃ tot, TotalOf P.flp (B.map m0) tot ∧ TotalOf P.flp (B.map m1) tot) :
    |prio3PeerProbability P verifyKey ctx isLeader n m0 nonces σ q S N E -
        prio3PeerProbability P verifyKey ctx isLeader n m1 nonces σ q S N E| ≤ (18 * n * q + 3 * n ^ 2) / 2 ^ 256 := by
  obtain ⟨a, -, h1, h3, -⟩ := Prio3.encodings I n hm0
  obtain ⟨a', -, h1', h3', -⟩ := Prio3.encodings I n hm1
  rw [Prio3.peerProbability_eq I.wf hctx h2 h1 h3, Prio3.peerProbability_eq I.wf hctx h2 h1' h3']
  refine (C70_privacy_custom I hkey hctx (by cases isLeader <;> simp [h2]) hN hN' hn hfin hS hm0 hm1 _ (3 * q)
    fun v hv B hB hBn => ?_).trans (le_of_eq (by push_cast; ring))
  obtain ⟨share, hs⟩ := hv.2 B hB
  exact htot _ hv.1 _ B share hs hBn

/-- C73: for two choices of valid measurements, the probabilities that what the attackers see in `q` moves is in `E` differ
by at most `(18 n q + 3 n²) / 2^256`, provided that in each view in `E` the aggregate results agree for each batch whose
aggregate share the attackers got.  The probabilities are over the random bytes of the `n` Clients and over the values of
TurboSHAKE128 at the inputs in `S`, a finite set that contains at least those inputs that have a seed in them that the
attackers do not know. -/
theorem C73_prio3_privacy {P : Prio3 (XofTurboShake128 prims fuel) F Meas Agg} {fn : Spec.Fun Meas Agg}
    (I : Spec.Instance P fn) (h2 : P.shares = 2) {verifyKey ctx : Bytes} (hkey : verifyKey.length = 32)
    (hctx : ctx.length + 8 < 2 ^ 16) (isLeader : Bool) {n N : ℕ} (hN : 32 ≤ N)
    (hN' : fuel * PyField.encSize F ≤ N) {nonces : ℕ → Bytes} (hn : ∀ k < n, (nonces k).length = 16)
    {S : Set Bytes} (hfin : S.Finite)
    (hS : ∀ rand nonce : Bytes, rand.length = P.randSize → nonce.length = 16 →
      secretInputs P rand ctx nonce (if isLeader then 0 else 1) ⊆ S)
    {m0 m1 : ℕ → Meas} (hm0 : ∀ k < n, fn.valid (m0 k)) (hm1 : ∀ k < n, fn.valid (m1 k)) (σ : PeerStrategy (List F)) (q : ℕ)
    {E : Set (List (Bytes × Bytes) × List (PeerReply (List F)))}
    (hagg : ∀ v ∈ E, ∀ a B share, .total a B share ∈ v.2 → (∀ k ∈ B, k < n) → fn.agg (B.map m0) = fn.agg (B.map m1)) :
    |prio3PeerProbability P verifyKey ctx isLeader n m0 nonces σ q S N E -
        prio3PeerProbability P verifyKey ctx isLeader n m1 nonces σ q S N E| ≤ (18 * n * q + 3 * n ^ 2) / 2 ^ 256 :=
  C73_prio3_privacy_custom I.custom h2 hkey hctx isLeader hN hN' hn hfin hS hm0 hm1 σ q fun v hv a B share hB hBn =>
    totals_agree I hm0 hm1 hBn (hagg v hv a B share hB hBn)

/-! ## A concrete case

`Prio3Histogram` with two Aggregators, where the Helper is honest.  The attackers evaluate the oracle, begin with report 1 if
the output begins with a zero and with report 0 otherwise, with the message that an honest Leader would send if TurboSHAKE128
were `toyPrims.turboShake`, and have the report aggregated. -/

/-- The instance -/
def peerExample : Prio3 (XofTurboShake128 toyPrims 40) Field128 Int (List Nat) :=
  ⟨4, 2, 1, Histogram.circuit Field128 2 1, 9⟩

theorem peerExample_instance : Spec.Instance peerExample (Spec.histogramFun 2) :=
  (instance_histogram (shares := 2) (cl := 1) (by decide) (by rfl)).1

/-- The strategy -/
def peerStrategyExample : PeerStrategy (List Field128) := fun views replies =>
  match replies with
  | [] => .turboShake [1, 2, 3]
  | [.output s] =>
    let k := if s 0 = 0 then 1 else 0
    match views[k]? with
    | some (pub, share) =>
      match PingPong.leaderInit peerExample.vdaf (List.replicate 32 1) [1] [] (List.replicate 16 7) pub share with
      | .ok (.continued _ _ m) => .start k [] m
      | _ => .collect [] []
    | none => .collect [] []
  | [_, _] => .deliver 0 [] [5]
  | _ => .collect [] [0, 1]

/-- What the attackers see, for a given oracle -/
def peerExampleRun (m : ℕ → Int) : Res (List (Bytes × Bytes) × List (PeerReply (List Field128))) :=
  prio3PeerView (runWith peerExample fun m i => toyPrims.turboShake m 1 i) (List.replicate 32 1) [1] false 2 m
    (fun k => ⟨List.replicate 16 7, List.replicate 128 (UInt8.ofNat (k + 7))⟩) peerStrategyExample 4

-- a run in which the report is accepted and aggregated
example : ∃ views s m a B share, peerExampleRun (fun k => (k : Int)) =
    .ok (views, [.output s, .finished (some m), .refused, .total a B share]) ∧ B.length = 1 := by
  have h : (match peerExampleRun (fun k => (k : Int)) with
    | .ok (_, [.output _, .finished (some _), .refused, .total _ B _]) => decide (B.length = 1)
    | _ => false) = true := by decide +kernel
  split at h
  · next views s m a B share hv => exact ⟨views, s, m, a, B, share, hv, of_decide_eq_true h⟩
  · cases h

/-- The views in which no report but report 1 is aggregated -/
def onlyReport1 : Set (List (Bytes × Bytes) × List (PeerReply (List Field128))) :=
  {v | ∀ a B share, .total a B share ∈ v.2 → B = [1]}

-- the measurements `0, 1` and `1, 1`: the attackers cannot tell them from each other if report 1 is aggregated
example : |prio3PeerProbability peerExample (List.replicate 32 1) [1] false 2 (fun k => (k : Int))
        (fun _ => List.replicate 16 7) peerStrategyExample 4
        {m | ∃ rand nonce : Bytes, rand.length = peerExample.randSize ∧ nonce.length = 16 ∧
          m ∈ secretInputs peerExample rand [1] nonce 1} 640 onlyReport1 -
      prio3PeerProbability peerExample (List.replicate 32 1) [1] false 2 (fun _ => 1) (fun _ => List.replicate 16 7)
        peerStrategyExample 4
        {m | ∃ rand nonce : Bytes, rand.length = peerExample.randSize ∧ nonce.length = 16 ∧
          m ∈ secretInputs peerExample rand [1] nonce 1} 640 onlyReport1| ≤ 156 / 2 ^ 256 := by
  refine (C73_prio3_privacy peerExample_instance rfl (by decide) (by decide) false (by decide) (by decide)
    (fun _ _ => by decide) (C70_inputs _ _ _) (fun rand nonce h1 h2 m hm => ⟨rand, nonce, h1, h2, hm⟩)
    (m0 := fun k => (k : Int)) (m1 := fun _ => 1) ?_ ?_ peerStrategyExample 4 ?_).trans (le_of_eq (by norm_num))
  · intro k hk; interval_cases k <;> simp [Spec.histogramFun]
  · intro k hk; simp [Spec.histogramFun]
  · intro v hv a B share hB _
    rw [hv a B share hB]
    rfl

end Vdaf
