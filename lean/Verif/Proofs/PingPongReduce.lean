import Verif.Proofs.PingPongSim
import Verif.Props.PrivacyOracle

/-! The privacy of Prio3 in the ping-pong topology, from C70. -/

set_option linter.unusedSectionVars false

namespace Vdaf.Prio3
open Spec PingPong

section
variable {F : Type} [NttField F] {Meas Agg : Type} {prims : Prims} {fuel : ℕ}

/-- A byte string, if the computation succeeds -/
def bytesOf (r : Res Bytes) : Bytes :=
  match r with
  | .ok b => b
  | .error _ => []

/-- What the attackers know of a report, computed from the other view of the same report -/
def wireView (P : Prio3 (XofTurboShake128 prims fuel) F Meas Agg) (t : Transcript F) : Bytes × Bytes :=
  (bytesOf (encodePublicShare t.publicShare), match t.inputShares with
    | s :: _ => bytesOf (P.encodeInputShare s)
    | [] => [])

variable {P : Prio3 (XofTurboShake128 prims fuel) F Meas Agg} {T : Bytes → ℕ → UInt8} (W : P.WF)
  {vk ctx : Bytes} (hctx : ctx.length + 8 < 2 ^ 16) (h2 : P.shares = 2) {isLeader : Bool}

include W hctx h2

theorem honest_report {m : Meas} {meas : List F} (he : P.flp.encode m = .ok meas) (hl : meas.length = P.flp.measLen)
    {nonce rand : Bytes} {t : Transcript F} (ht : transcript (runWith P T) vk ctx m nonce rand = .ok t) :
    ∃ w, wireReport (runWith P T).vdaf nonce t.publicShare t.inputShares = .ok w ∧
      wireView P (t.view (if isLeader then 0 else 1)) = w.view isLeader ∧ ∃ st own : VS F,
      t.states[if isLeader then 0 else 1]? = some st ∧ t.verifierShares[if isLeader then 0 else 1]? = some own ∧
      ∀ inbound, (if isLeader then leaderInit (runWith P T).vdaf vk ctx [] w.nonce w.publicShare w.leaderShare
        else helperInit (runWith P T).vdaf vk ctx [] w.nonce w.publicShare w.helperShare inbound) =
      .ok (if isLeader then match firstMessage P own with
          | some m => .continued st 0 m
          | none => .rejected
        else match helperInput P ctx own inbound with
          | some q => verdict st (q.map fun m => bytesAt (T m) 0 32) fun o =>
            .finishedWithOutbound o ((helperMessage (q.map fun m => bytesAt (T m) 0 32)).getD [])
          | none => .rejected) := by
  unfold transcript at ht
  rw [Except.bind_eq_ok] at ht; obtain ⟨⟨pub, ish⟩, k1, ht⟩ := ht
  dsimp only at ht
  rw [Except.bind_eq_ok] at ht; obtain ⟨outs, k2, ht⟩ := ht
  rw [Except.bind_eq_ok] at ht; obtain ⟨msg, k3, ht⟩ := ht
  cases ht
  have WT := W.runWith T
  obtain ⟨p1, p2, p3⟩ := shard_shape WT hctx he hl k1
  rw [show (runWith P T).shares = 2 from h2] at p2 k2
  obtain ⟨s0, s1, rfl⟩ := List.length_eq_two.1 p2
  obtain ⟨l1, l2⟩ := mapRes_range_iff.1 k2
  obtain ⟨⟨st0, sh0⟩, v0, o0⟩ := l2 0 (by norm_num)
  obtain ⟨⟨st1, sh1⟩, v1, o1⟩ := l2 1 (by norm_num)
  obtain ⟨o0', o1', rfl⟩ := List.length_eq_two.1 l1
  cases o0
  cases o1
  have v0 : (runWith P T).verifyInit vk ctx 0 () nonce pub s0 = .ok (st0, sh0) := v0
  have v1 : (runWith P T).verifyInit vk ctx 1 () nonce pub s1 = .ok (st1, sh1) := v1
  have q0 := p3 0 s0 rfl
  have q1 := p3 1 s1 rfl
  obtain ⟨b0, e0⟩ := encodeInputShare_ok q0
  obtain ⟨b1, e1⟩ := encodeInputShare_ok q1
  obtain ⟨pb, ep⟩ : ∃ pb, encodePublicShare pub = .ok pb := by cases pub <;> exact ⟨_, rfl⟩
  have hw : wireReport (runWith P T).vdaf nonce pub [s0, s1] = .ok ⟨nonce, pb, b0, b1⟩ := by
    unfold wireReport
    rw [show (runWith P T).vdaf.encodePublicShare pub = .ok pb from ep]
    simp only [Except.ok_bind']
    rw [show getI [s0, s1] 0 = .ok s0 from rfl, show getI [s0, s1] 1 = .ok s1 from rfl]
    simp only [Except.ok_bind']
    rw [show (runWith P T).vdaf.encodeInputShare s0 = .ok b0 from e0]
    simp only [Except.ok_bind']
    rw [show (runWith P T).vdaf.encodeInputShare s1 = .ok b1 from e1]
    rfl
  have dp : (runWith P T).decodePublicShare pb = .ok pub := TestVectors.decodePublicShare_of_shape p1 ep
  refine ⟨_, hw, ?_, ?_⟩
  · cases isLeader with
    | true =>
      show (bytesOf (encodePublicShare pub), bytesOf ((runWith P T).encodeInputShare s1)) = (pb, b1)
      rw [ep, e1]
      rfl
    | false =>
      show (bytesOf (encodePublicShare pub), bytesOf ((runWith P T).encodeInputShare s0)) = (pb, b0)
      rw [ep, e0]
      rfl
  · cases isLeader with
    | true =>
      exact ⟨st0, sh0, rfl, rfl, fun inbound => leaderInit_honest dp (decodeInputShare_ok.2 ⟨q0, e0⟩) v0⟩
    | false =>
      exact ⟨st1, sh1, rfl, rfl, fun inbound => helperInit_honest W hctx dp (decodeInputShare_ok.2 ⟨q1, e1⟩) v1⟩

omit W hctx h2 in
/-- The strategy of the simulator -/
def simStrategy (P : Prio3 (XofTurboShake128 prims fuel) F Meas Agg) (isLeader : Bool) (ctx : Bytes)
    (σ : PeerStrategy (List F)) : QueryStrategy F :=
  fun views => (simulator P isLeader ctx views (σ (views.map (wireView P)))).strategy

/-- What the attackers see, computed from the simulator's view -/
def simView (P : Prio3 (XofTurboShake128 prims fuel) F Meas Agg) (isLeader : Bool) (ctx : Bytes)
    (σ : PeerStrategy (List F)) (v : List (Transcript F) × List (QueryReply F)) :
    List (Bytes × Bytes) × List (PeerReply (List F)) :=
  (v.1.map (wireView P), ((simulator P isLeader ctx v.1 (σ (v.1.map (wireView P)))).run
    (simulator P isLeader ctx v.1 (σ (v.1.map (wireView P)))).init v.2).1.out)

/-- The views of the simulator that belong to `E` -/
def simEvent (P : Prio3 (XofTurboShake128 prims fuel) F Meas Agg) (isLeader : Bool) (ctx : Bytes)
    (σ : PeerStrategy (List F)) (E : Set (List (Bytes × Bytes) × List (PeerReply (List F)))) :
    Set (List (Transcript F) × List (QueryReply F)) :=
  {v | simView P isLeader ctx σ v ∈ E ∧ ∀ B ∈ batchesBy (simStrategy P isLeader ctx σ v.1) v.2, ∃ share,
    PeerReply.total [] B share ∈ (simView P isLeader ctx σ v).2}

theorem peerView_iff {n : ℕ} {ms : ℕ → Meas} {a : ℕ → List F} (he : ∀ k < n, P.flp.encode (ms k) = .ok (a k))
    (hl : ∀ k < n, (a k).length = P.flp.measLen) (rs : ℕ → Coins) (σ : PeerStrategy (List F)) (q : ℕ)
    (E : Set (List (Bytes × Bytes) × List (PeerReply (List F)))) :
    (∃ v ∈ E, prio3PeerView (runWith P T) vk ctx isLeader n ms rs σ q = .ok v) ↔
      ∃ v ∈ simEvent P isLeader ctx σ E, queryView (runWith P T) vk ctx (if isLeader then 0 else 1) n ms rs
        (simStrategy P isLeader ctx σ) (3 * q) = .ok v := by
  unfold prio3PeerView queryView
  set f := fun k => transcript (runWith P T) vk ctx (ms k) (rs k).nonce (rs k).rand with hf
  cases h1 : mapRes f (List.range n) with
  | error e =>
    have : ∀ reports, mapRes (fun k => do
        let t ← f k
        wireReport (runWith P T).vdaf (rs k).nonce t.publicShare t.inputShares) (List.range n) ≠ .ok reports := by
      intro reports hc
      obtain ⟨c1, c2⟩ := mapRes_range_iff.1 hc
      have hex : ∀ k, ∃ t, k < n → f k = .ok t := by
        intro k
        by_cases hk : k < n
        · obtain ⟨w, hw, -⟩ := c2 k hk
          obtain ⟨t, ht, -⟩ := Except.bind_eq_ok.1 hw
          exact ⟨t, fun _ => ht⟩
        · exact ⟨⟨none, [], [], [], none⟩, fun h => absurd h hk⟩
      choose g hg using hex
      rw [mapRes_range_tab (g := g) fun k hk => hg k hk] at h1
      cases h1
    constructor
    · rintro ⟨v, -, hv⟩
      obtain ⟨reports, hr, -⟩ := Except.bind_eq_ok.1 hv
      exact absurd hr (this reports)
    · rintro ⟨v, -, hv⟩
      cases hv
  | ok ts =>
    obtain ⟨c1, c2⟩ := mapRes_range_iff.1 h1
    have hrep : ∀ k, ∃ w, k < n → ∃ t, ts[k]? = some t ∧ _ := fun k => by
      by_cases hk : k < n
      · obtain ⟨t, ht, htk⟩ := c2 k hk
        obtain ⟨w, hw⟩ := honest_report (isLeader := isLeader) W hctx h2 (he k hk) (hl k hk) ht
        exact ⟨w, fun _ => ⟨t, htk, And.intro ht hw⟩⟩
      · exact ⟨⟨[], [], [], []⟩, fun h => absurd h hk⟩
    choose w hw using hrep
    set reports := (List.range n).map w with hreports
    have hrep : mapRes (fun k => do
        let t ← f k
        wireReport (runWith P T).vdaf (rs k).nonce t.publicShare t.inputShares) (List.range n) = .ok reports :=
      mapRes_range_tab fun k hk => by
        obtain ⟨t, h3, h4, h5, -⟩ := hw k hk
        show (f k >>= _) = _
        rw [h4]
        exact h5
    have hget : ∀ k < n, reports[k]? = some (w k) := fun k hk => by simp [hreports, hk]
    have H : Honest P T isLeader vk ctx ts reports := by
      refine ⟨by simp [hreports, c1], fun k t w' hk hk' => ?_⟩
      have hkn : k < n := by rw [← c1]; exact (List.getElem?_eq_some_iff.1 hk).1
      obtain ⟨t', h3, -, -, -, h5⟩ := hw k hkn
      rw [hk] at h3
      cases h3
      rw [hget k hkn] at hk'
      cases hk'
      exact h5
    have hviews : (ts.map (Transcript.view (if isLeader then 0 else 1))).map (wireView P) =
        reports.map (WireReport.view isLeader) := by
      refine List.ext_getElem? fun k => ?_
      by_cases hk : k < n
      · obtain ⟨t, h3, -, -, h4, -⟩ := hw k hk
        simp only [List.getElem?_map, h3, hget k hk, Option.map_some]
        exact congrArg some h4
      · rw [List.getElem?_eq_none (by simp; omega), List.getElem?_eq_none (by simp [hreports]; omega)]
    rw [hrep]
    simp only [Except.ok_bind']
    unfold peerView
    dsimp only
    rw [← hviews]
    set views := ts.map (Transcript.view (if isLeader then 0 else 1)) with hvs
    rw [peerPlay_game, queryPlay_game]
    rcases Game.simulate (S := simulator P isLeader ctx views (σ (views.map (wireView P))))
      (respond := queryRespond (runWith P T) ctx (if isLeader then 0 else 1) ts)
      (respond' := peerRespond (Prio3.vdaf (runWith P T)) (withOracle prims T) isLeader vk ctx reports)
      (m0 := []) (m0' := .empty) (σ' := σ (views.map (wireView P))) (out := SimState.out)
      (R := fun rs c mem mem' => Rel P isLeader ctx views (σ (views.map (wireView P))) (if isLeader then 0 else 1) ts rs c
        mem mem') Rel.init rfl (fun rs c mem mem' hr hR => simulator_step H hvs rfl hr hR) q with
      ⟨⟨e, k1⟩, e', k2⟩ | ⟨rs', c, mem, mem', k1, k2, k3, k4⟩
    · rw [show simStrategy P isLeader ctx σ views = (simulator P isLeader ctx views (σ (views.map (wireView P)))).strategy
        from rfl, k1, k2]
      constructor <;> (rintro ⟨v, -, hv⟩; cases hv)
    · rw [show simStrategy P isLeader ctx σ views = (simulator P isLeader ctx views (σ (views.map (wireView P)))).strategy
        from rfl, k1, k3]
      have hsim : simView P isLeader ctx σ (views, rs') = (views.map (wireView P), c.out) := by
        unfold simView
        dsimp only
        rw [k2]
      constructor
      · rintro ⟨v, hv, hv'⟩
        cases hv'
        refine ⟨(views, rs'), ⟨by rw [hsim]; exact hv, fun B hB => ?_⟩, rfl⟩
        rw [hsim]
        exact k4.batches B hB
      · rintro ⟨v, hv, hv'⟩
        cases hv'
        refine ⟨_, hv.1, ?_⟩
        rw [hsim]
        rfl

theorem peerProbability_eq {n : ℕ} {ms : ℕ → Meas} {a : ℕ → List F} (he : ∀ k < n, P.flp.encode (ms k) = .ok (a k))
    (hl : ∀ k < n, (a k).length = P.flp.measLen) (nonces : ℕ → Bytes) (σ : PeerStrategy (List F)) (q : ℕ) (S : Set Bytes)
    (N : ℕ) (E : Set (List (Bytes × Bytes) × List (PeerReply (List F)))) :
    prio3PeerProbability P vk ctx isLeader n ms nonces σ q S N E =
      viewProbability P vk ctx (if isLeader then 0 else 1) n ms nonces (simStrategy P isLeader ctx σ) (3 * q) S N
        (simEvent P isLeader ctx σ E) := by
  unfold prio3PeerProbability viewProbability
  congr 3
  ext x
  exact and_congr_right fun _ => peerView_iff W hctx h2 he hl _ σ q E

end
end Vdaf.Prio3
