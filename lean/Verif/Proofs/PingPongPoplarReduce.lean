import Verif.Proofs.PingPongPoplarSim
import Verif.Proofs.GenIdpfVec
import Verif.Proofs.PingPongReduce
import Verif.Props.Poplar1Oracle

/-! The privacy of Poplar1 in the ping-pong topology, from C72. -/

set_option linter.unusedSectionVars false

namespace Vdaf.PopPeer
open Spec PingPong Poplar1

/-- What an Aggregator does with its part of an honest report -/
structure Party (prims : Prims) (fuel bits : ℕ) (vk ctx nonce : Bytes) (pub : List CorrectionWord) (j : ℕ)
    (s : Poplar1InputShare) (e : Bytes) : Prop where
  encode : encodeInputShare s = .ok e
  decode : (⟨poplarIdpf bits⟩ : Poplar1).decodeInputShare prims fuel j e = .ok s
  good : ∀ a, Askable bits a →
    (⟨poplarIdpf bits⟩ : Poplar1).verifyInit prims fuel vk ctx j a nonce pub s = .error .fuel ∨
    ∃ st sh, (⟨poplarIdpf bits⟩ : Poplar1).verifyInit prims fuel vk ctx j a nonce pub s = .ok (st, sh) ∧ st.level = a.1 ∧
      st.step = .evaluate
  bad : ∀ a, bits ≤ a.1 → ∃ m, (⟨poplarIdpf bits⟩ : Poplar1).verifyInit prims fuel vk ctx j a nonce pub s = .error (.value m)

section
variable {prims : Prims} {fuel bits : ℕ} {vk ctx : Bytes} {isLeader : Bool} {n : ℕ}
variable (hf : fuel < 2 ^ 120) (hb : 0 < bits) (hvk : vk.length = 32) (hctx : ctx.length + 8 < 2 ^ 16)

include hf hb hvk hctx

theorem honest_shares {alpha : List Bool} (ha : alpha.length = bits) {nonce rand : Bytes} (hn : nonce.length = 16)
    (hr : rand.length = 128) {pub : List CorrectionWord} {ish : List Poplar1InputShare}
    (h : (⟨poplarIdpf bits⟩ : Poplar1).shard prims fuel ctx alpha nonce rand = .ok (pub, ish)) :
    ∃ s0 s1 pb e0 e1, ish = [s0, s1] ∧ encodePublicShare pub = .ok pb ∧
      (⟨poplarIdpf bits⟩ : Poplar1).decodePublicShare pb = .ok pub ∧
      Party prims fuel bits vk ctx nonce pub 0 s0 e0 ∧ Party prims fuel bits vk ctx nonce pub 1 s1 e1 := by
  have hg := shard_good (P := ⟨poplarIdpf bits⟩) (prims := prims) (fuel := fuel) hf hb rfl hctx ha hn hr
  have hl := shard_layout (P := ⟨poplarIdpf bits⟩) (prims := prims) (fuel := fuel) hf hb rfl hctx ha hn hr
  rw [h] at hg hl
  obtain ⟨s0, s1, beta, rfl, H⟩ := hg
  obtain ⟨key0, key1, seed0, seed1, seed2, tag, tagI, tagL, ks, inner0, inner1, kLeaf, leaf0, leaf1, u0, u1, w0, w1, hish, L⟩ := hl
  dsimp only at hish H L
  cases hish
  obtain ⟨N, hN⟩ := H.gen
  have typed : (poplarIdpf bits).Typed pub := genRun_typed hN
  obtain ⟨pk, hpk, -⟩ := packBits_ok (Idpf.ctrlBits pub)
  have hp := Idpf.encodePublicShare_ok hb typed hpk
  obtain ⟨_, _, _, A0, B0, A1, B1, -, hl0, hl1, -⟩ := L.leaf
  have mk : ∀ (j : ℕ) (s : Poplar1InputShare), j < 2 → s.key.length = 16 → s.corrSeed.length = 32 →
      s.corrInner.length = 2 * (bits - 1) → s.corrLeaf.length = 2 →
      (∀ a, Askable bits a → Good (fun e => e = .fuel) ((⟨poplarIdpf bits⟩ : Poplar1).verifyInit prims fuel vk ctx j a nonce pub s)
        fun r => r.1.level = a.1 ∧ r.1.step = .evaluate) →
      ∃ e, Party prims fuel bits vk ctx nonce pub j s e := by
    intro j s hj k1 k2 k3 k4 hgood
    refine ⟨_, encodeInputShare_eq s, (decodeInputShare_iff (P := ⟨poplarIdpf bits⟩)).2 ⟨⟨k1, k2, k3, k4⟩, encodeInputShare_eq s⟩,
      fun a hq => ?_, fun a hq => ?_⟩
    · rcases (hgood a hq).cases with ⟨⟨st, sh⟩, h1, h2⟩ | ⟨e, h1, rfl⟩
      · exact .inr ⟨st, sh, h1, h2⟩
      · exact .inl h1
    · obtain ⟨m, hm⟩ := Idpf.eval_rejects (poplarIdpf bits) prims fuel (aggId := j) (level := a.1) pub s.key (prefixes := a.2) ctx
        nonce (.inr (.inr (.inl (by exact_mod_cast hq))))
      refine ⟨m, ?_⟩
      unfold verifyInit
      dsimp only
      rw [hm]
      rfl
  have hinit : ∀ a, Askable bits a →
      Good (fun e => e = .fuel) ((⟨poplarIdpf bits⟩ : Poplar1).verifyInit prims fuel vk ctx 0 a nonce pub
        ⟨key0, seed0, inner0, leaf0⟩) (fun r => r.1.level = a.1 ∧ r.1.step = .evaluate) ∧
      Good (fun e => e = .fuel) ((⟨poplarIdpf bits⟩ : Poplar1).verifyInit prims fuel vk ctx 1 a nonce pub
        ⟨key1, seed1, inner1, leaf1⟩) (fun r => r.1.level = a.1 ∧ r.1.step = .evaluate) := by
    rintro ⟨level, prefixes⟩ ⟨q1, q2, q3, q4⟩
    dsimp only at q1 q2 q3 q4
    obtain ⟨g0, g1, -⟩ := hN.eval_good hf hctx H.key0 H.key1 q1 q3 q4
    obtain ⟨o0, o1, p0, p1, lo0, lo1, a, b, c, A0, B0, A1, B1, hoff, hab0, hab1, hA, hB⟩ := H.corr level q1
    obtain ⟨a0, b0, c0, rfl⟩ := list_three lo0
    obtain ⟨a1, b1, c1, rfl⟩ := list_three lo1
    have hvr := verifyRand_good (P := ⟨poplarIdpf bits⟩) (prims := prims) (fuel := fuel) (nonce := nonce) hvk hctx q2 prefixes.length
    have i0 := verifyInit_good (P := ⟨poplarIdpf bits⟩) (prims := prims) (fuel := fuel) (j := 0) (by decide) g0
      (corr := (a0, b0, c0)) p0 hab0 hvr
    have i1 := verifyInit_good (P := ⟨poplarIdpf bits⟩) (prims := prims) (fuel := fuel) (j := 1) (by decide) g1
      (corr := (a1, b1, c1)) p1 hab1 hvr
    refine ⟨i0.mono ?_, i1.mono ?_⟩
    · rintro r - ⟨_, _, -, -, -, rfl⟩
      exact ⟨rfl, rfl⟩
    · rintro r - ⟨_, _, -, -, -, rfl⟩
      exact ⟨rfl, rfl⟩
  obtain ⟨e0, P0⟩ := mk 0 _ (by decide) L.lkey0 L.lseed0 L.linner0 (by rw [hl0]; rfl) fun a hq => (hinit a hq).1
  obtain ⟨e1, P1⟩ := mk 1 _ (by decide) L.lkey1 L.lseed1 L.linner1 (by rw [hl1]; rfl) fun a hq => (hinit a hq).2
  exact ⟨_, _, _, e0, e1, rfl, hp, (Idpf.decodePublicShare_iff hb).2 ⟨typed, hp⟩, P0, P1⟩

omit hf hb hvk hctx in
/-- What the attackers know of a report, computed from the other view of the same report -/
def wireView (v : List CorrectionWord × Poplar1InputShare) : Bytes × Bytes :=
  (Prio3.bytesOf (encodePublicShare v.1), Prio3.bytesOf (encodeInputShare v.2))

theorem honest_report {alpha : List Bool} (ha : alpha.length = bits) {nonce rand : Bytes} (hn : nonce.length = 16)
    (hr : rand.length = 128) {cands : List (List Bool)} {pub : List CorrectionWord} {own other : Poplar1InputShare}
    (h : treeReport prims fuel bits ctx (if isLeader then 1 else 0) cands alpha nonce rand = .ok (pub, own, other)) :
    ∃ w, wireReport ((⟨poplarIdpf bits⟩ : Poplar1).vdaf prims fuel) nonce pub
        (if isLeader then [other, own] else [own, other]) = .ok w ∧
      wireView (pub, own) = w.view isLeader ∧ 
      (∀ ap a inbound, decodeAggParam ap = .ok a → Askable bits a →
        ((⟨poplarIdpf bits⟩ : Poplar1).verifyInit prims fuel vk ctx (1 - if isLeader then 1 else 0) a nonce pub other =
            .error .fuel ∧ initOf prims fuel bits isLeader vk ctx ap w inbound = .error .fuel) ∨
        ∃ st own, (⟨poplarIdpf bits⟩ : Poplar1).verifyInit prims fuel vk ctx (1 - if isLeader then 1 else 0) a nonce pub other =
            .ok (st, own) ∧ st.level = a.1 ∧ st.step = .evaluate ∧
          initOf prims fuel bits isLeader vk ctx ap w inbound =
            .ok (initState ⟨poplarIdpf bits⟩ isLeader ctx a.1 st own inbound)) ∧
      ∀ ap a inbound, decodeAggParam ap = .ok a → bits ≤ a.1 →
        initOf prims fuel bits isLeader vk ctx ap w inbound = .ok .rejected := by
  unfold treeReport at h
  rw [Except.bind_eq_ok] at h; obtain ⟨⟨pub', ish⟩, h1, h⟩ := h
  dsimp only at h
  rw [Except.bind_eq_ok] at h; obtain ⟨own', h2, h⟩ := h
  rw [Except.bind_eq_ok] at h; obtain ⟨other', h3, h⟩ := h
  rw [Except.bind_eq_ok] at h; obtain ⟨_, -, h⟩ := h
  cases h
  obtain ⟨s0, s1, pb, e0, e1, rfl, hp, hd, P0, P1⟩ := honest_shares hf hb hvk hctx ha hn hr h1
  have hw : wireReport ((⟨poplarIdpf bits⟩ : Poplar1).vdaf prims fuel) nonce pub [s0, s1] = .ok ⟨nonce, pb, e0, e1⟩ := by
    unfold wireReport
    rw [show ((⟨poplarIdpf bits⟩ : Poplar1).vdaf prims fuel).encodePublicShare pub = .ok pb from hp]
    simp only [Except.ok_bind']
    rw [show getI [s0, s1] 0 = .ok s0 from rfl, show getI [s0, s1] 1 = .ok s1 from rfl]
    simp only [Except.ok_bind']
    rw [show ((⟨poplarIdpf bits⟩ : Poplar1).vdaf prims fuel).encodeInputShare s0 = .ok e0 from P0.encode]
    simp only [Except.ok_bind']
    rw [show ((⟨poplarIdpf bits⟩ : Poplar1).vdaf prims fuel).encodeInputShare s1 = .ok e1 from P1.encode]
    rfl
  refine ⟨⟨nonce, pb, e0, e1⟩, ?_⟩
  cases isLeader with
  | true =>
    cases h2
    cases h3
    refine ⟨hw, ?_, fun ap a inbound hap hq => ?_, fun ap a inbound hap hq => ?_⟩
    · unfold wireView
      rw [hp, P1.encode]
      rfl
    · rcases P0.good a hq with h | ⟨st, sh, h4, h5, h6⟩
      · exact .inl ⟨h, (leaderInit_error hap hd P0.decode h).trans rfl⟩
      · exact .inr ⟨st, sh, h4, h5, h6, leaderInit_ok hap hd P0.decode h4 inbound⟩
    · obtain ⟨m, h⟩ := P0.bad a hq
      exact (leaderInit_error hap hd P0.decode h).trans rfl
  | false =>
    cases h2
    cases h3
    refine ⟨hw, ?_, fun ap a inbound hap hq => ?_, fun ap a inbound hap hq => ?_⟩
    · unfold wireView
      rw [hp, P0.encode]
      rfl
    · rcases P1.good a hq with h | ⟨st, sh, h4, h5, h6⟩
      · exact .inl ⟨h, (helperInit_error hap hd P1.decode h inbound).trans rfl⟩
      · exact .inr ⟨st, sh, h4, h5, h6, helperInit_ok hap hd P1.decode h4 h5 inbound⟩
    · obtain ⟨m, h⟩ := P1.bad a hq
      exact (helperInit_error hap hd P1.decode h inbound).trans rfl

omit hf hb hvk hctx in
/-- The strategy of the simulator -/
def simStrategy (bits : ℕ) (isLeader : Bool) (n : ℕ) (σ : PeerStrategy FieldVec) : TreeStrategy :=
  fun views => (simulator bits isLeader n (σ (views.map wireView))).strategy

/-- What the attackers see, computed from the simulator's view -/
def simView (bits : ℕ) (isLeader : Bool) (n : ℕ) (σ : PeerStrategy FieldVec) (v : TreeView) :
    List (Bytes × Bytes) × List (PeerReply FieldVec) :=
  (v.1.map wireView, ((simulator bits isLeader n (σ (v.1.map wireView))).run
    (simulator bits isLeader n (σ (v.1.map wireView))).init v.2).1.out)

/-- The views of the simulator that belong to `E` -/
def simEvent (bits : ℕ) (isLeader : Bool) (n : ℕ) (σ : PeerStrategy FieldVec)
    (E : Set (List (Bytes × Bytes) × List (PeerReply FieldVec))) : Set TreeView :=
  {v | simView bits isLeader n σ v ∈ E ∧ ∀ a js share, .total a js share ∈ v.2 → ∃ ap ks,
    .total ap ks share ∈ (simView bits isLeader n σ v).2 ∧ decodeAggParam ap = .ok a ∧ ks.Perm js}

theorem peerView_iff {cands : ℕ → List (List Bool)} {ms : ℕ → List Bool} (hm : ∀ k < n, (ms k).length = bits) {rs : ℕ → Coins}
    (hn : ∀ k < n, (rs k).nonce.length = 16) (hr : ∀ k < n, (rs k).rand.length = 128) (σ : PeerStrategy FieldVec) (q : ℕ)
    (E : Set (List (Bytes × Bytes) × List (PeerReply FieldVec))) :
    (∃ v ∈ E, poplar1PeerView prims fuel bits vk ctx isLeader n cands ms rs σ q = .ok v) ↔
      ∃ v ∈ simEvent bits isLeader n σ E, treeView prims fuel bits vk ctx (if isLeader then 1 else 0) n cands ms rs
        (simStrategy bits isLeader n σ) (3 * q) = .ok v := by
  unfold poplar1PeerView treeView
  set f := fun k => treeReport prims fuel bits ctx (if isLeader then 1 else 0) (cands k) (ms k) (rs k).nonce (rs k).rand with hfd
  cases h1 : mapRes f (List.range n) with
  | error e =>
    have : ∀ reports, mapRes (fun k => do
        let (pub, own, other) ← f k
        wireReport ((⟨poplarIdpf bits⟩ : Poplar1).vdaf prims fuel) (rs k).nonce pub
          (if isLeader then [other, own] else [own, other])) (List.range n) ≠ .ok reports := by
      intro reports hc
      obtain ⟨c1, c2⟩ := mapRes_range_iff.1 hc
      have hex : ∀ k, ∃ t, k < n → f k = .ok t := by
        intro k
        by_cases hk : k < n
        · obtain ⟨w, hw, -⟩ := c2 k hk
          obtain ⟨t, ht, -⟩ := Except.bind_eq_ok.1 hw
          exact ⟨t, fun _ => ht⟩
        · exact ⟨([], ⟨[], [], [], []⟩, ⟨[], [], [], []⟩), fun h => absurd h hk⟩
      choose g hg using hex
      rw [mapRes_range_tab (g := g) fun k hk => hg k hk] at h1
      cases h1
    constructor
    · rintro ⟨v, -, hv⟩
      obtain ⟨reports, hr, -⟩ := Except.bind_eq_ok.1 hv
      exact absurd hr (this reports)
    · rintro ⟨v, -, hv⟩
      cases hv
  | ok ts =>
    obtain ⟨c1, c2⟩ := mapRes_range_iff.1 h1
    have hrep : ∀ k, ∃ w, k < n → ∃ t, ts[k]? = some t ∧ _ := fun k => by
      by_cases hk : k < n
      · obtain ⟨t, ht, htk⟩ := c2 k hk
        obtain ⟨w, hw⟩ := honest_report (isLeader := isLeader) (vk := vk) hf hb hvk hctx (hm k hk) (hn k hk) (hr k hk)
          (pub := t.1) (own := t.2.1) (other := t.2.2) ht
        exact ⟨w, fun _ => ⟨t, htk, And.intro ht hw⟩⟩
      · exact ⟨⟨[], [], [], []⟩, fun h => absurd h hk⟩
    choose w hw using hrep
    set reports := (List.range n).map w with hreports
    have hrep : mapRes (fun k => do
        let (pub, own, other) ← f k
        wireReport ((⟨poplarIdpf bits⟩ : Poplar1).vdaf prims fuel) (rs k).nonce pub
          (if isLeader then [other, own] else [own, other])) (List.range n) = .ok reports :=
      mapRes_range_tab fun k hk => by
        obtain ⟨t, h3, h4, h5, -⟩ := hw k hk
        show (f k >>= _) = _
        rw [h4]
        exact h5
    have hget : ∀ k < n, reports[k]? = some (w k) := fun k hk => by simp [hreports, hk]
    set start : ℕ → Poplar1AggParam → Res (Poplar1VerifyState × FieldVec) := fun k param => do
      let r ← getI ts k
      (⟨poplarIdpf bits⟩ : Poplar1).verifyInit prims fuel vk ctx (1 - if isLeader then 1 else 0) param (rs k).nonce r.1 r.2.2
      with hstart
    have H : Honest prims fuel bits isLeader n vk ctx reports start := by
      refine ⟨by simp [hreports], fun k w' ap a inbound hk' ha hq => ?_, fun k w' ap a inbound hk' ha hq => ?_⟩
      all_goals
        have hkn : k < n := by
          have := (List.getElem?_eq_some_iff.1 hk').1
          simpa [hreports] using this
        obtain ⟨t, h3, -, -, -, h5, h6⟩ := hw k hkn
        rw [hget k hkn] at hk'
        cases hk'
      · have : start k a = (⟨poplarIdpf bits⟩ : Poplar1).verifyInit prims fuel vk ctx (1 - if isLeader then 1 else 0) a
            (rs k).nonce t.1 t.2.2 := by
          rw [hstart]
          dsimp only
          rw [show getI ts k = .ok t by unfold getI; rw [h3]]
          rfl
        rw [this]
        exact h5 ap a inbound ha hq
      · exact h6 ap a inbound ha hq
    have hviews : (ts.map fun r => (r.1, r.2.1)).map wireView = reports.map (WireReport.view isLeader) := by
      refine List.ext_getElem? fun k => ?_
      by_cases hk : k < n
      · obtain ⟨t, h3, -, -, h4, -⟩ := hw k hk
        simp only [List.getElem?_map, h3, hget k hk, Option.map_some]
        exact congrArg some h4
      · rw [List.getElem?_eq_none (by simp; omega), List.getElem?_eq_none (by simp [hreports]; omega)]
    rw [hrep]
    simp only [Except.ok_bind']
    unfold peerView
    dsimp only
    rw [← hviews]
    set views := ts.map (fun r => (r.1, r.2.1)) with hvs
    rcases simulation (σ := σ (views.map wireView)) H q with
      ⟨⟨e, k1⟩, e', k2⟩ | ⟨rs', c, mem, mem', k1, k2, k3, k4⟩
    · rw [show simStrategy bits isLeader n σ views = (simulator bits isLeader n (σ (views.map wireView))).strategy
        from rfl, k1, k2]
      constructor <;> (rintro ⟨v, -, hv⟩; cases hv)
    · rw [show simStrategy bits isLeader n σ views = (simulator bits isLeader n (σ (views.map wireView))).strategy
        from rfl, k1, k3]
      have hsim : simView bits isLeader n σ (views, rs') = (views.map wireView, c.out) := by
        unfold simView
        dsimp only
        rw [k2]
      constructor
      · rintro ⟨v, hv, hv'⟩
        cases hv'
        refine ⟨(views, rs'), ⟨by rw [hsim]; exact hv, fun a js share hB => ?_⟩, rfl⟩
        rw [hsim]
        exact k4.2 a js share hB
      · rintro ⟨v, hv, hv'⟩
        cases hv'
        refine ⟨_, hv.1, ?_⟩
        rw [hsim]
        rfl

theorem peerProbability_eq {cands : ℕ → List (List Bool)} {ms : ℕ → List Bool} (hm : ∀ k < n, (ms k).length = bits)
    {nonces : ℕ → Bytes} (hn : ∀ k < n, (nonces k).length = 16) (σ : PeerStrategy FieldVec) (q : ℕ) (S : Set Bytes)
    (N : ℕ) (E : Set (List (Bytes × Bytes) × List (PeerReply FieldVec))) :
    poplar1PeerProbability prims fuel bits vk ctx isLeader n cands ms nonces σ q S N E =
      treeProbability prims fuel bits vk ctx (if isLeader then 1 else 0) n cands ms nonces (simStrategy bits isLeader n σ)
        (3 * q) S N (simEvent bits isLeader n σ E) := by
  unfold poplar1PeerProbability treeProbability
  congr 3
  ext x
  refine and_congr_right fun hx => peerView_iff hf hb hvk hctx hm hn (fun k hk => ?_) σ q E
  show (if h : k < n then x.1 ⟨k, h⟩ else []).length = 128
  rw [dif_pos hk]
  exact hx.1 _

end

theorem planFirst_ask {bits : ℕ} {isLeader : Bool} {n m : ℕ} {c : SimState} {mv : PeerMove}
    (h : ∀ k ap inbound a, mv = .start k ap inbound → decodeAggParam ap = .ok a → a.2.length ≤ m) {k : ℕ}
    {param : Poplar1AggParam} (hp : planFirst n (plan bits isLeader n c mv).1 = .start k param) : param.2.length ≤ m := by
  cases mv with
  | turboShake m => cases hp
  | cipher key block => cases hp
  | start k' ap inbound =>
    unfold plan at hp
    dsimp only at hp
    cases ha : decodeAggParam ap with
    | error e => rw [ha] at hp; cases hp; exact Nat.zero_le _
    | ok a =>
      rw [ha] at hp
      dsimp only at hp
      split at hp
      · split at hp
        · cases hp; exact h _ _ _ _ rfl ha
        · cases hp; exact Nat.zero_le _
      · cases hp; exact Nat.zero_le _
  | deliver k' ap inbound =>
    unfold plan at hp
    dsimp only at hp
    split at hp
    · split at hp
      · dsimp only at hp
        split at hp
        · split at hp
          · cases hp
          · cases hp; exact Nat.zero_le _
        · split at hp
          · cases hp
          · cases hp; exact Nat.zero_le _
      · cases hp; exact Nat.zero_le _
    · cases hp; exact Nat.zero_le _
  | collect ap ks =>
    unfold plan at hp
    dsimp only at hp
    split at hp
    · cases hp
    · cases hp; exact Nat.zero_le _

theorem planSecond_ask {bits : ℕ} {isLeader : Bool} {n : ℕ} {r1 : TreeReply} {p : SimPlan} {k : ℕ}
    {param : Poplar1AggParam} (hp : planSecond bits isLeader n r1 p = .start k param) : param.2.length = 0 := by
  have key : ∀ {k : ℕ} {param : Poplar1AggParam}, noop n = .start k param → param.2.length = 0 := by
    intro k param h
    cases h
    rfl
  unfold planSecond at hp
  split at hp
  · split at hp
    · exact key hp
    · split at hp
      · split at hp
        · cases hp
        · exact key hp
      · exact key hp
  · split at hp
    · split at hp
      · cases hp
      · exact key hp
    · exact key hp
  · exact key hp

theorem simStrategy_ask {bits : ℕ} {isLeader : Bool} {n m : ℕ} {σ : PeerStrategy FieldVec} (hσ : PeerAskAtMost m σ) :
    AskAtMost m (simStrategy bits isLeader n σ) := by
  intro views replies k param h
  unfold simStrategy Game.Sim.strategy at h
  split at h
  · exact planFirst_ask (fun k ap inbound a h1 h2 => hσ _ _ _ _ _ _ h1 h2) h
  · rw [planSecond_ask h]; exact Nat.zero_le _
  · cases h; exact Nat.zero_le _

theorem simEvent_counts {bits : ℕ} {isLeader : Bool} {n : ℕ} {σ : PeerStrategy FieldVec} {m0 m1 : ℕ → List Bool}
    {E : Set (List (Bytes × Bytes) × List (PeerReply FieldVec))} (hE : ∀ v ∈ E, PeerSameCounts m0 m1 v) :
    ∀ v ∈ simEvent bits isLeader n σ E, SameCounts m0 m1 v := by
  intro v hv a js share h p hp
  obtain ⟨ap, ks, h1, h2, h3⟩ := hv.2 a js share h
  rw [← h3.countP_eq, ← h3.countP_eq]
  exact hE _ hv.1 ap ks share a h1 h2 p hp

end Vdaf.PopPeer
