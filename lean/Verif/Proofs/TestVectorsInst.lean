import Verif.Proofs.TestVectorsGen
import Verif.Proofs.PingPongInst
import Verif.Proofs.Prio3Codec
import Verif.Proofs.Prio3Shard
import Verif.Proofs.Poplar1Shard

/-! The messages of Prio3 and Poplar1 can be encoded and survive encoding and decoding. -/

namespace Vdaf

namespace Prio3
variable {F : Type} [NttField F] {Meas Agg : Type} {prims : Prims} {fuel : ℕ}
  {P : Prio3 (XofTurboShake128 prims fuel) F Meas Agg}

theorem shard_shape (W : P.WF) {ctx : Bytes} (hctx : ctx.length + 8 < 2 ^ 16) {m : Meas} {meas : List F}
    (he : P.flp.encode m = .ok meas) (hmeas : meas.length = P.flp.measLen) {nonce rand : Bytes}
    {pub : Option (List Bytes)} {ish : List (Prio3InputShare F)} (h : P.shard ctx m nonce rand = .ok (pub, ish)) :
    Spec.PublicShareShape P pub ∧ ish.length = P.shares ∧ ∀ j s, ish[j]? = some s → Spec.InputShareShape P j s := by
  have hn : nonce.length = 16 ∧ rand.length = P.randSize := by
    have h0 := h
    unfold shard at h0
    rw [Except.bind_eq_ok] at h0; obtain ⟨_, h1, h0⟩ := h0
    rw [Except.bind_eq_ok] at h0; obtain ⟨_, h2, h0⟩ := h0
    exact ⟨not_not.1 (of_decide_eq_false (raiseIf_eq_ok.1 h1)), not_not.1 (of_decide_eq_false (raiseIf_eq_ok.1 h2))⟩
  obtain ⟨hn, hr⟩ := hn
  rcases (shard_good W hctx he hmeas hn hr).cases with ⟨⟨pub', ish'⟩, hs, hP⟩ | ⟨e, hs, -⟩
  swap
  · rw [h] at hs; cases hs
  rw [h] at hs
  cases hs
  obtain ⟨ms, ps, bl, prs, jrs, π, S, hhs, -, -⟩ := hP
  dsimp only at S hhs
  have hge := W.shares_ge
  refine ⟨?_, S.len, fun j s hj => ?_⟩
  · rcases S.joint with ⟨a, rfl, -⟩ | ⟨a, parts, b, seed, rfl, d, -⟩
    · exact a
    · refine ⟨a, by simp, fun p hp => ?_⟩
      obtain ⟨i, hi, rfl⟩ := List.mem_map.1 hp
      exact (d i (List.mem_range.1 hi)).2.2.2
  · have hjl : j < P.shares := by
      rw [← S.len]
      exact (List.getElem?_eq_some_iff.1 hj).1
    have hbl : Spec.OptSeed P (bl j) := by
      rcases S.joint with ⟨a, -, c⟩ | ⟨a, parts, b, seed, -, d, -⟩
      · rw [c]; exact a
      · rw [(d j hjl).1]; exact ⟨a, (d j hjl).2.1⟩
    obtain ⟨s', k1, k2⟩ := S.expand j hjl
    rw [hj] at k1
    cases k1
    cases j with
    | zero =>
      unfold expandInputShare at k2
      rw [if_neg (by omega)] at k2
      cases s with
      | helper _ _ => cases k2
      | leader a b c =>
        have h1 := Except.ok.inj k2
        have h2 : a = ms 0 := congrArg (fun x => x.1) h1
        have h3 : b = ps 0 := congrArg (fun x => x.2.1) h1
        have h4 : c = bl 0 := congrArg (fun x => x.2.2) h1
        subst h2 h3 h4
        refine ⟨rfl, ?_, ?_, hbl⟩
        · rw [← hmeas]
          exact S.measSum.1 ⟨0, hjl⟩
        · rw [S.proofSum.1 ⟨0, hjl⟩]
          exact flatMap_range_length fun i hi => (S.prove i hi).2
    | succ j =>
      have h1 : (ish.drop 1)[j]? = some s := by
        rw [List.getElem?_drop, Nat.add_comm 1 j]
        exact hj
      rw [hhs] at h1
      unfold Spec.helperShares at h1
      rw [List.getElem?_map, List.getElem?_range (by omega)] at h1
      simp only [Option.map_some, Option.some.injEq] at h1
      unfold randSize at hr
      have hns : 0 < P.flp.jointRandLen → P.numSeeds = P.shares + P.shares := fun h => by
        unfold numSeeds; rw [if_pos h]
      have hns' : ¬ 0 < P.flp.jointRandLen → P.numSeeds = P.shares := fun h => by
        unfold numSeeds; rw [if_neg h]
      split at h1
      · rename_i hjr
        subst h1
        refine ⟨by omega, ?_, hjr, ?_⟩
        · exact chunks_length hr (by rw [hns hjr]; omega)
        · exact chunks_length hr (by rw [hns hjr]; omega)
      · rename_i hjr
        subst h1
        refine ⟨by omega, ?_, show P.flp.jointRandLen = 0 by omega⟩
        exact chunks_length hr (by rw [hns' hjr]; omega)

theorem encodeInputShare_ok {j : ℕ} {s : Prio3InputShare F} (h : Spec.InputShareShape P j s) :
    ∃ b, P.encodeInputShare s = .ok b := by
  unfold encodeInputShare
  cases s with
  | helper s bl => exact ⟨_, rfl⟩
  | leader m p bl =>
    dsimp only
    rw [pyAssert_of' h.2.2.1, encodeVec_eq, encodeVec_eq]
    exact ⟨_, rfl⟩

theorem encodeVerifierShare_ok {s : List F × Option Bytes} (h : Spec.VerifierShareShape P s) :
    ∃ b, P.encodeVerifierShare s = .ok b := by
  unfold encodeVerifierShare
  obtain ⟨m, bl⟩ := s
  dsimp only
  rw [pyAssert_of' h.1, encodeVec_eq]
  exact ⟨_, rfl⟩

section
variable (W : P.WF) {ctx : Bytes} (hctx : ctx.length + 8 < 2 ^ 16) {Rs : List (Meas × Bytes × Bytes)}
  (hv : ∀ R ∈ Rs, ∃ meas, P.flp.encode R.1 = .ok meas ∧ meas.length = P.flp.measLen) (key : Bytes)
include W hctx hv

theorem roundTrips : Spec.RoundTrips P.vdaf (Prio3.shareCodec F) key () ctx Rs where
  aggParam b := by
    show Except.ok [] = Except.ok b ↔ decodeAggParam b = _
    unfold decodeAggParam
    constructor
    · intro h
      cases h
      rfl
    · intro h
      rw [not_not.1 (of_decide_eq_false (raiseIf_eq_ok.1 h))]
  publicShare R hR pub ins b h hb := by
    obtain ⟨meas, h1, h2⟩ := hv R hR
    have hs := (shard_shape W hctx h1 h2 h).1
    show P.decodePublicShare b = .ok pub
    cases pub with
    | none =>
      unfold decodePublicShare
      rw [if_pos (show P.flp.jointRandLen = 0 from hs)]
    | some parts => exact (decodePublicShare_ok hs.1).2 ⟨hs, hb⟩
  inputShare R hR pub ins j s b h hj hs hb := by
    obtain ⟨meas, h1, h2⟩ := hv R hR
    exact decodeInputShare_ok.2 ⟨(shard_shape W hctx h1 h2 h).2.2 j s hs, hb⟩
  verifierShare nonce pub j s k st sh b hj hh hb :=
    (decodeVerifierShare_ok (st := st)).2 ⟨verifyInit_shape W (held_zero hh).2, hb⟩
  verifierMessage nonce pub ins k sts shs msg b _ _ _ hm hb st _ := by
    have hs := sharesToMessage_shape hm
    cases hb
    show decodeVerifierMessage (F := F) st _ = .ok msg
    cases msg with
    | none => rfl
    | some b =>
      have hb : b.length = 32 := hs.2
      unfold decodeVerifierMessage
      show (if b.length = 0 then _ else _) = _
      rw [if_neg (by omega)]
      rfl
  outShare nonce pub j s k st sh msg o b _ _ _ hb := by
    show decodeOutShare () b = .ok o
    replace hb : encodeOutShare o = .ok b := hb
    unfold encodeOutShare at hb
    unfold decodeOutShare
    rw [encodeVec_eq] at hb
    rw [decodeVec_eq_ok, Except.ok.inj hb]
  aggShare os s b _ hb := by
    show decodeAggShare () b = .ok s
    replace hb : encodeAggShare s = .ok b := hb
    unfold encodeAggShare at hb
    unfold decodeAggShare
    rw [encodeVec_eq] at hb
    rw [decodeVec_eq_ok, Except.ok.inj hb]

theorem encodes : Spec.Encodes P.vdaf (Prio3.shareCodec F) key () ctx Rs where
  aggParam := ⟨[], rfl⟩
  publicShare R hR pub ins h := by
    show ∃ b, encodePublicShare pub = .ok b
    unfold encodePublicShare
    cases pub with
    | none => exact ⟨_, rfl⟩
    | some parts => exact ⟨_, rfl⟩
  inputShare R hR pub ins h s hs := by
    obtain ⟨meas, h1, h2⟩ := hv R hR
    obtain ⟨j, hj, rfl⟩ := List.mem_iff_getElem.1 hs
    exact encodeInputShare_ok ((shard_shape W hctx h1 h2 h).2.2 j _ (List.getElem?_eq_getElem hj))
  verifierShare nonce pub j s k st sh hj hh := encodeVerifierShare_ok (verifyInit_shape W (held_zero hh).2)
  verifierMessage _ _ _ _ _ _ msg _ _ _ _ := ⟨_, rfl⟩
  outShare _ _ _ _ _ _ _ _ o _ _ _ := ⟨_, encodeVec_eq o⟩
  aggShare _ s _ := ⟨_, encodeVec_eq s⟩
end
end Prio3

namespace Poplar1
variable {P : Poplar1} {prims : Prims} {fuel : ℕ}

theorem shard_shape (hf : fuel < 2 ^ 120) (hb : 0 < P.idpf.bits) (hv : P.idpf.valueLen = 2) {ctx : Bytes}
    (hc : ctx.length + 8 < 2 ^ 16) {alpha : List Bool} (ha : alpha.length = P.idpf.bits) {nonce rand : Bytes}
    {pub : List CorrectionWord} {ish : List Poplar1InputShare}
    (h : P.shard prims fuel ctx alpha nonce rand = .ok (pub, ish)) :
    (pub.length = P.idpf.bits ∧ ∀ level (h : level < pub.length), pub[level].seedCw.length = 16 ∧
      ∃ w : List (Fk (P.idpf.currentField level)),
        pub[level].wCw = ⟨P.idpf.currentField level, w⟩ ∧ w.length = P.idpf.valueLen) ∧
    ∀ s ∈ ish, s.key.length = 16 ∧ s.corrSeed.length = 32 ∧ s.corrInner.length = 2 * (P.idpf.bits - 1) ∧
        s.corrLeaf.length = 2 := by
  have hn : nonce.length = 16 ∧ rand.length = 128 := by
    have h0 := h
    unfold shard at h0
    rw [Except.bind_eq_ok] at h0; obtain ⟨_, h1, h0⟩ := h0
    rw [Except.bind_eq_ok] at h0; obtain ⟨_, h2, h0⟩ := h0
    exact ⟨not_not.1 (of_decide_eq_false (raiseIf_eq_ok.1 h1)), not_not.1 (of_decide_eq_false (raiseIf_eq_ok.1 h2))⟩
  obtain ⟨hn, hr⟩ := hn
  rcases (shard_layout (prims := prims) hf hb hv hc ha hn hr).cases with ⟨⟨pub', ish'⟩, hs, hP⟩ | ⟨e, hs, -⟩
  swap
  · rw [h] at hs; cases hs
  rw [h] at hs
  cases hs
  obtain ⟨key0, key1, seed0, seed1, seed2, tag, tagI, tagL, ks, inner0, inner1, kLeaf, leaf0, leaf1, u0, u1, w0, w1,
    hish, L⟩ := hP
  dsimp only at hish L
  subst hish
  obtain ⟨N, hN⟩ := L.run
  refine ⟨⟨hN.len, fun level hl => ?_⟩, ?_⟩
  · obtain ⟨bit, cw, -, h1, h2⟩ := hN.step level (by rw [← hN.len]; exact hl)
    rw [List.getElem?_eq_getElem hl] at h1
    cases h1
    obtain ⟨s0, t0, s1, t1, w0, w1, w, -, -, g1, g2, g3, g4, g5, -, g6, -, -, -, -, -, -, -, g7, -⟩ := h2.ex
    refine ⟨?_, w, g6, g7⟩
    rw [g5, xor_length, Idpf.pick_length g1 g2, Idpf.pick_length g3 g4]
    rfl
  · obtain ⟨a, b, c, A0, B0, A1, B1, -, h1, h2, -⟩ := L.leaf
    have l0 : leaf0.length = 2 := by rw [h1]; rfl
    have l1 : leaf1.length = 2 := by rw [h2]; rfl
    intro s hs
    rcases List.mem_cons.1 hs with rfl | hs
    · exact ⟨L.lkey0, L.lseed0, L.linner0, l0⟩
    · rw [List.mem_singleton] at hs
      subst hs
      exact ⟨L.lkey1, L.lseed1, L.linner1, l1⟩

theorem sharesToMessage_shape {ctx : Bytes} {a : Poplar1AggParam} {shs : List FieldVec} {m : Option FieldVec} {κ : Kind}
    (hs : ∀ v ∈ shs, v.1 = κ) (h : sharesToMessage ctx a shs = .ok m) : ∀ v, m = some v → v.1 = κ ∧ v.2 ≠ [] := by
  rintro v rfl
  unfold sharesToMessage at h
  split at h
  · rename_i v0 v1
    rw [Except.bind_eq_ok] at h
    obtain ⟨w, h1, h⟩ := h
    have hw : w.1 = κ := by
      unfold vecAddF at h1
      rw [Except.bind_eq_ok] at h1; obtain ⟨w, -, h1⟩ := h1
      cases h1
      exact hs v0 (by simp)
    split at h
    · rename_i h3
      cases h
      exact ⟨hw, by rw [h3]; simp⟩
    · split at h
      · cases h
      · cases h
    · cases h
  · cases h

theorem aggregate_kind {a : Poplar1AggParam} {os : List FieldVec} {s : FieldVec}
    (h : Spec.aggregate (P.vdaf prims fuel) a os = .ok s) : s.1 = P.idpf.currentField a.1 := by
  unfold Spec.aggregate at h
  rw [show (P.vdaf prims fuel).aggInit a = .ok ⟨P.idpf.currentField a.1, fieldZeros _ a.2.length⟩ from rfl,
    Except.ok_bind'] at h
  have key : ∀ (os : List FieldVec) (x : FieldVec), x.1 = P.idpf.currentField a.1 →
      forFold os x (fun x o => (P.vdaf prims fuel).aggUpdate a x o) = .ok s → s.1 = P.idpf.currentField a.1 := by
    intro os
    induction os with
    | nil =>
      intro x hx h
      cases h
      exact hx
    | cons o os ih =>
      intro x hx h
      rw [forFold_cons, Except.bind_eq_ok] at h
      obtain ⟨y, h1, h2⟩ := h
      refine ih y ?_ h2
      replace h1 : vecAddF x o = .ok y := h1
      unfold vecAddF at h1
      rw [Except.bind_eq_ok] at h1; obtain ⟨w, -, h1⟩ := h1
      cases h1
      exact hx
  exact key os _ rfl h

section
variable (hf : fuel < 2 ^ 120) (hb : 0 < P.idpf.bits) (hv : P.idpf.valueLen = 2) {ctx : Bytes}
  (hc : ctx.length + 8 < 2 ^ 16) {Rs : List (List Bool × Bytes × Bytes)} (hR : ∀ R ∈ Rs, R.1.length = P.idpf.bits)
  {a : Poplar1AggParam} (key : Bytes)
include hf hb hv hc hR

theorem roundTrips (ha : ∀ p ∈ a.2, p.length = a.1 + 1) :
    Spec.RoundTrips (P.vdaf prims fuel) P.shareCodec key a ctx Rs where
  aggParam b := by
    show encodeAggParam a = .ok b ↔ decodeAggParam b = .ok a
    rw [decodeAggParam_iff]
    exact ⟨fun h => ⟨ha, h⟩, fun h => h.2⟩
  publicShare R hR' pub ins b h hb' :=
    (Idpf.decodePublicShare_iff hb).2 ⟨(shard_shape hf hb hv hc (hR R hR') h).1, hb'⟩
  inputShare R hR' pub ins j s b h hj hs hb' :=
    (decodeInputShare_iff (aggId := j)).2 ⟨(shard_shape hf hb hv hc (hR R hR') h).2 s (List.mem_of_getElem? hs), hb'⟩
  verifierShare nonce pub j s k st sh b hj hh hb' := by
    obtain ⟨h1, h2, h3, -⟩ := held_shape hh
    refine decodeAtLevel_iff.2 ⟨?_, hb'⟩
    rw [h1]
    exact h3
  verifierMessage nonce pub ins k sts shs msg b h1 h2 hh hm hb' st hst := by
    have hs := sharesToMessage_shape (ctx := ctx) (a := a) (κ := P.idpf.currentField a.1) (by
      intro v hv
      obtain ⟨j, hj, rfl⟩ := List.mem_iff_getElem.1 hv
      obtain ⟨s, -, h⟩ := hh j (by omega) hj
      exact (held_shape h).2.2.1) hm
    obtain ⟨j, hj, rfl⟩ := List.mem_iff_getElem.1 hst
    obtain ⟨s, -, h⟩ := hh j hj (by omega)
    refine decodeVerifierMessage_iff.2 ⟨?_, hb'⟩
    rw [(held_shape h).1]
    exact hs
  outShare nonce pub j s k st sh msg o b hj hh hn hb' := by
    refine decodeAtLevel_iff.2 ⟨?_, hb'⟩
    replace hn : verifyNext ctx st msg = .ok (.out o) := hn
    obtain ⟨h1, h2, h3, -⟩ := held_shape hh
    rw [← h2]
    unfold verifyNext at hn
    split at hn
    · split at hn
      · cases hn
      · split at hn
        · rw [Except.bind_eq_ok] at hn; obtain ⟨A, -, hn⟩ := hn
          rw [Except.bind_eq_ok] at hn; obtain ⟨B, -, hn⟩ := hn
          rw [Except.bind_eq_ok] at hn; obtain ⟨id, -, hn⟩ := hn
          cases hn
        · cases hn
    · split at hn
      · cases hn
        rfl
      · cases hn
  aggShare os s b h hb' := decodeAtLevel_iff.2 ⟨aggregate_kind h, hb'⟩

omit hf hb hv hc hR in
theorem encodes (hb : 0 < P.idpf.bits) (hf : fuel < 2 ^ 120) (hv : P.idpf.valueLen = 2) (hc : ctx.length + 8 < 2 ^ 16)
    (hR : ∀ R ∈ Rs, R.1.length = P.idpf.bits) (ha : Spec.WellFormed a) :
    Spec.Encodes (P.vdaf prims fuel) P.shareCodec key a ctx Rs where
  aggParam := by
    obtain ⟨level, prefixes⟩ := a
    obtain ⟨h1, h2, h3⟩ := ha
    exact ⟨_, encodeAggParam_iff.2 ⟨h1, h2, encPrefixes_length h3, rfl⟩⟩
  publicShare R hR' pub ins h := by
    obtain ⟨b, hb', -⟩ := packBits_ok (Idpf.ctrlBits pub)
    exact ⟨_, Idpf.encodePublicShare_ok hb (shard_shape hf hb hv hc (hR R hR') h).1 hb'⟩
  inputShare _ _ _ _ _ s _ := ⟨_, encodeInputShare_eq s⟩
  verifierShare _ _ _ _ _ _ sh _ _ := ⟨_, encodeIdpfFieldVec_eq sh⟩
  verifierMessage _ _ _ _ _ _ msg _ _ _ _ := by
    cases msg with
    | none => exact ⟨_, rfl⟩
    | some v => exact ⟨_, encodeIdpfFieldVec_eq v⟩
  outShare _ _ _ _ _ _ _ _ o _ _ _ := ⟨_, encodeIdpfFieldVec_eq o⟩
  aggShare _ s _ := ⟨_, encodeIdpfFieldVec_eq s⟩
end
end Poplar1
end Vdaf
