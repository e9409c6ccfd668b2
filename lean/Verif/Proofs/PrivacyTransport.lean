import Verif.Proofs.PrivacyStep

/-! A report is processed in the same way with other secret seeds, if the values of the oracle are moved along. -/

set_option linter.unusedSectionVars false

namespace Vdaf
open Finset
open Spec (secretInputs runWith tag seedAt bytesAt)

namespace Prio3
variable {F : Type} [NttField F] {Meas Agg : Type} {prims : Prims} {fuel : ℕ}
  {P : Prio3 (XofTurboShake128 prims fuel) F Meas Agg} {T T' : Bytes → ℕ → UInt8}
variable (W : P.WF) {ctx : Bytes} (hctx : ctx.length + 8 < 2 ^ 16)
include W hctx

theorem transport {vk nonce rand rand' : Bytes} {h : ℕ} (A : AgreeOff P ctx h T T') (hh : h < P.shares)
    (hvk : vk.length = 32) (hn : nonce.length = 16) (hr : rand'.length = P.randSize) {m : Meas} {a : List F}
    (he : P.flp.encode m = .ok a) (ha : a.length = P.flp.measLen)
    (hseed : ∀ j, j < P.shares → j ≠ h → 0 < j → Spec.shareSeed P rand' j = Spec.shareSeed P rand j)
    (hblind : 0 < P.flp.jointRandLen → ∀ j, j < P.shares → j ≠ h → Spec.blindSeed P rand' j = Spec.blindSeed P rand j)
    {t : Spec.Transcript F} {ms ps : ℕ → List F} {bl : ℕ → Option Bytes} {prs jrs qrs : List F}
    {π os w : ℕ → List F} {seed : Option Bytes} {part : ℕ → Option Bytes}
    (W0 : World (runWith P T) vk ctx nonce rand a t ms ps bl prs jrs qrs π os w seed part)
    (h4 : (runWith P T').proveRands ctx (Spec.proveSeed P rand') = .ok prs)
    (h1 : 0 < h → (runWith P T').helperMeasShare ctx h (Spec.shareSeed P rand' h) = .ok (ms h))
    (h2 : 0 < h → (runWith P T').helperProofsShare ctx h (Spec.shareSeed P rand' h) = .ok (ps h))
    (h7 : 0 < P.flp.jointRandLen → (runWith P T').jointRandPart ctx h (Spec.blindSeed P rand' h) (ms h) nonce =
      (runWith P T).jointRandPart ctx h (Spec.blindSeed P rand h) (ms h) nonce) :
    ∃ t1, Spec.transcript (runWith P T') vk ctx m nonce rand' = .ok t1 ∧ t1.view h = t.view h ∧ t1.states = t.states := by
  have W1 := W.runWith T'
  have hlt := W.shares_lt
  have hge := W.shares_ge
  have hss : ∀ r j, (Spec.shareSeed P r j).length < 2 ^ 8 := fun r j => seedAt_length_lt _ _
  have hbs : ∀ r j, (Spec.blindSeed P r j).length < 2 ^ 8 := fun r j => seedAt_length_lt _ _
  have hH := fun {j} (h0 : 0 < j) (hj : j < P.shares) => W0.S.helper W0.helpers h0 hj
  -- the expansions of the second run
  have gM : ∀ j, 0 < j → j < P.shares →
      (runWith P T').helperMeasShare ctx j (Spec.shareSeed P rand' j) = .ok (ms j) := by
    intro j h0 hj
    by_cases e : j = h
    · subst e; exact h1 h0
    · rw [hseed j hj e h0, measShare_ev W hctx (by omega) (hss _ j), A.meas W hctx (by omega) (by omega) e (hss _ j),
        ← measShare_ev W hctx (by omega) (hss _ j)]
      exact (hH h0 hj).2.1
  have gP : ∀ j, 0 < j → j < P.shares →
      (runWith P T').helperProofsShare ctx j (Spec.shareSeed P rand' j) = .ok (ps j) := by
    intro j h0 hj
    by_cases e : j = h
    · subst e; exact h2 h0
    · rw [hseed j hj e h0, proofsShare_ev W hctx (by omega) (hss _ j),
        A.proofs W hctx (by omega) (by omega) e (hss _ j), ← proofsShare_ev W hctx (by omega) (hss _ j)]
      exact (hH h0 hj).2.2.1
  have shM : ∀ ms1 : ℕ → List F, Spec.IsSum (fun j : Fin P.shares => ms1 j) a →
      (∀ j, 0 < j → j < P.shares → (runWith P T').helperMeasShare ctx j (Spec.shareSeed P rand' j) = .ok (ms1 j)) →
      ∀ j < P.shares, ms1 j = ms j := by
    intro ms1 hs1 hm1
    refine isSum_agree W0.S.measSum hs1 (show 0 < P.shares by omega) fun j hj h0 => ?_
    exact Except.ok.inj ((hm1 j (by omega) hj).symm.trans (gM j (by omega) hj))
  -- the parts of the joint randomness
  have hbl : 0 < P.flp.jointRandLen → ∀ j < P.shares, bl j = some (Spec.blindSeed P rand j) := by
    intro h0 j hj
    rcases Nat.eq_zero_or_pos j with rfl | hj0
    · exact W0.bl0 h0
    · have e : bl j = if 0 < P.flp.jointRandLen then some (Spec.blindSeed P rand j) else none := (hH hj0 hj).2.2.2
      rw [e, if_pos h0]
  have shP : 0 < P.flp.jointRandLen → ∀ ms1 : ℕ → List F, (∀ j < P.shares, ms1 j = ms j) →
      ∀ j < P.shares, (runWith P T').jointRandPart ctx j (Spec.blindSeed P rand' j) (ms1 j) nonce =
        (runWith P T).jointRandPart ctx j (Spec.blindSeed P rand j) (ms j) nonce := by
    intro h0 ms1 hm1 j hj
    rw [hm1 j hj]
    by_cases e : j = h
    · subst e; exact h7 h0
    · rw [hblind h0 j hj e, jointRandPart_val W hctx (by omega) (hbs _ j), jointRandPart_val W hctx (by omega) (hbs _ j),
        A.part W hctx (by omega) (by omega) e (hbs _ j)]
  obtain ⟨pub1, ish1, ms1, ps1, bl1, prs1, jrs1, π1, e1, S1, e2, e3, e4⟩ := shard_exact (P := runWith P T') W1 hctx
    (m := m) (nonce := nonce) (rand := rand') he ha hn hr (fun j h0 hj => ⟨_, gM j h0 hj⟩)
    (fun j h0 hj => ⟨_, gP j h0 hj⟩) ⟨_, h4⟩ (by
      intro h0 ms1 parts1 seed1 k1 k2 k3 k4
      rcases W0.S.joint with ⟨h0', -⟩ | ⟨-, parts, b, s, k5, k6, k7, k8⟩
      · exact absurd h0' (Nat.pos_iff_ne_zero.1 h0)
      · have hp : ∀ j < P.shares, parts1 j = parts j := by
          intro j hj
          have e1 := k3 j hj
          obtain ⟨e2, -, e3, -⟩ := k6 j hj
          rw [hbl h0 j hj] at e2
          rw [← Option.some.inj e2] at e3
          have e4 := (shP h0 ms1 (shM ms1 k1 k2) j hj).symm.trans e1
          rw [e3] at e4
          exact (Except.ok.inj e4).symm
        have k4' : (runWith P T').jointRandSeed ctx (tab P.shares parts1) = .ok seed1 := k4
        rw [tab_congr hp, A.jointRandSeed W hctx] at k4'
        replace k4 := k4'
        have e5 : s = seed1 := Except.ok.inj (k7.symm.trans k4)
        subst e5
        have hs : s.length < 2 ^ 8 := by
          rw [jointRandSeed_val W hctx] at k7
          rw [← Except.ok.inj k7]
          simp [bytesAt]
        exact ⟨jrs, (A.jointRands W hctx hs).2 k8⟩)
  have hms1 : ∀ j < P.shares, ms1 j = ms j :=
    shM ms1 S1.measSum fun j h0 hj => (S1.helper e2 h0 hj).2.1
  have hprs1 : prs1 = prs := Except.ok.inj (e3.symm.trans h4)
  subst hprs1
  -- the public share and the joint randomness
  have hbl1 : 0 < P.flp.jointRandLen → ∀ j < P.shares, bl1 j = some (Spec.blindSeed P rand' j) := by
    intro h0 j hj
    rcases Nat.eq_zero_or_pos j with rfl | hj0
    · exact e4 h0
    · have e : bl1 j = if 0 < P.flp.jointRandLen then some (Spec.blindSeed P rand' j) else none :=
        (S1.helper e2 hj0 hj).2.2.2
      rw [e, if_pos h0]
  have hpub : pub1 = t.publicShare ∧ ∀ j < P.shares, j ≠ h → bl1 j = bl j := by
    rcases W0.S.joint with ⟨h0, k1, k2⟩ | ⟨h0, parts, b, s, k1, k2, -, -⟩
    · rcases S1.joint with ⟨-, k3, k4⟩ | ⟨h0', -⟩
      · exact ⟨k3.trans k1.symm, fun j _ _ => (k4 j).trans (k2 j).symm⟩
      · exact absurd h0 (Nat.pos_iff_ne_zero.1 h0')
    · rcases S1.joint with ⟨h0', -⟩ | ⟨-, parts1, b1, s1, k3, k4, -, -⟩
      · exact absurd h0' (Nat.pos_iff_ne_zero.1 h0)
      · refine ⟨?_, fun j hj hjh => ?_⟩
        · rw [k3, k1]
          congr 1
          refine tab_congr fun j hj => ?_
          obtain ⟨e1, -, e2, -⟩ := k4 j hj
          obtain ⟨e3, -, e4, -⟩ := k2 j hj
          rw [hbl1 h0 j hj] at e1
          rw [hbl h0 j hj] at e3
          rw [← Option.some.inj e1] at e2
          rw [← Option.some.inj e3] at e4
          have e5 := (shP h0 ms1 hms1 j hj).symm.trans e2
          rw [e4] at e5
          exact (Except.ok.inj e5).symm
        · rw [hbl1 h0 j hj, hbl h0 j hj, hblind h0 j hj hjh]
  obtain ⟨rfl, hblag⟩ := hpub
  obtain ⟨seed1, part1, hj1, -⟩ := S1.jointOf
  obtain ⟨rfl, hpart, rfl⟩ := (A.jointOf W hctx hj1).unique W0.joint
  -- the proofs
  have hπ1 : ∀ i < P.proofs, π1 i = π i := fun i hi =>
    Except.ok.inj ((S1.prove i hi).1.symm.trans (W0.S.prove i hi).1)
  have hflat : (List.range P.proofs).flatMap π1 = (List.range P.proofs).flatMap π := by
    rw [List.flatMap_def, List.flatMap_def]
    congr 1
    exact List.map_congr_left fun i hi => hπ1 i (by simpa using hi)
  have hps1 : ∀ j < P.shares, ps1 j = ps j := by
    refine isSum_agree W0.S.proofSum (hflat ▸ S1.proofSum) (show 0 < P.shares by omega) fun j hj h0 => ?_
    have k1 := (S1.helper e2 (by omega : 0 < j) hj).2.2.1
    exact Except.ok.inj (k1.symm.trans (gP j (by omega) hj))
  -- the verifier shares and the output shares
  have hqrs : (runWith P T').queryRands vk ctx nonce = .ok qrs := by
    have := W0.qrsOk
    rw [queryRands_ev W hctx (by omega)] at this ⊢
    rwa [A.usage W hctx (.inr (.inl rfl)) (by omega)]
  have hw1 : ∀ j < P.shares, (runWith P T').queryLoop (ms1 j) (ps1 j) qrs jrs1 = .ok (w j) := by
    intro j hj
    rw [hms1 j hj, hps1 j hj]
    exact W0.wOk j hj
  have hos1 : ∀ j < P.shares, P.flp.truncate (ms1 j) = .ok (os j) := by
    intro j hj
    rw [hms1 j hj]
    exact W0.osOk j hj
  set t1 : Spec.Transcript F := ⟨t.publicShare, ish1, t.states, t.verifierShares, t.message⟩ with ht1
  have hworld : World (runWith P T') vk ctx nonce rand' a t1 ms1 ps1 bl1 prs1 jrs1 qrs π1 os w seed1 part1 :=
    ⟨S1, e2, e3, e4, hqrs, hos1, hw1, hj1, W0.states, W0.vshares.trans (tab_congr fun j hj => by rw [hpart j hj]), by
      rw [A.sharesToMessage W hctx]; exact W0.msg⟩
  refine ⟨t1, transcript_of W1 hctx hworld e1, ?_, rfl⟩
  unfold Spec.Transcript.view
  rw [ht1]
  dsimp only
  have k1 : ish1.eraseIdx h = t.inputShares.eraseIdx h := by
    refine eraseIdx_congr fun j hjh => ?_
    by_cases hj : j < P.shares
    · rcases Nat.eq_zero_or_pos j with rfl | h0
      · rw [S1.leader hj, W0.S.leader hj, hms1 0 hj, hps1 0 hj, hblag 0 hj hjh]
      · rw [(S1.helper e2 h0 hj).1, (W0.S.helper W0.helpers h0 hj).1]
        have g1 := hseed j hj hjh h0
        have g2 := fun h0 => hblind h0 j hj hjh
        show some (Prio3InputShare.helper (Spec.shareSeed P rand' j)
            (if 0 < P.flp.jointRandLen then some (Spec.blindSeed P rand' j) else none)) =
          some (Prio3InputShare.helper (Spec.shareSeed P rand j)
            (if 0 < P.flp.jointRandLen then some (Spec.blindSeed P rand j) else none))
        rw [g1]
        split
        · next h0 => rw [g2 h0]
        · rfl
    · rw [List.getElem?_eq_none (by rw [S1.len]; exact not_lt.1 hj),
        List.getElem?_eq_none (by rw [W0.S.len]; exact not_lt.1 hj)]
  rw [k1]

end Prio3
end Vdaf
