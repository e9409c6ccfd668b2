import Verif.Proofs.PingPongRobustPrio3
import Verif.Proofs.Poplar1Agg

/-! Robustness of Poplar1 in the ping-pong topology. -/

set_option linter.unusedSectionVars false

namespace Vdaf.WireGame
open Spec PingPong Poplar1 Finset

section
variable {P : Poplar1} {prims : Prims} {fuel : ℕ}

theorem poplar_broadcast {vk ctx nonce : Bytes} {a : Poplar1AggParam} {pub : List CorrectionWord} {s0 s1 : Poplar1InputShare}
    {o0 o1 : FieldVec} : broadcast (P.vdaf prims fuel) vk a ctx nonce pub [s0, s1] = .ok [o0, o1] ↔
      poplar1Verify P prims fuel vk ctx a nonce pub s0 s1 = .ok (o0, o1) := by
  unfold broadcast poplar1Verify VdafImpl.runRound
  have hr : List.range (P.vdaf prims fuel).shares = [0, 1] := rfl
  have hr' : List.range ((P.vdaf prims fuel).rounds - 1) = [0] := rfl
  rw [hr, hr']
  simp only [mapRes_cons, mapRes_nil, getI_of_some (show [s0, s1][0]? = some s0 from rfl),
    getI_of_some (show [s0, s1][1]? = some s1 from rfl), Except.ok_bind', forFold_cons, forFold_nil]
  have hi : (P.vdaf prims fuel).verifyInit = P.verifyInit prims fuel := rfl
  have hm : (P.vdaf prims fuel).sharesToMessage = sharesToMessage := rfl
  simp only [hi, hm]
  constructor
  · intro h
    obtain ⟨outs, h1, h⟩ := Except.bind_eq_ok.1 h
    obtain ⟨⟨st0, sh0⟩, i0, h1⟩ := Except.bind_eq_ok.1 h1
    obtain ⟨l, h2, h1⟩ := Except.bind_eq_ok.1 h1
    obtain ⟨⟨st1, sh1⟩, i1, h2⟩ := Except.bind_eq_ok.1 h2
    cases h2
    cases h1
    obtain ⟨sts, h1, h⟩ := Except.bind_eq_ok.1 h
    obtain ⟨_, h1, h2⟩ := Except.bind_eq_ok.1 h1
    cases h2
    obtain ⟨m, m0, h1⟩ := Except.bind_eq_ok.1 h1
    obtain ⟨outs, h2, h1⟩ := Except.bind_eq_ok.1 h1
    cases h1
    obtain ⟨⟨st0', sh0'⟩, n0, h2⟩ := Except.bind_eq_ok.1 h2
    obtain ⟨l, h3, h2⟩ := Except.bind_eq_ok.1 h2
    obtain ⟨⟨st1', sh1'⟩, n1, h3⟩ := Except.bind_eq_ok.1 h3
    cases h3
    cases h2
    obtain ⟨m', m1, h⟩ := Except.bind_eq_ok.1 h
    obtain ⟨u0, p0, h⟩ := Except.bind_eq_ok.1 h
    obtain ⟨l, h3, h⟩ := Except.bind_eq_ok.1 h
    obtain ⟨u1, p1, h3⟩ := Except.bind_eq_ok.1 h3
    cases h3
    cases h
    have m0 : sharesToMessage ctx a [sh0, sh1] = .ok m := m0
    have m1 : sharesToMessage ctx a [sh0', sh1'] = .ok m' := m1
    have n0 : (P.vdaf prims fuel).verifyNextTuple ctx st0 m = .ok (st0', sh0') := n0
    have n1 : (P.vdaf prims fuel).verifyNextTuple ctx st1 m = .ok (st1', sh1') := n1
    have p0 : (P.vdaf prims fuel).verifyNextOut ctx st0' m' = .ok o0 := p0
    have p1 : (P.vdaf prims fuel).verifyNextOut ctx st1' m' = .ok o1 := p1
    simp only [i0, i1, m0, n0, n1, m1, p0, p1, Except.ok_bind']
    rfl
  · intro h
    obtain ⟨⟨st0, sh0⟩, i0, h⟩ := Except.bind_eq_ok.1 h
    obtain ⟨⟨st1, sh1⟩, i1, h⟩ := Except.bind_eq_ok.1 h
    obtain ⟨m, m0, h⟩ := Except.bind_eq_ok.1 h
    obtain ⟨⟨st0', sh0'⟩, n0, h⟩ := Except.bind_eq_ok.1 h
    obtain ⟨⟨st1', sh1'⟩, n1, h⟩ := Except.bind_eq_ok.1 h
    obtain ⟨m', m1, h⟩ := Except.bind_eq_ok.1 h
    obtain ⟨u0, p0, h⟩ := Except.bind_eq_ok.1 h
    obtain ⟨u1, p1, h⟩ := Except.bind_eq_ok.1 h
    cases h
    dsimp only at m0 n0 n1 m1 p0 p1
    simp only [i0, i1, Except.ok_bind', List.map_cons, List.map_nil, getI_of_some (show [st0, st1][0]? = some st0 from rfl),
      getI_of_some (show [st0, st1][1]? = some st1 from rfl), m0, n0, n1, Except.pure_eq',
      getI_of_some (show [st0', st1'][0]? = some st0' from rfl),
      getI_of_some (show [st0', st1'][1]? = some st1' from rfl), m1, p0, p1]

theorem poplar_outputs {vk ctx ap : Bytes} {a : Poplar1AggParam} {r : WireReport} (hap : decodeAggParam ap = .ok a) {o0 o1 : FieldVec} :
    exchangeOutputs (P.vdaf prims fuel) vk ctx r ap = some (o0, o1) ↔
      poplar1Outputs P prims fuel vk ctx (encodedOf r) a = .ok (o0, o1) := by
  rw [outputs_iff (V := P.vdaf prims fuel) rfl (by show 1 ≤ 2; norm_num) hap
    fun pub s0 s1 => (C39_poplar1 prims fuel P vk ctx r.nonce a pub s0 s1).2.2]
  unfold poplar1Outputs
  constructor
  · rintro ⟨pub, s0, s1, k1, k2, k3, hb⟩
    have k1 : P.decodePublicShare (encodedOf r).publicShare = .ok pub := k1
    have k2 : P.decodeInputShare prims fuel 0 r.leaderShare = .ok s0 := k2
    have k3 : P.decodeInputShare prims fuel 1 r.helperShare = .ok s1 := k3
    rw [k1, Except.ok_bind', getI_of_some (x := r.leaderShare) rfl, Except.ok_bind', k2, Except.ok_bind',
      getI_of_some (x := r.helperShare) rfl, Except.ok_bind', k3, Except.ok_bind']
    exact poplar_broadcast.1 hb
  · intro h
    obtain ⟨pub, h1, g1⟩ := Except.bind_eq_ok.1 h
    obtain ⟨b0, h2, g2⟩ := Except.bind_eq_ok.1 g1
    obtain ⟨s0, h3, g3⟩ := Except.bind_eq_ok.1 g2
    obtain ⟨b1, h4, g4⟩ := Except.bind_eq_ok.1 g3
    obtain ⟨s1, h5, g5⟩ := Except.bind_eq_ok.1 g4
    have e0 : r.leaderShare = b0 := Option.some.inj (getI_eq_ok.1 h2)
    have e1 : r.helperShare = b1 := Option.some.inj (getI_eq_ok.1 h4)
    rw [← e0] at h3
    rw [← e1] at h5
    exact ⟨pub, s0, s1, h1, h3, h5, poplar_broadcast.2 g5⟩

/-! ### The output shares -/

theorem poplar_verified {vk ctx : Bytes} {e : EncodedReport} {a : Poplar1AggParam} {o : FieldVec × FieldVec}
    (h : poplar1Outputs P prims fuel vk ctx e a = .ok o) :
    a.2.Nodup ∧ o.1.1 = P.idpf.currentField a.1 ∧ o.2.1 = P.idpf.currentField a.1 := by
  obtain ⟨level, prefixes⟩ := a
  unfold poplar1Outputs at h
  obtain ⟨pub, h1, h⟩ := Except.bind_eq_ok.1 h
  obtain ⟨b0, h2, h⟩ := Except.bind_eq_ok.1 h
  obtain ⟨s0, h3, h⟩ := Except.bind_eq_ok.1 h
  obtain ⟨b1, h4, h⟩ := Except.bind_eq_ok.1 h
  obtain ⟨s1, h5, h⟩ := Except.bind_eq_ok.1 h
  obtain ⟨v0, v1, corr0, corr1, A0, B0, A1, B1, r, H, hr, k0, k1, hs⟩ := succeeds_iff (verify_succeeds h)
  refine ⟨?_, by rw [k0], by rw [k1]⟩
  have he := H.eval0
  unfold Idpf.eval at he
  simp only [Except.bind_eq_ok] at he
  obtain ⟨_, -, _, h2, _, h3, he⟩ := he
  rw [raiseIf_eq_ok, decide_eq_false_iff_not, not_not] at h3
  exact (Idpf.nodup_iff_dedup _).1 h3

/-- A vote. -/
theorem vote_of {κ : Kind} {a : Poplar1AggParam} (hn : a.2.Nodup) {o : FieldVec × FieldVec} (h0 : o.1.1 = κ)
    (h : CountsAtMostOnce a.2.length o) :
    ∃ v : Option (List Bool), o.1.2.length = a.2.length ∧ o.2.2.length = a.2.length ∧
      ∀ i (hi : i < a.2.length), coef (castVec κ o.1) i + coef (castVec κ o.2) i = if v = some a.2[i] then 1 else 0 := by
  obtain ⟨κ', u0, u1, u, rfl, hl, hs, hz⟩ := h
  obtain rfl : κ' = κ := h0
  have e0 : u0.length = a.2.length := by rw [← hl]; exact hs.1 0
  have e1 : u1.length = a.2.length := by rw [← hl]; exact hs.1 1
  have hc : ∀ i, coef (castVec κ' ⟨κ', u0⟩) i + coef (castVec κ' ⟨κ', u1⟩) i = coef u i := by
    intro i
    rw [castVec_self, castVec_self]
    have := hs.2 i
    change coef _ i = ∑ j, coef _ i at this
    rw [Fin.sum_univ_two] at this
    exact this.symm
  rcases hz with hz | ⟨k, hk, hz⟩
  · refine ⟨none, e0, e1, fun i hi => ?_⟩
    rw [hc, hz, coef_of_lt (by simpa [hl] using hi)]
    simp
  · have hk' : k < a.2.length := hl ▸ hk
    have hu : ∀ i < a.2.length, coef u i = if k = i then 1 else 0 := by
      intro i hi
      rw [hz, coef_of_lt (by simpa [hl] using hi), List.getElem_set, List.getElem_replicate]
    refine ⟨some a.2[k], e0, e1, fun i hi => ?_⟩
    rw [hc, hu i hi]
    by_cases hki : k = i
    · subst hki; simp
    · rw [if_neg hki, if_neg]
      intro hc
      exact hki ((List.Nodup.getElem_inj_iff hn).1 (Option.some.inj hc))

theorem poplar_collected {a : Poplar1AggParam} {batch : List (FieldVec × FieldVec)}
    (h : ∀ x ∈ batch, x.1.2.length = a.2.length ∧ x.2.2.length = a.2.length) :
    collected (P.vdaf prims fuel) a batch = .ok ((tab a.2.length fun k =>
      (batch.map fun x => coef (castVec (P.idpf.currentField a.1) x.1) k +
        coef (castVec (P.idpf.currentField a.1) x.2) k).sum).map PyField.toNat) := by
  unfold collected
  rw [aggregate_eq_merge, aggregate_eq_merge, merge_eq, merge_eq, if_pos (fun v hv => by
    obtain ⟨x, hx, rfl⟩ := List.mem_map.1 hv; exact (h x hx).1), if_pos (fun v hv => by
    obtain ⟨x, hx, rfl⟩ := List.mem_map.1 hv; exact (h x hx).2), Except.ok_bind', Except.ok_bind']
  show P.unshard a _ batch.length = _
  unfold unshard
  rw [merge_eq, if_pos (by intro v hv; simp at hv; rcases hv with rfl | rfl <;> simp), Except.ok_bind']
  show Except.ok _ = _
  congr 2
  apply tab_congr
  intro k hk
  simp [colsum, castVec_self, coef_tab, hk, List.sum_map_add, Function.comp_def]

/-! ### The reduction -/

/-- The reply of the Aggregators. -/
def backPoplar : Poplar1Reply → WireReply
  | .output s => .output s
  | .refused => .refused
  | .verdict b => .verdict b

/-- The Client and the Collector of the broadcast execution. -/
def poplarSimulator (P : Poplar1) (prims : Prims) (fuel : ℕ) (σ : WireStrategy) : Poplar1Strategy :=
  simulator (simMove (P.vdaf prims fuel) .query fun r a => .submit (encodedOf r) a) (simReply (P.vdaf prims fuel) backPoplar) σ

theorem poplarSimulator_oracle (O : Bytes → ℕ → UInt8) (σ : WireStrategy) :
    poplarSimulator P (withOracle prims O) fuel σ = poplarSimulator P prims fuel σ := by
  unfold poplarSimulator
  rw [simMove_congr (V' := P.vdaf prims fuel) (V := P.vdaf (withOracle prims O) fuel) rfl rfl rfl,
    simReply_congr (V' := P.vdaf prims fuel) (V := P.vdaf (withOracle prims O) fuel) rfl rfl rfl]

theorem poplarRun_eq {vk ctx : Bytes} (σ : Poplar1Strategy) (q : ℕ) :
    poplar1Run P prims fuel vk ctx σ q = run (poplar1Respond P prims fuel vk ctx) σ q := by
  induction q with
  | zero => rfl
  | succ q ih =>
    unfold poplar1Run run
    rw [ih]

theorem poplar_game {vk ctx : Bytes} (σ : WireStrategy) (q : ℕ) (r : WireReport) (ap : Bytes)
    (h : (.submit r ap, .verdict true) ∈ wireRun (P.vdaf prims fuel) (fun m => prims.turboShake m 1) vk ctx σ q) :
    ∃ a, decodeAggParam ap = .ok a ∧ (.submit (encodedOf r) a, .verdict true) ∈
      poplar1Run P prims fuel vk ctx (poplarSimulator P prims fuel σ) q := by
  obtain ⟨a, r', h1, h3, h4, h5⟩ := game (V := P.vdaf prims fuel) (ask := Poplar1Move.query)
    (submit := fun r a => .submit (encodedOf r) a) (back := backPoplar) (respond' := poplar1Respond P prims fuel vk ctx)
    (prev' := fun H n => previousParams n H)
    (fun n => rfl) (fun H m => rfl) (fun H m r n => by simp [previousParams]) (fun H' r ap a k1 k2 k3 => by
      have hr : poplar1Respond P prims fuel vk ctx H' (.submit (encodedOf r) a) =
          .verdict (exchangeOutputs (P.vdaf prims fuel) vk ctx r ap).isSome := by
        unfold poplar1Respond
        dsimp only
        rw [if_pos ⟨k2, k3⟩]
        congr 1
        cases ho : poplar1Outputs P prims fuel vk ctx (encodedOf r) a with
        | ok o =>
          rw [(poplar_outputs k1).2 ho]
          rfl
        | error e =>
          cases hx : exchangeOutputs (P.vdaf prims fuel) vk ctx r ap with
          | none => rfl
          | some o =>
            rw [(poplar_outputs k1).1 hx] at ho
            cases ho
      refine ⟨by rw [hr]; rfl, fun n => ?_⟩
      rw [hr]
      unfold previousParams
      rw [List.filterMap_append]
      congr 1
      by_cases hn : r.nonce = n
      · simp [encodedOf, hn]
      · simp [encodedOf, hn]) σ q r ap h
  refine ⟨a, h1, ?_⟩
  cases r' with
  | output s => cases h3
  | refused => cases h3
  | verdict b =>
    have : b = true := WireReply.verdict.inj h3
    rw [poplarRun_eq]
    exact this ▸ h5

theorem level_le (level : ℕ) : Spec.levelModulus P.idpf.bits 0 ≤ PyField.modulus (Fk (P.idpf.currentField level)) := by
  unfold Spec.levelModulus Idpf.currentField
  by_cases hb : 0 + 1 < P.idpf.bits
  · rw [if_pos hb]
    generalize (if level < P.idpf.bits - 1 then Kind.inner else Kind.leaf) = κ
    cases κ <;> decide +kernel
  · rw [if_neg hb, if_neg (by omega)]
    decide +kernel

theorem poplar_wins {vk ctx : Bytes} {q : ℕ} (hq : q < Spec.levelModulus P.idpf.bits 0) (σ : WireStrategy)
    (h : WireWins (P.vdaf prims fuel) VotesOfReports vk ctx
      (wireRun (P.vdaf prims fuel) (fun m => prims.turboShake m 1) vk ctx σ q)) :
    Poplar1Wins P prims fuel vk ctx (poplar1Run P prims fuel vk ctx (poplarSimulator P prims fuel σ) q) := by
  by_contra hno
  obtain ⟨ap, a, hap, batch, hb, hbad⟩ := h
  apply hbad
  have hone : ∀ x : FieldVec × FieldVec, ∃ v : Option (List Bool), x ∈ batch →
      x.1.2.length = a.2.length ∧ x.2.2.length = a.2.length ∧
      ∀ i (hi : i < a.2.length), coef (castVec (P.idpf.currentField a.1) x.1) i +
        coef (castVec (P.idpf.currentField a.1) x.2) i = if v = some a.2[i] then 1 else 0 := by
    intro x
    by_cases hx : x ∈ batch
    · obtain ⟨r, h3, h4⟩ := mem_accepted (hb.subset hx)
      obtain ⟨a', h5, h6⟩ := poplar_game σ q r ap h3
      have : a' = a := Except.ok.inj (h5.symm.trans hap)
      subst this
      have ho := (poplar_outputs (o0 := x.1) (o1 := x.2) h5).1 h4
      obtain ⟨k1, k2, k3⟩ := poplar_verified ho
      have hv : CountsAtMostOnce a'.2.length x := by
        by_contra hv
        exact hno ⟨_, _, h6, _, ho, hv⟩
      obtain ⟨v, hv⟩ := vote_of k1 k2 hv
      exact ⟨v, fun _ => hv⟩
    · exact ⟨none, fun h => absurd h hx⟩
  choose v hone using hone
  refine ⟨_, poplar_collected fun x hx => ⟨(hone x hx).1, (hone x hx).2.1⟩, batch.map v, by simp, ?_⟩
  refine List.ext_getElem (by simp) fun i hi hi' => ?_
  have hi2 : i < a.2.length := by simpa using hi'
  simp only [List.getElem_map, tab_getElem]
  have hsum : ∀ l : List (FieldVec × FieldVec), l ⊆ batch →
      (l.map fun x => coef (castVec (P.idpf.currentField a.1) x.1) i + coef (castVec (P.idpf.currentField a.1) x.2) i).sum =
        (((l.map v).count (some a.2[i]) : ℕ) : Fk (P.idpf.currentField a.1)) := by
    intro l
    induction l with
    | nil => intro _; simp
    | cons x l ih =>
      intro hl
      rw [List.map_cons, List.sum_cons, ih fun y hy => hl (List.mem_cons_of_mem _ hy), (hone x (hl List.mem_cons_self)).2.2 i hi2,
        List.map_cons, List.count_cons]
      by_cases hv : v x = some a.2[i]
      · simp [hv, add_comm]
      · simp [hv]
  rw [hsum _ (List.Subset.refl _), toNat_natCast_mod]
  apply Nat.mod_eq_of_lt
  have h1 := (batch.map v).count_le_length (a := some a.2[i])
  have h2 := accepted_length hb
  have h3 := level_le (P := P) a.1
  rw [List.length_map] at h1
  omega

/-- The attackers win with at most the probability of a Client and a Collector of the broadcast execution. -/
theorem poplar_probability {ctx : Bytes} {q : ℕ} (hq : q < Spec.levelModulus P.idpf.bits 0) (σ : WireStrategy)
    {S : Set Bytes} (hfin : S.Finite) (N : ℕ) :
    wireWinProbability (fun O => P.vdaf (withOracle prims O) fuel) prims ctx VotesOfReports σ q S N ≤
      poplar1KeyedWinProbability P prims fuel ctx (poplarSimulator P prims fuel σ) q S N := by
  have hf : {x : Bytes × (Bytes → ℕ → UInt8) | x.1.length = 32 ∧ x.2 ∈ oracles prims S N}.Finite :=
    ((List.finite_length_eq UInt8 32).prod (oracles_finite hfin N)).subset fun x hx => ⟨hx.1, hx.2⟩
  have hsub : {x : Bytes × (Bytes → ℕ → UInt8) | x.1.length = 32 ∧ x.2 ∈ oracles prims S N ∧
      WireWins (P.vdaf (withOracle prims x.2) fuel) VotesOfReports x.1 ctx
        (wireRun (P.vdaf (withOracle prims x.2) fuel) x.2 x.1 ctx σ q)} ⊆
      {x | x.1.length = 32 ∧ x.2 ∈ oracles prims S N ∧ Poplar1Wins P (withOracle prims x.2) fuel x.1 ctx
        (poplar1Run P (withOracle prims x.2) fuel x.1 ctx (poplarSimulator P prims fuel σ) q)} := by
    rintro ⟨vk, O⟩ ⟨k1, k2, k3⟩
    refine ⟨k1, k2, ?_⟩
    have := poplar_wins (P := P) (prims := withOracle prims O) (fuel := fuel) (vk := vk) (ctx := ctx) hq σ k3
    rw [poplarSimulator_oracle] at this
    exact this
  unfold wireWinProbability poplar1KeyedWinProbability
  exact div_le_div_of_nonneg_right
    (Nat.cast_le.2 (Set.ncard_le_ncard hsub (hf.subset fun x hx => ⟨hx.1, hx.2.1⟩))) (Nat.cast_nonneg _)

/-- A probability is at most one. -/
theorem probability_le_one {Meas AggParam PubShare InShare OutShare AggShare AggRes VState VShare VMsg : Type}
    (V : (Bytes → ℕ → UInt8) → VdafImpl Meas AggParam PubShare InShare OutShare AggShare AggRes VState VShare VMsg)
    (prims : Prims) (ctx : Bytes) (good : AggParam → ℕ → AggRes → Prop) (σ : WireStrategy) (q : ℕ) {S : Set Bytes}
    (hfin : S.Finite) (N : ℕ) : wireWinProbability V prims ctx good σ q S N ≤ 1 := by
  have hf : {x : Bytes × (Bytes → ℕ → UInt8) | x.1.length = 32 ∧ x.2 ∈ oracles prims S N}.Finite :=
    ((List.finite_length_eq UInt8 32).prod (oracles_finite hfin N)).subset fun x hx => ⟨hx.1, hx.2⟩
  unfold wireWinProbability
  refine div_le_one_of_le₀ (Nat.cast_le.2 (Set.ncard_le_ncard (fun x hx => ⟨hx.1, hx.2.1⟩) hf)) (Nat.cast_nonneg _)

end
end Vdaf.WireGame
