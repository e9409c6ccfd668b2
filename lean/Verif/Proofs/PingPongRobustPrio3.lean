import Verif.Proofs.PingPongRobust
import Verif.Proofs.PrivacyModified

/-! Robustness of Prio3 in the ping-pong topology. -/

set_option linter.unusedSectionVars false

namespace Vdaf.WireGame
open Spec PingPong Prio3 Finset

section
variable {F : Type} [NttField F] {Meas Agg : Type}

theorem prio3_broadcast {X : Xof} {P : Prio3 X F Meas Agg} {vk ctx nonce : Bytes} {pub : Option (List Bytes)}
    {l : List (Prio3InputShare F)} {o : List (List F)} :
    broadcast P.vdaf vk () ctx nonce pub l = .ok o ↔
      ∃ (ish : ℕ → Prio3InputShare F) (st sh : ℕ → List F × Option Bytes) (msg : Option Bytes),
        (∀ j < P.shares, l[j]? = some (ish j)) ∧ Spec.VerifySucceeds P vk ctx nonce pub ish st sh msg ∧
        o = tab P.shares fun j => (st j).1 := by
  have hnext : ∀ (st : List F × Option Bytes) (msg : Option Bytes) (o : List F),
      P.vdaf.verifyNextOut ctx st msg = .ok o ↔ msg = st.2 ∧ o = st.1 := by
    intro st msg o
    show ((verifyNext (F := F) ctx st msg).bind fun out => _) = _ ↔ _
    unfold verifyNext
    by_cases h : msg = st.2
    · simp [h, raiseIf, Except.bind, eq_comm]
    · simp [h, raiseIf, Except.bind]
  unfold broadcast
  constructor
  · intro h
    obtain ⟨outs, h1, h⟩ := Except.bind_eq_ok.1 h
    obtain ⟨⟨sts, shs⟩, h0, h⟩ := Except.bind_eq_ok.1 h
    obtain ⟨msg, h2, h3⟩ := Except.bind_eq_ok.1 h
    cases h0
    obtain ⟨hl, h1⟩ := mapRes_range_iff.1 h1
    have hl : outs.length = P.shares := hl
    have h4 : ∀ j, ∃ (s : Prio3InputShare F) (st sh : List F × Option Bytes), j < P.shares → l[j]? = some s ∧
        P.verifyInit vk ctx j () nonce pub s = .ok (st, sh) ∧ outs[j]? = some (st, sh) := by
      intro j
      by_cases hj : j < P.shares
      · obtain ⟨⟨st, sh⟩, h5, h6⟩ := h1 j hj
        obtain ⟨s, h7, h8⟩ := Except.bind_eq_ok.1 h5
        exact ⟨s, st, sh, fun _ => ⟨getI_eq_ok.1 h7, h8, h6⟩⟩
      · exact ⟨.helper [] none, ([], none), ([], none), fun h => absurd h hj⟩
    choose ish st sh h4 using h4
    have ho : outs = (List.range P.shares).map fun j => (st j, sh j) := by
      apply List.ext_getElem?
      intro j
      by_cases hj : j < P.shares
      · rw [(h4 j hj).2.2, List.getElem?_map, List.getElem?_range hj]
        rfl
      · rw [List.getElem?_eq_none (by omega), List.getElem?_eq_none (by simp; omega)]
    obtain ⟨hl', h3⟩ := mapRes_range_iff.1 h3
    have h5 : ∀ j < P.shares, msg = (st j).2 ∧ o[j]? = some (st j).1 := by
      intro j hj
      obtain ⟨b, h6, h7⟩ := h3 j hj
      rw [getI_of_some (x := st j) (by simp [ho, hj]), Except.ok_bind', hnext] at h6
      exact ⟨h6.1, by rw [h7, h6.2]⟩
    refine ⟨ish, st, sh, msg, fun j hj => (h4 j hj).1, ⟨fun j hj => (h4 j hj).2.1, ?_, fun j hj => ?_⟩, ?_⟩
    · rw [← h2, ho, List.map_map]
      rfl
    · exact verifyNext_ok_iff.2 (h5 j hj).1
    · have hl' : o.length = P.shares := hl'
      apply List.ext_getElem?
      intro j
      by_cases hj : j < P.shares
      · rw [(h5 j hj).2]
        simp [tab, hj]
      · rw [List.getElem?_eq_none (by omega), List.getElem?_eq_none (by simp; omega)]
  · rintro ⟨ish, st, sh, msg, h1, ⟨h2, h3, h4⟩, rfl⟩
    have h5 : mapRes (fun j => do
        let s ← getI l j
        P.vdaf.verifyInit vk ctx j () nonce pub s) (List.range P.vdaf.shares) = .ok (tab P.shares fun j => (st j, sh j)) := by
      apply mapRes_range_tab
      intro j hj
      rw [getI_of_some (h1 j hj)]
      exact h2 j hj
    rw [h5, Except.ok_bind']
    have e1 : (tab P.shares fun j => (st j, sh j)).map Prod.fst = tab P.shares st := by simp [tab, Function.comp_def]
    have e2 : (tab P.shares fun j => (st j, sh j)).map Prod.snd = (List.range P.shares).map sh := by
      simp [tab, Function.comp_def]
    rw [e1, e2]
    show (do
      let msg ← P.sharesToMessage ctx () ((List.range P.shares).map sh)
      mapRes (fun j => do
        let s ← getI (tab P.shares st) j
        P.vdaf.verifyNextOut ctx s msg) (List.range P.shares)) = _
    rw [h3, Except.ok_bind']
    apply mapRes_range_tab
    intro j hj
    rw [getI_of_some (x := st j) (by simp [tab, hj]), Except.ok_bind', hnext]
    exact ⟨verifyNext_ok_iff.1 (h4 j hj), rfl⟩

/-- A report as it is sent in the broadcast execution. -/
def encodedOf (r : WireReport) : EncodedReport := ⟨r.nonce, r.publicShare, [r.leaderShare, r.helperShare]⟩

variable {prims : Prims} {fuel : ℕ} {P : Prio3 (XofTurboShake128 prims fuel) F Meas Agg}

theorem prio3_outputs (W : P.WF) (h2 : P.shares = 2)
    (hsize : PyField.encSize F * (P.flp.verifierLen * P.proofs) + 32 < 2 ^ 32)
    {vk ctx ap : Bytes} {r : WireReport} (hap : decodeAggParam ap = .ok ()) {o0 o1 : List F} :
    exchangeOutputs P.vdaf vk ctx r ap = some (o0, o1) ↔
      ∃ rr : Report F, decodeReport P (encodedOf r) = .ok rr ∧
        ∃ (ish : ℕ → Prio3InputShare F) (st sh : ℕ → List F × Option Bytes) (msg : Option Bytes),
        (∀ j < P.shares, rr.inputShares[j]? = some (ish j)) ∧
          Spec.VerifySucceeds P vk ctx rr.nonce rr.publicShare ish st sh msg ∧ o0 = (st 0).1 ∧ o1 = (st 1).1 := by
  rw [outputs_iff (V := P.vdaf) (a := ()) h2 le_rfl hap fun pub s0 s1 => pingPongReady W hsize vk ctx r.nonce pub s0 s1]
  have hr : List.range P.shares = [0, 1] := by rw [h2]; rfl
  constructor
  · rintro ⟨pub, s0, s1, k1, k2, k3, hb⟩
    obtain ⟨ish, st, sh, msg, g1, g2, g3⟩ := prio3_broadcast.1 hb
    refine ⟨⟨r.nonce, pub, [s0, s1]⟩, ?_, ish, st, sh, msg, g1, g2, ?_⟩
    · unfold decodeReport
      have k1 : P.decodePublicShare (encodedOf r).publicShare = .ok pub := k1
      have k2 : P.decodeInputShare 0 r.leaderShare = .ok s0 := k2
      have k3 : P.decodeInputShare 1 r.helperShare = .ok s1 := k3
      have : mapRes (fun j => do
          let b ← getI (encodedOf r).inputShares j
          P.decodeInputShare j b) (List.range P.shares) = .ok (tab P.shares fun j => if j = 0 then s0 else s1) := by
        apply mapRes_range_tab
        intro j hj
        rw [h2] at hj
        interval_cases j
        · exact k2
        · exact k3
      rw [k1, Except.ok_bind', this, Except.ok_bind', h2]
      rfl
    · unfold tab at g3
      rw [hr] at g3
      simp only [List.map_cons, List.map_nil, List.cons.injEq, and_true] at g3
      exact g3
  · rintro ⟨rr, hd, ish, st, sh, msg, g1, g2, rfl, rfl⟩
    unfold decodeReport at hd
    obtain ⟨pub, k1, hd⟩ := Except.bind_eq_ok.1 hd
    obtain ⟨l, k2, hd⟩ := Except.bind_eq_ok.1 hd
    cases hd
    obtain ⟨hl, k2⟩ := mapRes_range_iff.1 k2
    obtain ⟨s0, a1, a2⟩ := k2 0 (by omega)
    obtain ⟨s1, b1, b2⟩ := k2 1 (by omega)
    refine ⟨pub, s0, s1, k1, a1, b1, ?_⟩
    have hl2 : l = [s0, s1] := by
      rw [h2] at hl
      match l, hl, a2, b2 with
      | [x, y], _, a2, b2 => simp at a2 b2; rw [a2, b2]
    rw [prio3_broadcast]
    refine ⟨ish, st, sh, msg, fun j hj => hl2 ▸ g1 j hj, g2, ?_⟩
    unfold tab
    rw [hr]
    rfl

theorem prio3_accepts (W : P.WF) (h2 : P.shares = 2)
    (hsize : PyField.encSize F * (P.flp.verifierLen * P.proofs) + 32 < 2 ^ 32)
    {vk ctx ap : Bytes} {r : WireReport} (hap : decodeAggParam ap = .ok ()) :
    acceptsEncoded P vk ctx (encodedOf r) = (exchangeOutputs P.vdaf vk ctx r ap).isSome := by
  rw [Bool.eq_iff_iff, Option.isSome_iff_exists]
  unfold acceptsEncoded
  constructor
  · intro h
    cases hd : decodeReport P (encodedOf r) with
    | error e => rw [hd] at h; cases h
    | ok rr =>
      rw [hd] at h
      obtain ⟨ish, st, sh, msg, g1, g2⟩ := accepts_iff.1 h
      exact ⟨((st 0).1, (st 1).1), (prio3_outputs W h2 hsize hap).2 ⟨rr, hd, ish, st, sh, msg, g1, g2, rfl, rfl⟩⟩
  · rintro ⟨⟨o0, o1⟩, h⟩
    obtain ⟨rr, hd, ish, st, sh, msg, g1, g2, -, -⟩ := (prio3_outputs W h2 hsize hap).1 h
    rw [hd]
    exact accepts_iff.2 ⟨ish, st, sh, msg, g1, g2⟩

/-- The output shares of an accepted report sum to the truncated measurement. -/
theorem prio3_opens {T : Task Meas Agg} (I : CustomInstance P T) (h2 : P.shares = 2)
    (hsize : PyField.encSize F * (P.flp.verifierLen * P.proofs) + 32 < 2 ^ 32)
    {vk ctx ap : Bytes} {r : WireReport} (hap : decodeAggParam ap = .ok ()) {o0 o1 : List F}
    (h : exchangeOutputs P.vdaf vk ctx r ap = some (o0, o1)) :
    ∃ rr xs meas o, decodeReport P (encodedOf r) = .ok rr ∧ measShares P ctx rr.inputShares = .ok xs ∧
      IsSum (fun j : Fin (xs.map Prod.fst).length => (xs.map Prod.fst)[j]) meas ∧ meas.length = P.flp.measLen ∧
      P.flp.truncate meas = .ok o ∧ IsSum ![o0, o1] o ∧ o.length = P.flp.outputLen := by
  obtain ⟨rr, hd, ish, st, sh, msg, g1, g2, rfl, rfl⟩ := (prio3_outputs I.wf h2 hsize hap).1 h
  obtain ⟨ms, ps, bl, jrs, qrs, e1, -, -, e4⟩ := joint_of_success (by omega) g2
  have h5 : Spec.measShares P ctx rr.inputShares = .ok (tab P.shares fun j => (ms j, bl j)) := by
    unfold Spec.measShares
    apply mapRes_range_tab
    intro j hj
    rw [getI_of_some (g1 j hj), Except.ok_bind']
    rcases expandInputShare_ok (e1 j hj) with ⟨rfl, e⟩ | ⟨h0, s, e, e1, e2⟩
    · rw [e]; rfl
    · rw [e]
      dsimp only
      rw [if_neg (by omega), e1]
      rfl
  have hlen : ∀ j < P.shares, (ms j).length = P.flp.measLen := by
    intro j hj
    obtain ⟨s, k1, k2⟩ := (decodeReport_ok hd).2.2.2 j hj
    rw [g1 j hj] at k1
    cases k1
    rcases expandInputShare_ok (e1 j hj) with ⟨rfl, e⟩ | ⟨h0, s, e, e1, e2⟩
    · rw [e] at k2
      exact k2.2.1
    · exact expandIntoVec_length e1
  have hmap : (tab P.shares fun j => (ms j, bl j)).map Prod.fst = [ms 0, ms 1] := by
    rw [h2]; rfl
  have hs : IsSum ![ms 0, ms 1] (tab P.flp.measLen fun k => coef (ms 0) k + coef (ms 1) k) := by
    refine ⟨fun i => ?_, fun k => ?_⟩
    · fin_cases i
      · simpa using hlen 0 (by omega)
      · simpa using hlen 1 (by omega)
    · show coef _ k = ∑ i, coef _ k
      rw [Fin.sum_univ_two, coef_tab]
      split
      · rfl
      · next hk =>
        show (0 : F) = coef (ms 0) k + coef (ms 1) k
        rw [coef_of_le (by rw [hlen 0 (by omega)]; omega), coef_of_le (by rw [hlen 1 (by omega)]; omega), add_zero]
  obtain ⟨os, o, k1, k2, k3, k4⟩ := I.computes.truncate 2 _ _ hs (by simp)
  refine ⟨rr, _, _, o, hd, h5, ?_, by simp, k1, ?_, k4⟩
  · rw [isSum_list, hmap]
    refine ⟨?_, fun k => ?_⟩
    · intro w hw
      simp only [List.mem_cons, List.not_mem_nil, or_false] at hw
      rcases hw with rfl | rfl
      · simpa using hlen 0 (by omega)
      · simpa using hlen 1 (by omega)
    · have := hs.2 k
      change coef _ k = ∑ i, coef _ k at this
      rw [Fin.sum_univ_two] at this
      rw [this]
      simp [colsum]
  · have a0 := (e4 0 (by omega)).2.1
    have a1 := (e4 1 (by omega)).2.1
    have b0 := k2 0
    have b1 := k2 1
    simp only [Matrix.cons_val_zero, Matrix.cons_val_one] at b0 b1
    rw [a0] at b0
    rw [a1] at b1
    convert k3 using 1
    funext i
    fin_cases i <;> simp [← Except.ok.inj b0, ← Except.ok.inj b1]

/-- The aggregate result of a batch of output shares. -/
theorem prio3_collected {X : Xof} {P : Prio3 X F Meas Agg} {batch : List (List F × List F)}
    (h : ∀ x ∈ batch, x.1.length = P.flp.outputLen ∧ x.2.length = P.flp.outputLen) :
    collected P.vdaf () batch =
      P.flp.decode (tab P.flp.outputLen fun k => (batch.map fun x => coef x.1 k + coef x.2 k).sum) batch.length := by
  have hzt : fieldZeros F P.flp.outputLen = tab P.flp.outputLen fun _ => 0 := by
    simp [fieldZeros, tab, List.map_const']
  have hagg : ∀ l : List (List F), (∀ v ∈ l, v.length = P.flp.outputLen) →
      aggregate P.vdaf () l = .ok (tab P.flp.outputLen fun k => colsum l k) := by
    intro l hl
    show forFold l (fieldZeros F P.flp.outputLen) (fun a o => vecAdd a o) = _
    rw [hzt, vecAdd_fold _ hl]
    simp
  unfold collected
  rw [hagg _ (fun v hv => by obtain ⟨x, hx, rfl⟩ := List.mem_map.1 hv; exact (h x hx).1), Except.ok_bind',
    hagg _ (fun v hv => by obtain ⟨x, hx, rfl⟩ := List.mem_map.1 hv; exact (h x hx).2), Except.ok_bind']
  show P.unshard () _ _ = _
  unfold unshard merge aggInit
  simp only [Except.ok_bind']
  rw [hzt, vecAdd_fold _ (by intro v hv; simp at hv; rcases hv with rfl | rfl <;> simp), Except.ok_bind']
  congr 1
  apply tab_congr
  intro k hk
  simp [colsum, coef_tab, hk, List.sum_map_add, Function.comp_def]

/-! ### The reduction -/

/-- The reply of the Aggregators. -/
def backOracle : OracleReply → WireReply
  | .output s => .output s
  | .verdict b => .verdict b

/-- The Client of the broadcast execution. -/
def prio3Simulator (P : Prio3 (XofTurboShake128 prims fuel) F Meas Agg) (σ : WireStrategy) : OracleStrategy :=
  simulator (simMove P.vdaf .query fun r _ => .submit (encodedOf r)) (simReply P.vdaf backOracle) σ

theorem oracleRun_eq {vk ctx : Bytes} (σ : OracleStrategy) (q : ℕ) :
    oracleRun P vk ctx σ q = run (oracleRespond P vk ctx) σ q := by
  induction q with
  | zero => rfl
  | succ q ih =>
    unfold oracleRun run
    rw [ih]

theorem prio3_game (W : P.WF) (h2 : P.shares = 2)
    (hsize : PyField.encSize F * (P.flp.verifierLen * P.proofs) + 32 < 2 ^ 32) {vk ctx : Bytes}
    (σ : WireStrategy) (q : ℕ) (r : WireReport) (ap : Bytes)
    (h : (.submit r ap, .verdict true) ∈ wireRun P.vdaf (fun m => prims.turboShake m 1) vk ctx σ q) :
    decodeAggParam ap = .ok () ∧ (.submit (encodedOf r), .verdict true) ∈ oracleRun P vk ctx (prio3Simulator P σ) q := by
  obtain ⟨a, r', h1, h3, h4, h5⟩ := game (V := P.vdaf) (ask := OracleMove.query)
    (submit := fun r _ => .submit (encodedOf r)) (back := backOracle) (respond' := oracleRespond P vk ctx)
    (prev' := fun H n => (sentNonces H).filterMap fun m => if m = n then some () else none)
    (fun n => rfl) (fun H m => rfl) (fun H m r n => by simp [sentNonces]) (fun H' r ap a k1 k2 k3 => by
      have hv : r.nonce ∉ sentNonces H' := by
        have : (Except.ok _ : Res Bool) = .ok true := k3
        simp only [Except.ok.injEq, beq_iff_eq, List.length_eq_zero_iff, List.filterMap_eq_nil_iff] at this
        intro hc
        have := this _ hc
        simp at this
      refine ⟨?_, fun n => ?_⟩
      · show WireReply.verdict (decide (r.nonce.length = 16 ∧ r.nonce ∉ sentNonces H') && acceptsEncoded P vk ctx (encodedOf r)) = _
        rw [decide_eq_true ⟨k2, hv⟩, Bool.true_and, prio3_accepts W h2 hsize k1]
      · unfold sentNonces
        rw [List.filterMap_append, List.filterMap_append]
        congr 1
        by_cases hn : r.nonce = n
        · simp [encodedOf, hn]
        · simp [encodedOf, hn]) σ q r ap h
  refine ⟨h1, ?_⟩
  cases r' with
  | output s => cases h3
  | verdict b =>
    have : b = true := WireReply.verdict.inj h3
    rw [oracleRun_eq]
    exact this ▸ h5

theorem mem_accepted {Meas AggParam PubShare InShare OutShare AggShare AggRes VState VShare VMsg : Type}
    {V : VdafImpl Meas AggParam PubShare InShare OutShare AggShare AggRes VState VShare VMsg} {vk ctx ap : Bytes}
    {hist : List (WireMove × WireReply)} {x : OutShare × OutShare} (h : x ∈ acceptedOutputs V vk ctx ap hist) :
    ∃ r, (.submit r ap, .verdict true) ∈ hist ∧ exchangeOutputs V vk ctx r ap = some x := by
  unfold acceptedOutputs at h
  obtain ⟨⟨mv, rep⟩, h1, h2⟩ := List.mem_filterMap.1 h
  split at h2
  · next r ap' he =>
    split at h2
    · next ha =>
      cases he
      exact ⟨r, ha ▸ h1, h2⟩
    · cases h2
  · cases h2

theorem accepted_length {Meas AggParam PubShare InShare OutShare AggShare AggRes VState VShare VMsg : Type}
    {V : VdafImpl Meas AggParam PubShare InShare OutShare AggShare AggRes VState VShare VMsg} {vk ctx ap : Bytes}
    {T : Bytes → ℕ → UInt8} {σ : WireStrategy} {q : ℕ} {batch : List (OutShare × OutShare)}
    (h : batch.Sublist (acceptedOutputs V vk ctx ap (wireRun V T vk ctx σ q))) : batch.length ≤ q := by
  have hl : (wireRun V T vk ctx σ q).length = q := by
    clear h
    induction q with
    | zero => rfl
    | succ q ih =>
      unfold wireRun
      simp [ih]
  have h1 := h.length_le
  have h2 : (acceptedOutputs V vk ctx ap (wireRun V T vk ctx σ q)).length ≤ (wireRun V T vk ctx σ q).length :=
    List.length_filterMap_le _ _
  omega

theorem prio3_wins {T : Task Meas Agg} (I : CustomInstance P T) (h2 : P.shares = 2)
    (hsize : PyField.encSize F * (P.flp.verifierLen * P.proofs) + 32 < 2 ^ 32) {vk ctx : Bytes} {valid : List F → Prop} {q : ℕ}
    (hval : ∀ meas, meas.length = P.flp.measLen → valid meas →
      ∃ m e, T.valid m ∧ P.flp.encode m = .ok e ∧ P.flp.truncate e = P.flp.truncate meas)
    (hsup : ∀ ms : List Meas, ms.length ≤ q → (∀ m ∈ ms, T.valid m) → T.supported ms) (σ : WireStrategy)
    (h : WireWins P.vdaf (fun _ => AggregateOfValid T) vk ctx (wireRun P.vdaf (fun m => prims.turboShake m 1) vk ctx σ q)) :
    OracleWins P ctx valid (oracleRun P vk ctx (prio3Simulator P σ) q) := by
  by_contra hno
  obtain ⟨ap, a, hap, batch, hb, hbad⟩ := h
  apply hbad
  have hone : ∀ i : Fin batch.length, ∃ (m : Meas) (e o : List F), T.valid m ∧ P.flp.encode m = .ok e ∧
      P.flp.truncate e = .ok o ∧ IsSum ![batch[i].1, batch[i].2] o ∧ o.length = P.flp.outputLen := by
    intro i
    obtain ⟨r, h3, h4⟩ := mem_accepted (hb.subset (List.getElem_mem i.2))
    obtain ⟨h5, h6⟩ := prio3_game I.wf h2 hsize σ q r ap h3
    obtain ⟨rr, xs, meas, o, k1, k2, k3, k4, k5, k6, k7⟩ := prio3_opens I h2 hsize h5 h4
    have hv : valid meas := by
      by_contra hv
      exact hno ⟨_, h6, rr, xs, k1, k2, meas, k3, hv⟩
    obtain ⟨m, e, g1, g2, g3⟩ := hval meas k4 hv
    exact ⟨m, e, o, g1, g2, by rw [g3, k5], k6, k7⟩
  choose m e o hone using hone
  have hl : ∀ i : Fin batch.length, batch[i].1.length = P.flp.outputLen ∧ batch[i].2.length = P.flp.outputLen := by
    intro i
    obtain ⟨-, -, -, h4, h5⟩ := hone i
    rw [← h5]
    exact ⟨h4.1 0, h4.1 1⟩
  have hmem : ∀ x ∈ List.ofFn m, T.valid x := by
    intro x hx
    obtain ⟨i, rfl⟩ := List.mem_ofFn.1 hx
    exact (hone i).1
  refine ⟨T.agg (List.ofFn m), ?_, List.ofFn m, by simp, hmem, rfl⟩
  show collected P.vdaf () batch = _
  rw [prio3_collected (fun x hx => by
    obtain ⟨i, hi, rfl⟩ := List.getElem_of_mem hx
    exact hl ⟨i, hi⟩)]
  refine I.computes.decode _ m e o _ (fun i => (hone i).1) (hsup _ (by simpa using accepted_length hb) hmem)
    (fun i => (hone i).2.1) (fun i => (hone i).2.2.1) ⟨fun i => ?_, fun k => ?_⟩ (by simp)
  · simpa using (hone i).2.2.2.2
  · show coef _ k = ∑ i, coef (o i) k
    have hk : ∀ i, coef (o i) k = coef batch[i].1 k + coef batch[i].2 k := by
      intro i
      have := (hone i).2.2.2.1.2 k
      change coef _ k = ∑ i, coef _ k at this
      rw [Fin.sum_univ_two] at this
      exact this
    rw [coef_tab]
    split
    · rw [sum_congr rfl fun i _ => hk i, ← Fin.sum_univ_fun_getElem batch fun x => coef x.1 k + coef x.2 k]
      rfl
    · next hlt =>
      symm
      exact sum_eq_zero fun i _ => coef_of_le (by rw [(hone i).2.2.2.2]; omega)

theorem prio3Simulator_runWith (O : Bytes → ℕ → UInt8) (σ : WireStrategy) :
    prio3Simulator (runWith P O) σ = prio3Simulator P σ := by
  unfold prio3Simulator
  rw [simMove_congr (V' := P.vdaf) (V := (runWith P O).vdaf) rfl rfl rfl,
    simReply_congr (V' := P.vdaf) (V := (runWith P O).vdaf) rfl rfl rfl]

/-- The attackers win with at most the probability of a Client of the broadcast execution. -/
theorem prio3_probability {T : Task Meas Agg} (I : CustomInstance P T) (h2 : P.shares = 2)
    (hsize : PyField.encSize F * (P.flp.verifierLen * P.proofs) + 32 < 2 ^ 32) {ctx : Bytes} {valid : List F → Prop} {q : ℕ}
    (hval : ∀ meas, meas.length = P.flp.measLen → valid meas →
      ∃ m e, T.valid m ∧ P.flp.encode m = .ok e ∧ P.flp.truncate e = P.flp.truncate meas)
    (hsup : ∀ ms : List Meas, ms.length ≤ q → (∀ m ∈ ms, T.valid m) → T.supported ms) (σ : WireStrategy)
    {S : Set Bytes} (hfin : S.Finite) (N : ℕ) :
    wireWinProbability (fun O => (runWith P O).vdaf) prims ctx (fun _ => AggregateOfValid T) σ q S N ≤
      keyedWinProbability P ctx valid (prio3Simulator P σ) q S N := by
  have hf : {x : Bytes × (Bytes → ℕ → UInt8) | x.1.length = 32 ∧ x.2 ∈ oracles prims S N}.Finite :=
    ((List.finite_length_eq UInt8 32).prod (oracles_finite hfin N)).subset fun x hx => ⟨hx.1, hx.2⟩
  have hsub : {x : Bytes × (Bytes → ℕ → UInt8) | x.1.length = 32 ∧ x.2 ∈ oracles prims S N ∧
      WireWins (runWith P x.2).vdaf (fun _ => AggregateOfValid T) x.1 ctx
        (wireRun (runWith P x.2).vdaf x.2 x.1 ctx σ q)} ⊆
      {x | x.1.length = 32 ∧ x.2 ∈ oracles prims S N ∧
        OracleWins (runWith P x.2) ctx valid (oracleRun (runWith P x.2) x.1 ctx (prio3Simulator P σ) q)} := by
    rintro ⟨vk, O⟩ ⟨k1, k2, k3⟩
    refine ⟨k1, k2, ?_⟩
    have := prio3_wins (custom_runWith I O) (vk := vk) (ctx := ctx) (valid := valid) (q := q) h2 hsize hval hsup σ k3
    rw [prio3Simulator_runWith] at this
    exact this
  unfold wireWinProbability keyedWinProbability
  exact div_le_div_of_nonneg_right
    (Nat.cast_le.2 (Set.ncard_le_ncard hsub (hf.subset fun x hx => ⟨hx.1, hx.2.1⟩))) (Nat.cast_nonneg _)

end
end Vdaf.WireGame
