import Verif.Proofs.PingPongRobustPrio3
import Verif.Spec.RobustAggregate

/-! The aggregate result of reports of any origin. -/

set_option linter.unusedSectionVars false

namespace Vdaf
open Finset Spec

namespace Prio3
variable {F : Type} [NttField F] {Meas Agg : Type} {X : Xof} {P : Prio3 X F Meas Agg}

theorem isSum_tab_iff {n : ℕ} {ms : ℕ → List F} {l : List (List F)} (hl : l = tab n ms) {v : List F} :
    IsSum (fun j : Fin l.length => l[j]) v ↔ IsSum (fun j : Fin n => ms j) v := by
  subst hl
  rw [isSum_list, isSum_iff]
  refine and_congr ?_ (forall_congr' fun k => ?_)
  · constructor
    · intro h i
      exact h _ (by simp only [tab, List.mem_map, List.mem_range]; exact ⟨i, i.2, rfl⟩)
    · intro h w hw
      simp only [tab, List.mem_map, List.mem_range] at hw
      obtain ⟨i, hi, rfl⟩ := hw
      exact h ⟨i, hi⟩
  · rw [Fin.sum_univ_eq_sum_range fun j => coef (ms j) k, ← list_sum_range]
    unfold colsum tab
    rw [List.map_map]
    rfl

/-- The sum of vectors of the same length -/
theorem isSum_exists {N n : ℕ} {ms : ℕ → List F} (h : ∀ j < N, (ms j).length = n) :
    IsSum (fun j : Fin N => ms j) (tab n fun k => ∑ j : Fin N, coef (ms j) k) := by
  refine isSum_iff.2 ⟨fun i => by simpa using h i i.2, fun k => ?_⟩
  rw [coef_tab]
  split
  · rfl
  · next hk =>
    symm
    exact sum_eq_zero fun j _ => coef_of_le (by rw [h j j.2]; omega)

theorem measShares_eq {ctx : Bytes} {l : List (Prio3InputShare F)} {ish : ℕ → Prio3InputShare F} {ms ps : ℕ → List F}
    {bl : ℕ → Option Bytes} (hl : ∀ j < P.shares, l[j]? = some (ish j))
    (h : ∀ j < P.shares, P.expandInputShare ctx j (ish j) = .ok (ms j, ps j, bl j)) :
    measShares P ctx l = .ok (tab P.shares fun j => (ms j, bl j)) := by
  unfold Spec.measShares
  apply mapRes_range_tab
  intro j hj
  rw [getI_of_some (hl j hj), Except.ok_bind']
  rcases expandInputShare_ok (h j hj) with ⟨rfl, e⟩ | ⟨h0, s, e, e1, e2⟩
  · rw [e]; rfl
  · rw [e]
    dsimp only
    rw [if_neg (by omega), e1]
    rfl

theorem map_fst_tab {α β : Type} (n : ℕ) (f : ℕ → α) (g : ℕ → β) :
    (tab n fun j => (f j, g j)).map Prod.fst = tab n f := by
  simp [tab, Function.comp_def]

/-- The output shares of an accepted report sum to the truncated measurement. -/
theorem accepted_opens (W : P.WF) (hp : 0 < P.proofs) {T : Task Meas Agg} (C : Computes P.flp T) {vk ctx : Bytes}
    {r : Report F} (h : accepts P vk ctx r = true) :
    ∃ (xs : List (List F × Option Bytes)) (meas o : List F) (os : ℕ → List F), measShares P ctx r.inputShares = .ok xs ∧
      IsSum (fun j : Fin (xs.map Prod.fst).length => (xs.map Prod.fst)[j]) meas ∧ meas.length = P.flp.measLen ∧
      P.flp.truncate meas = .ok o ∧ o.length = P.flp.outputLen ∧
      broadcast P.vdaf vk () ctx r.nonce r.publicShare r.inputShares = .ok (tab P.shares os) ∧
      IsSum (fun j : Fin P.shares => os j) o := by
  have hN := W.shares_ge
  obtain ⟨ish, st, sh, msg, g1, g2⟩ := accepts_iff.1 h
  obtain ⟨ms, ps, bl, jrs, qrs, e1, -, -, e4⟩ := joint_of_success (by omega) g2
  have hlen : ∀ j < P.shares, (ms j).length = P.flp.measLen := by
    intro j hj
    obtain ⟨v, -, hv⟩ := queryLoop_ok (e4 j hj).2.2
    exact (query_ok_len W (by omega) W.modulus (hv 0 hp)).1
  have hs := isSum_exists hlen
  obtain ⟨os, o, k1, k2, k3, k4⟩ := C.truncate _ _ _ hs (by simp)
  refine ⟨_, _, o, fun j => (st j).1, measShares_eq g1 e1, (isSum_tab_iff (map_fst_tab _ _ _)).2 hs, by simp, k1, k4,
    WireGame.prio3_broadcast.2 ⟨ish, st, sh, msg, g1, g2, rfl⟩, ?_⟩
  have : (fun j : Fin P.shares => (st j).1) = os := by
    funext j
    have := (e4 j j.2).2.1
    rw [k2 j] at this
    exact (Except.ok.inj this).symm
  rw [this]
  exact k3

/-- The aggregate result, from the output shares -/
theorem aggregate_outs {vk ctx : Bytes} {rs : List (Report F)} {os : Fin rs.length → ℕ → List F} {o : Fin rs.length → List F}
    (h1 : ∀ i, broadcast P.vdaf vk () ctx rs[i].nonce rs[i].publicShare rs[i].inputShares = .ok (tab P.shares (os i)))
    (h2 : ∀ i, IsSum (fun j : Fin P.shares => os i j) (o i)) (h3 : ∀ i, (o i).length = P.flp.outputLen) :
    ∃ tot, aggregateReports P vk ctx rs = P.flp.decode tot rs.length ∧ IsSum o tot ∧ tot.length = P.flp.outputLen := by
  have hl : ∀ i, ∀ j < P.shares, (os i j).length = P.flp.outputLen := fun i j hj => by
    rw [← h3 i]
    exact (h2 i).1 ⟨j, hj⟩
  have houts : mapRes (fun r : Report F => broadcast P.vdaf vk () ctx r.nonce r.publicShare r.inputShares) rs =
      .ok (List.ofFn fun i => tab P.shares (os i)) := by
    rw [mapRes_ok_iff, List.forall₂_iff_get]
    refine ⟨by simp, fun i hi hi' => ?_⟩
    simpa using h1 ⟨i, hi⟩
  have hagg : mapRes (fun j => do
      let os ← mapRes (fun o : List (List F) => getI o j) (List.ofFn fun i => tab P.shares (os i))
      aggregate P.vdaf () os) (List.range P.shares) =
      .ok (tab P.shares fun j => tab P.flp.outputLen fun k => ∑ i, coef (os i j) k) := by
    apply mapRes_range_tab
    intro j hj
    have : mapRes (fun o : List (List F) => getI o j) (List.ofFn fun i => tab P.shares (os i)) =
        .ok (List.ofFn fun i => os i j) := by
      rw [mapRes_ok_iff, List.forall₂_iff_get]
      refine ⟨by simp, fun i hi hi' => ?_⟩
      simp only [List.get_eq_getElem, List.getElem_ofFn]
      exact getI_eq_ok.2 (by simp [tab, hj])
    rw [this, Except.ok_bind', aggregate_eq, if_pos (by
      intro v hv
      obtain ⟨i, rfl⟩ := List.mem_ofFn.1 hv
      exact hl i j hj)]
    congr 1
    apply tab_congr
    intro k hk
    unfold colsum
    rw [List.map_ofFn, List.sum_ofFn]
    rfl
  refine ⟨tab P.flp.outputLen fun k => ∑ j ∈ range P.shares, ∑ i, coef (os i j) k, ?_, ?_, by simp⟩
  · unfold aggregateReports
    rw [houts, Except.ok_bind', hagg, Except.ok_bind']
    unfold unshard
    rw [show P.merge () = P.vdaf.merge () from rfl, merge_eq, aggregate_eq, if_pos (by
      intro v hv
      simp only [tab, List.mem_map, List.mem_range] at hv
      obtain ⟨j, hj, rfl⟩ := hv
      simp), Except.ok_bind']
    congr 1
    apply tab_congr
    intro k hk
    unfold colsum
    rw [show tab P.shares = fun f => (List.range P.shares).map f from rfl]
    rw [List.map_map, list_sum_range]
    refine sum_congr rfl fun j _ => ?_
    simp [coef_tab, hk]
  · refine isSum_iff.2 ⟨fun i => by simpa using h3 i, fun k => ?_⟩
    rw [coef_tab]
    split
    · rw [sum_comm]
      refine sum_congr rfl fun i _ => ?_
      rw [(isSum_iff.1 (h2 i)).2 k, Fin.sum_univ_eq_sum_range fun j => coef (os i j) k]
    · next hk =>
      symm
      exact sum_eq_zero fun i _ => coef_of_le (by rw [h3 i]; omega)

/-- The aggregate result of accepted reports that stand for valid measurements -/
theorem aggregate_accepted (W : P.WF) (hp : 0 < P.proofs) {T : Task Meas Agg} (C : Computes P.flp T) {vk ctx : Bytes}
    {rs : List (Report F)} {ms : List Meas} (hacc : ∀ r ∈ rs, accepts P vk ctx r = true)
    (hms : List.Forall₂ (fun r m => T.valid m ∧ ReportStandsFor P ctx r m) rs ms) (hsup : T.supported ms) :
    aggregateReports P vk ctx rs = .ok (T.agg ms) := by
  obtain ⟨hl, hms⟩ := List.forall₂_iff_get.1 hms
  have hone : ∀ i : Fin rs.length, ∃ (e o : List F) (os : ℕ → List F),
      P.flp.encode (ms[i.1]'(hl ▸ i.2)) = .ok e ∧ P.flp.truncate e = .ok o ∧ o.length = P.flp.outputLen ∧
      broadcast P.vdaf vk () ctx rs[i].nonce rs[i].publicShare rs[i].inputShares = .ok (tab P.shares os) ∧
      IsSum (fun j : Fin P.shares => os j) o := by
    intro i
    obtain ⟨xs, meas, o, os, a1, a2, -, a4, a5, a6, a7⟩ := accepted_opens W hp C (hacc rs[i] (List.getElem_mem i.2))
    obtain ⟨-, xs', b1, meas', b2, e, o', b3, b4, b5⟩ := hms i.1 i.2 (hl ▸ i.2)
    simp only [List.get_eq_getElem] at b1 b3
    have a1' : measShares P ctx rs[i.1].inputShares = .ok xs := a1
    rw [a1'] at b1
    cases b1
    have hpos : 0 < (xs.map Prod.fst).length := by
      have := mapRes_length a1'
      rw [List.length_range] at this
      rw [List.length_map, this]
      have := W.shares_ge
      omega
    rw [IsSum.unique a2 b2 ((a2.1 ⟨0, hpos⟩).symm.trans (b2.1 ⟨0, hpos⟩)), b5] at a4
    cases a4
    exact ⟨e, _, os, b3, b4, a5, a6, a7⟩
  choose e o os hone using hone
  obtain ⟨tot, t1, t2, t3⟩ := aggregate_outs (fun i => (hone i).2.2.2.1) (fun i => (hone i).2.2.2.2) fun i => (hone i).2.2.1
  rw [t1]
  have hofn : ms = List.ofFn fun i : Fin rs.length => ms[i.1]'(hl ▸ i.2) := by
    apply List.ext_getElem (by simp [hl])
    intro i h1 h2
    simp
  rw [C.decode _ (fun i => ms[i.1]'(hl ▸ i.2)) e o tot (fun i => ?_) (hofn ▸ hsup) (fun i => (hone i).1)
    (fun i => (hone i).2.1) t2 t3, ← hofn]
  exact (hms i.1 i.2 (hl ▸ i.2)).1

/-- The report of an honest Client stands for its measurement. -/
theorem honest_standsFor (W : P.WF) {T : Task Meas Agg} (C : Computes P.flp T) {ctx : Bytes}
    (hctx : ctx.length + 8 < 2 ^ 16) {m : Meas} (hm : T.valid m) {nonce rand : Bytes} (hn : nonce.length = 16)
    (hr : rand.length = P.randSize) {pub : Option (List Bytes)} {l : List (Prio3InputShare F)}
    (h : P.shard ctx m nonce rand = .ok (pub, l)) : ReportStandsFor P ctx ⟨nonce, pub, l⟩ m := by
  obtain ⟨e, he, hl, -⟩ := C.encode m hm
  have hg := shard_good W hctx he hl hn hr
  rw [h] at hg
  obtain ⟨ms, ps, bl, prs, jrs, π, S, -⟩ := hg
  have hex : ∀ j, ∃ s, j < P.shares → l[j]? = some s ∧ P.expandInputShare ctx j s = .ok (ms j, ps j, bl j) := by
    intro j
    by_cases hj : j < P.shares
    · obtain ⟨s, h⟩ := S.expand j hj
      exact ⟨s, fun _ => h⟩
    · exact ⟨.helper [] none, fun h => absurd h hj⟩
  choose ish hish using hex
  obtain ⟨-, o, k1, -⟩ := C.truncate _ _ _ S.measSum hl
  exact ⟨_, measShares_eq (fun j hj => (hish j hj).1) (fun j hj => (hish j hj).2), e,
    (isSum_tab_iff (map_fst_tab _ _ _)).2 S.measSum, e, o, he, k1, k1⟩

end Prio3

namespace Prio3
variable {F : Type} [NttField F] {Meas Agg : Type} {prims : Prims} {fuel : ℕ} {P : Prio3 (XofTurboShake128 prims fuel) F Meas Agg}

theorem mem_acceptedReports {hist : List (OracleMove × OracleReply)} {e : EncodedReport} :
    e ∈ acceptedReports hist ↔ (.submit e, .verdict true) ∈ hist := by
  unfold acceptedReports
  rw [List.mem_filterMap]
  constructor
  · rintro ⟨x, hx, h⟩
    split at h
    · cases h
      exact hx
    · cases h
  · intro h
    exact ⟨_, h, rfl⟩

/-- If the result is not faithful, then the Client has won. -/
theorem wins_of_unfaithful {T : Task Meas Agg} (I : CustomInstance P T) (hp : 0 < P.proofs) {vk ctx : Bytes}
    {valid : List F → Prop}
    (hval : ∀ meas, meas.length = P.flp.measLen → valid meas →
      ∃ m e, T.valid m ∧ P.flp.encode m = .ok e ∧ P.flp.truncate e = P.flp.truncate meas) {O : Bytes → ℕ → UInt8}
    {σ : OracleStrategy} {q : ℕ}
    (h : ¬ FaithfulRun (runWith P O) T vk ctx (oracleRun (runWith P O) vk ctx σ q)) :
    OracleWins (runWith P O) ctx valid (oracleRun (runWith P O) vk ctx σ q) := by
  by_contra hno
  apply h
  have I' := custom_runWith I O
  have hacc : ∀ e ∈ acceptedReports (oracleRun (runWith P O) vk ctx σ q), ∃ r, decodeReport (runWith P O) e = .ok r ∧
      accepts (runWith P O) vk ctx r = true := by
    intro e he
    obtain ⟨t, -, -, -, -, ha⟩ := sent_accepted.1 (mem_acceptedReports.1 he)
    unfold acceptsEncoded at ha
    split at ha
    · next r hr => exact ⟨r, hr, ha⟩
    · cases ha
  obtain ⟨rs, hrs⟩ := mapRes_ok_of (decodeReport (runWith P O)) _ fun e he => (hacc e he).imp fun r h => h.1
  refine ⟨rs, hrs, ?_⟩
  rw [mapRes_ok_iff] at hrs
  have hone : ∀ r ∈ rs, accepts (runWith P O) vk ctx r = true ∧
      ∃ m, T.valid m ∧ ReportStandsFor (runWith P O) ctx r m := by
    intro r hr
    obtain ⟨i, hi, rfl⟩ := List.getElem_of_mem hr
    obtain ⟨hl, hg⟩ := List.forall₂_iff_get.1 hrs
    have hi' : i < (acceptedReports (oracleRun (runWith P O) vk ctx σ q)).length := hl ▸ hi
    have hd := hg i hi' hi
    simp only [List.get_eq_getElem] at hd
    obtain ⟨r, h1, h2⟩ := hacc _ (List.getElem_mem hi')
    rw [hd] at h1
    cases h1
    obtain ⟨xs, meas, o, os, a1, a2, a3, a4, -⟩ := accepted_opens I'.wf hp I'.computes h2
    refine ⟨h2, ?_⟩
    have hv : valid meas := by
      by_contra hv
      exact hno ⟨_, mem_acceptedReports.1 (List.getElem_mem hi'), _, xs, hd, a1, meas, a2, hv⟩
    obtain ⟨m, e, g1, g2, g3⟩ := hval meas a3 hv
    exact ⟨m, g1, xs, a1, meas, a2, e, o, g2, by rw [← a4]; exact g3, a4⟩
  refine ⟨?_, fun ms hms hsup => aggregate_accepted I'.wf hp I'.computes (fun r hr => (hone r hr).1) hms hsup⟩
  clear hrs hacc
  induction rs with
  | nil => exact ⟨[], .nil⟩
  | cons r rs ih =>
    obtain ⟨m, hm⟩ := (hone r (by simp)).2
    obtain ⟨ms, hms⟩ := ih fun r hr => hone r (by simp [hr])
    exact ⟨m :: ms, .cons hm hms⟩

theorem corrupt_le {T : Task Meas Agg} (I : CustomInstance P T) (hp : 0 < P.proofs) {ctx : Bytes} {valid : List F → Prop}
    (hval : ∀ meas, meas.length = P.flp.measLen → valid meas →
      ∃ m e, T.valid m ∧ P.flp.encode m = .ok e ∧ P.flp.truncate e = P.flp.truncate meas) (σ : OracleStrategy) (q : ℕ)
    {S : Set Bytes} (hfin : S.Finite) (N : ℕ) :
    corruptProbability P T ctx σ q S N ≤ keyedWinProbability P ctx valid σ q S N := by
  have hf : {x : Bytes × (Bytes → ℕ → UInt8) | x.1.length = 32 ∧ x.2 ∈ oracles prims S N}.Finite :=
    ((List.finite_length_eq UInt8 32).prod (oracles_finite hfin N)).subset fun x hx => ⟨hx.1, hx.2⟩
  unfold corruptProbability keyedWinProbability
  refine div_le_div_of_nonneg_right (Nat.cast_le.2 (Set.ncard_le_ncard ?_ (hf.subset fun x hx => ⟨hx.1, hx.2.1⟩)))
    (Nat.cast_nonneg _)
  rintro ⟨vk, O⟩ ⟨k1, k2, k3⟩
  exact ⟨k1, k2, wins_of_unfaithful I hp hval k3⟩

end Prio3
end Vdaf
