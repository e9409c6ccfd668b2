import Verif.Proofs.PrivacyCount
import Verif.Props.PrivacyActive

/-! The coalition learns nothing if it does not evaluate the oracle at a secret input. -/

set_option linter.unusedSectionVars false

namespace Vdaf
open Finset
open Spec (secretInputs runWith withOracle tag seedAt bytesAt Coins Transcript FreshCoins batchSecrets QueryReply QueryMove
  QueryStrategy coinsOf oracles queryView attackView batchesBy TotalOf Reply)

/-- The numbers of the outcomes in a set agree if the numbers of all the outcomes in it do. -/
theorem ncard_outcomes {α β : Type} {O : Set α} (hO : O.Finite) {f g : α → Res β} {E : Set β}
    (h : ∀ v ∈ E, {T ∈ O | f T = .ok v}.ncard = {T ∈ O | g T = .ok v}.ncard) :
    {T ∈ O | ∃ v ∈ E, f T = .ok v}.ncard = {T ∈ O | ∃ v ∈ E, g T = .ok v}.ncard := by
  have hfin : ∀ p : α → Prop, {T ∈ O | p T}.Finite := fun p => hO.subset (Set.sep_subset _ _)
  have hs : ∀ f : α → Res β, Nonempty ((Σ v : E, {T ∈ O | f T = .ok v.1}) ≃ {T ∈ O | ∃ v ∈ E, f T = .ok v}) := by
    intro f
    refine ⟨Equiv.ofBijective (fun x => ⟨x.2.1, x.2.2.1, x.1.1, x.1.2, x.2.2.2⟩) ⟨?_, ?_⟩⟩
    · rintro ⟨⟨v, he⟩, T, hT, hv⟩ ⟨⟨v', he'⟩, T', hT', hv'⟩ e
      obtain rfl : T = T' := congrArg Subtype.val e
      obtain rfl : v = v' := Except.ok.inj (hv.symm.trans hv')
      rfl
    · rintro ⟨T, hT, v, he, hv⟩
      exact ⟨⟨⟨v, he⟩, T, hT, hv⟩, rfl⟩
  have hc : ∀ v : E, Nonempty ({T ∈ O | f T = .ok v.1} ≃ {T ∈ O | g T = .ok v.1}) := fun v => by
    have : Finite {T ∈ O | f T = .ok v.1} := hfin _
    have : Finite {T ∈ O | g T = .ok v.1} := hfin _
    exact Finite.card_eq.1 (by simpa only [Nat.card_coe_set_eq] using h v.1 v.2)
  rw [← Nat.card_coe_set_eq, ← Nat.card_coe_set_eq]
  exact Nat.card_congr ((hs f).some.symm.trans ((Equiv.sigmaCongrRight fun v => (hc v).some).trans (hs g).some))

/-- The oracles that take the same values but at the inputs in `D` -/
theorem ncard_classes {prims : Prims} {S D : Set Bytes} (hS : S.Finite) (hD : D ⊆ S) {N : ℕ}
    {p p' : (Bytes → ℕ → UInt8) → Prop}
    (h : ∀ c ∈ oracles prims S N, {T ∈ oracles (withOracle prims c) D N | p T}.ncard =
      {T ∈ oracles (withOracle prims c) D N | p' T}.ncard) :
    {T ∈ oracles prims S N | p T}.ncard = {T ∈ oracles prims S N | p' T}.ncard := by
  classical
  have hfin := oracles_finite (prims := prims) hS N
  let r : (Bytes → ℕ → UInt8) → Bytes → ℕ → UInt8 := fun T x i => if x ∈ D ∧ i < N then 0 else T x i
  have hr : ∀ T ∈ oracles prims S N, r T ∈ oracles prims S N := by
    intro T hT x i hne
    by_cases hx : x ∈ D ∧ i < N
    · exact ⟨hD hx.1, hx.2⟩
    · simp only [r, if_neg hx] at hne
      exact hT x i hne
  have hfib : ∀ c, r c = c → c ∈ oracles prims S N → ∀ p : (Bytes → ℕ → UInt8) → Prop,
      {T | (T ∈ oracles prims S N ∧ p T) ∧ r T = c} = {T ∈ oracles (withOracle prims c) D N | p T} := by
    intro c hc hcO p
    ext T
    simp only [Set.mem_ofPred_eq, oracles, withOracle, if_true]
    constructor
    · rintro ⟨⟨h1, h2⟩, h3⟩
      refine ⟨fun x i hne => ?_, h2⟩
      by_contra hx
      have := congrFun (congrFun h3 x) i
      simp only [r, if_neg hx] at this
      exact hne this
    · rintro ⟨h1, h2⟩
      refine ⟨⟨fun x i hne => ?_, h2⟩, ?_⟩
      · by_cases hx : x ∈ D ∧ i < N
        · exact ⟨hD hx.1, hx.2⟩
        · have e : T x i = c x i := not_not.1 fun hc => hx (h1 x i hc)
          exact hcO x i (e ▸ hne)
      · funext x i
        by_cases hx : x ∈ D ∧ i < N
        · have := congrFun (congrFun hc x) i
          simp only [r, if_pos hx] at this ⊢
          exact this
        · simp only [r, if_neg hx]
          exact not_not.1 fun hc => hx (h1 x i hc)
  have hrr : ∀ T, r (r T) = r T := by
    intro T
    funext x i
    simp only [r]
    split <;> rfl
  let O := hfin.toFinset
  have hsum : ∀ p : (Bytes → ℕ → UInt8) → Prop, {T ∈ oracles prims S N | p T}.ncard =
      ∑ c ∈ O.image r, {T ∈ oracles (withOracle prims c) D N | p T}.ncard := by
    intro p
    have hset : {T ∈ oracles prims S N | p T} = ↑(O.filter p) := by
      ext T
      simp [O]
    rw [hset, Set.ncard_coe_finset, Finset.card_eq_sum_card_fiberwise (f := r) (t := O.image r)
      (fun T hT => Finset.mem_image_of_mem r (Finset.mem_filter.1 hT).1)]
    refine Finset.sum_congr rfl fun c hc => ?_
    obtain ⟨T0, hT0, rfl⟩ := Finset.mem_image.1 hc
    rw [← hfib _ (hrr T0) (hr T0 (hfin.mem_toFinset.1 hT0)), ← Set.ncard_coe_finset]
    congr 1
    ext T
    simp [O]
  rw [hsum p, hsum p']
  refine Finset.sum_congr rfl fun c hc => ?_
  obtain ⟨T0, hT0, rfl⟩ := Finset.mem_image.1 hc
  exact h _ (hr T0 (hfin.mem_toFinset.1 hT0))

namespace Prio3
variable {F : Type} [NttField F] {Meas Agg : Type} {prims : Prims} {fuel : ℕ}
  {P : Prio3 (XofTurboShake128 prims fuel) F Meas Agg}

theorem transcript_runWith (c T : Bytes → ℕ → UInt8) (vk ctx : Bytes) (m : Meas) (nonce rand : Bytes) :
    Spec.transcript (runWith (runWith P c) T) vk ctx m nonce rand =
      Spec.transcript (runWith P T) vk ctx m nonce rand := by
  have key : ∀ p1 p2 : Prims, p1 = p2 →
      Spec.transcript (⟨P.id, P.shares, P.proofs, P.flp, P.proofLen⟩ : Prio3 (XofTurboShake128 p1 fuel) F Meas Agg)
        vk ctx m nonce rand =
      Spec.transcript (⟨P.id, P.shares, P.proofs, P.flp, P.proofLen⟩ : Prio3 (XofTurboShake128 p2 fuel) F Meas Agg)
        vk ctx m nonce rand := by
    rintro p1 _ rfl
    rfl
  refine key _ _ ?_
  unfold withOracle
  congr 1
  funext m d
  split
  · rfl
  · next hd => exact if_neg hd

theorem custom_runWith {K : Spec.Task Meas Agg} (I : Spec.CustomInstance P K) (c : Bytes → ℕ → UInt8) :
    Spec.CustomInstance (runWith P c) K := by
  refine ⟨I.computes, ?_, I.id, I.proofs, I.shares⟩
  have h := I.init
  unfold Prio3.init at h ⊢
  obtain ⟨l, h1, h⟩ := Except.bind_eq_ok.1 h
  obtain ⟨_, h2, h⟩ := Except.bind_eq_ok.1 h
  have hl : l = P.proofLen := congrArg Prio3.proofLen (Except.ok.inj h)
  show (do
    let proofLen ← P.flp.proofLen
    raiseIf (¬ (2 ≤ P.shares ∧ P.shares < 256)) "invalid number of shares"
    return ⟨P.id, P.shares, P.proofs, P.flp, proofLen⟩ : Res (Prio3 (XofTurboShake128 (withOracle prims c) fuel) F Meas Agg)) =
      .ok (runWith P c)
  rw [h1, Except.ok_bind', h2, hl]
  rfl

variable {ctx : Bytes} {h n : ℕ} {rs : ℕ → Coins} {vk : Bytes} {σ : QueryStrategy F} {q : ℕ}

/-- The coalition's view. -/
theorem queryView_ok {m : ℕ → Meas} {T : Bytes → ℕ → UInt8}
    (W : P.WF) (hctx : ctx.length + 8 < 2 ^ 16) (hh : h < P.shares) {a : ℕ → List F}
    (he : ∀ k < n, P.flp.encode (m k) = .ok (a k)) (ha : ∀ k < n, (a k).length = P.flp.measLen)
    {v : List (Transcript F) × List (QueryReply F)} :
    Spec.queryView (runWith P T) vk ctx h n m rs σ q = .ok v ↔
      ∃ os vs, Sees True P vk ctx h n m rs vs os T ∧ v.1 = tab n vs ∧
        ∃ outs, playQ (Spec.aggregate P.vdaf ()) (reactTo n (fun k => (vs k).message) os) T (σ v.1) q = .ok (v.2, outs) := by
  obtain ⟨v1, v2⟩ := v
  unfold Spec.queryView
  have hview : ∀ {t vs : ℕ → Transcript F}, (∀ k < n, (t k).view h = vs k) →
      (tab n t).map (Transcript.view h) = tab n vs := by
    intro t vs hv
    unfold tab
    rw [List.map_map]
    exact List.map_congr_left fun k hk => hv k (List.mem_range.1 hk)
  have hagg : Spec.aggregate (runWith P T).vdaf () = Spec.aggregate P.vdaf () :=
    funext fun outs => aggregate_runWith T outs
  have hT : (fun m => (withOracle prims T).turboShake m 1) = T := rfl
  constructor
  · intro hv
    obtain ⟨ts, h1, hv⟩ := Except.bind_eq_ok.1 hv
    dsimp only at hv
    obtain ⟨⟨rs', outs⟩, h2, hv⟩ := Except.bind_eq_ok.1 hv
    cases hv
    have : Inhabited (Transcript F) := ⟨⟨none, [], [], [], none⟩⟩
    obtain ⟨t, rfl, ht⟩ := mapRes_range_ok h1
    have hst : ∀ k, ∃ o, k < n → (t k).states[h]? = some (o, (t k).message) := by
      intro k
      by_cases hk : k < n
      · obtain ⟨_, _, _, _, _, _, _, os, _, seed, _, W0⟩ := world_of (W.runWith T) hctx (he k hk) (ha k hk) (ht k hk)
        refine ⟨os h, fun _ => ?_⟩
        rw [W0.states, ← W0.seed_eq]
        exact tab_getElem? hh
      · exact ⟨[], fun hc => absurd hc hk⟩
    choose os hos using hst
    refine ⟨os, fun k => (t k).view h, fun k hk => ⟨t k, ht k hk, rfl, _, hos k hk, fun _ => rfl⟩, hview fun _ _ => rfl,
      outs, ?_⟩
    rw [queryPlay_eq, react_eq (msg := fun k => (t k).message) hos, hagg, hT] at h2
    exact h2
  · rintro ⟨os, vs, hS, rfl, outs, h3⟩
    have : ∀ k, ∃ t, k < n → Spec.transcript (runWith P T) vk ctx (m k) (rs k).nonce (rs k).rand = .ok t ∧
        t.view h = vs k ∧ t.states[h]? = some (os k, (vs k).message) := fun k => by
      by_cases hk : k < n
      · obtain ⟨t, h1, h2, seed, h3, h4⟩ := hS k hk
        exact ⟨t, fun _ => ⟨h1, h2, by rw [h3, h4 trivial, ← h2]; rfl⟩⟩
      · exact ⟨⟨none, [], [], [], none⟩, fun hc => absurd hc hk⟩
    choose t ht using this
    rw [mapRes_range_tab fun k hk => (ht k hk).1]
    simp only [Except.ok_bind']
    rw [hview fun k hk => (ht k hk).2.1, queryPlay_eq, react_eq fun k hk => (ht k hk).2.2, hagg, hT, h3]
    rfl

open Classical in
/-- Zero at the inputs in `D` -/
noncomputable def maskAt (D : Set Bytes) (T : Bytes → ℕ → UInt8) : Bytes → ℕ → UInt8 := fun x =>
  if x ∈ D then fun _ => 0 else T x

/-- What the coalition sees is in `E`, if the evaluations of the oracle at the secret inputs do not tell anything. -/
def Modified (P : Prio3 (XofTurboShake128 prims fuel) F Meas Agg) (vk ctx : Bytes) (h n : ℕ) (m : ℕ → Meas)
    (rs : ℕ → Coins) (σ : QueryStrategy F) (q : ℕ) (E : Set (List (Transcript F) × List (QueryReply F)))
    (T : Bytes → ℕ → UInt8) : Prop :=
  ∃ v ∈ E, ∃ os vs, Sees True P vk ctx h n m rs vs os T ∧ v.1 = tab n vs ∧
    ∃ outs, playQ (Spec.aggregate P.vdaf ()) (reactTo n (fun k => (vs k).message) os)
      (maskAt (batchSecrets P ctx h n rs) T) (σ v.1) q = .ok (v.2, outs)

theorem modified_eq {K : Spec.Task Meas Agg} (I : Spec.CustomInstance P K) (hvk : vk.length = 32)
    (hctx : ctx.length + 8 < 2 ^ 16) {N : ℕ} (hh : h < P.shares) (hN : 32 ≤ N)
    (hN' : fuel * PyField.encSize F ≤ N) (hf : FreshCoins P h n rs) {m0 m1 : ℕ → Meas}
    (hm0 : ∀ k < n, K.valid (m0 k)) (hm1 : ∀ k < n, K.valid (m1 k)) {S : Set Bytes} (hS : S.Finite)
    (hD : batchSecrets P ctx h n rs ⊆ S) {E : Set (List (Transcript F) × List (QueryReply F))}
    (htot : ∀ v ∈ E, ∀ B ∈ batchesBy (σ v.1) v.2, (∀ k ∈ B, k < n) →
      ∃ tot, TotalOf P.flp (B.map m0) tot ∧ TotalOf P.flp (B.map m1) tot) :
    {T ∈ oracles prims S N | Modified P vk ctx h n m0 rs σ q E T}.ncard =
      {T ∈ oracles prims S N | Modified P vk ctx h n m1 rs σ q E T}.ncard := by
  refine ncard_classes hS hD fun c hc => ?_
  set D := batchSecrets P ctx h n rs with hDdef
  let σ' : Spec.Strategy F := fun views => silent (maskAt D c) (σ views)
  let E' : Set (List (Transcript F) × List (Reply F)) := {v | (v.1, fullReplies (maskAt D c) (σ v.1) v.2) ∈ E}
  have hzero : Spec.aggregate P.vdaf () [] = .ok (tab P.flp.outputLen fun j => colsum [] j) := by
    rw [aggregate_eq, if_pos (by simp)]
  have hset : ∀ m : ℕ → Meas, (∀ k < n, K.valid (m k)) →
      {T ∈ oracles (withOracle prims c) D N | Modified P vk ctx h n m rs σ q E T} =
      {T ∈ oracles (withOracle prims c) D N | ∃ v ∈ E', attackView (runWith (runWith P c) T) vk ctx h n m rs σ' q = .ok v} := by
    intro m hm
    obtain ⟨a, b, x1, x2, -⟩ := encodings I n hm
    ext T
    simp only [Set.mem_ofPred_eq]
    refine and_congr_right fun hT => ?_
    have hmask : maskAt D T = maskAt D c := by
      funext x
      unfold maskAt
      split
      · rfl
      · next hx =>
        funext i
        exact not_not.1 fun hne => hx (hT x i hne).1
    have hsees : ∀ vs os, Sees True (runWith P c) vk ctx h n m rs vs os T ↔ Sees True P vk ctx h n m rs vs os T := by
      intro vs os
      unfold Sees
      simp only [transcript_runWith]
    have hagg : Spec.aggregate (runWith P c).vdaf () = Spec.aggregate P.vdaf () :=
      funext fun outs => aggregate_runWith c outs
    have hok := fun v => attackView_ok (P := runWith P c) (T := T) (rs := rs) (vk := vk) (σ := σ') (q := q) (v := v)
      ((I.wf).runWith c) hctx hh x1 x2
    simp only [hok, hsees, hagg]
    constructor
    · rintro ⟨⟨v1, v2⟩, hv, os, vs, h1, rfl, outs, h3⟩
      rw [← hDdef, hmask, playQ_silent hzero] at h3
      obtain ⟨⟨R, outs'⟩, h4, h5⟩ := Except.bind_eq_ok.1 h3
      obtain ⟨h5, -⟩ := Prod.mk.inj (Except.ok.inj h5)
      exact ⟨(tab n vs, R), by show (_, _) ∈ E; rw [h5]; exact hv, os, vs, h1, rfl, outs', h4⟩
    · rintro ⟨⟨v1, v2⟩, hv, os, vs, h1, rfl, outs, h3⟩
      refine ⟨_, hv, os, vs, h1, rfl, outs, ?_⟩
      rw [← hDdef, hmask, playQ_silent hzero]
      rw [show playR _ _ (silent (maskAt D c) (σ (tab n vs))) q = _ from h3]
      rfl
  rw [hset m0 hm0, hset m1 hm1]
  refine ncard_outcomes (oracles_finite (hS.subset hD) N) fun v hv => ?_
  refine C65_privacy_custom (P := runWith P c) (custom_runWith I c) hvk hctx hh hN hN' hf hm0 hm1 σ' q v
    fun B hB hBn => ?_
  rcases batchesIn_silent _ hB with rfl | hB
  · refine ⟨tab P.flp.outputLen fun _ => 0, ?_⟩
    have : TotalOf P.flp [] (tab P.flp.outputLen fun _ => 0) := by
      refine ⟨[], rfl, isSum_iff.2 ⟨fun i => i.elim0, fun j => ?_⟩, tab_length _ _⟩
      simp [coef_tab]
    exact ⟨this, this⟩
  · exact htot _ hv B hB hBn

end Prio3
end Vdaf
