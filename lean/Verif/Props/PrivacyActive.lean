import Verif.Proofs.PrivacyActive
import Verif.Props.Privacy

/-!
# C65: privacy of Prio3 against Aggregators that do not follow the protocol

As in C59, all the Aggregators but one, `h`, pool what they know.  In addition they may send `h` arbitrary verifier
messages, so that it rejects the reports they do not want, and may have it aggregate any batches they like, in any
order; each of their decisions may depend on all that they have seen.  What they learn about the measurements is
nothing but the aggregate results of these batches.
-/

namespace Vdaf
open Spec
variable {F : Type} [NttField F] {Meas Agg : Type} {prims : Prims} {fuel : ℕ}

/-- C65 for the circuits supplied by users: a view `v` of the coalition has the same probability for two choices of
the measurements, provided that the truncated encodings have the same sums for each batch whose aggregate share the
coalition got. -/
theorem C65_privacy_custom {P : Prio3 (XofTurboShake128 prims fuel) F Meas Agg} {T : Spec.Task Meas Agg}
    (I : Spec.CustomInstance P T) {verifyKey ctx : Bytes} (hkey : verifyKey.length = 32)
    (hctx : ctx.length + 8 < 2 ^ 16) {h n N : ℕ} (hh : h < P.shares) (hN : 32 ≤ N)
    (hN' : fuel * PyField.encSize F ≤ N) {coins : ℕ → Coins} (hf : FreshCoins P h n coins) {m0 m1 : ℕ → Meas}
    (hm0 : ∀ k < n, T.valid (m0 k)) (hm1 : ∀ k < n, T.valid (m1 k)) (σ : Strategy F) (q : ℕ)
    (v : List (Transcript F) × List (Reply F))
    (htot : ∀ B ∈ batchesIn (σ v.1) v.2, (∀ k ∈ B, k < n) →
      ∃ tot, TotalOf P.flp (B.map m0) tot ∧ TotalOf P.flp (B.map m1) tot) :
    {O ∈ oracles prims (batchSecrets P ctx h n coins) N |
      attackView (runWith P O) verifyKey ctx h n m0 coins σ q = .ok v}.ncard =
    {O ∈ oracles prims (batchSecrets P ctx h n coins) N |
      attackView (runWith P O) verifyKey ctx h n m1 coins σ q = .ok v}.ncard := by
  have key : ∀ {m0 m1 : ℕ → Meas}, (∀ k < n, T.valid (m0 k)) → (∀ k < n, T.valid (m1 k)) →
      (∀ B ∈ batchesIn (σ v.1) v.2, (∀ k ∈ B, k < n) →
        ∃ tot, TotalOf P.flp (B.map m0) tot ∧ TotalOf P.flp (B.map m1) tot) →
      {O ∈ oracles prims (batchSecrets P ctx h n coins) N |
        attackView (runWith P O) verifyKey ctx h n m0 coins σ q = .ok v}.ncard ≤
      {O ∈ oracles prims (batchSecrets P ctx h n coins) N |
        attackView (runWith P O) verifyKey ctx h n m1 coins σ q = .ok v}.ncard := by
    intro m0 m1 hm0 hm1 htot
    obtain ⟨a0, b0, x1, x2, x3, x4⟩ := Prio3.encodings I n hm0
    obtain ⟨a1, b1, y1, y2, y3, y4⟩ := Prio3.encodings I n hm1
    have htr : ∀ v : List F, v.length = P.flp.measLen → ∃ o, P.flp.truncate v = .ok o ∧ o.length = P.flp.outputLen := by
      intro v hv
      obtain ⟨-, o, k1, -, -, k2⟩ := I.computes.truncate 1 (fun _ => v) v (isSum_iff.2 ⟨fun _ => rfl, by simp⟩) hv
      exact ⟨o, k1, k2⟩
    have hlen : ∀ {a b : ℕ → List F}, (∀ k < n, (a k).length = P.flp.measLen) →
        (∀ k < n, P.flp.truncate (a k) = .ok (b k)) → ∀ k < n, (b k).length = P.flp.outputLen := by
      intro a b e1 e2 k hk
      obtain ⟨o, k1, k2⟩ := htr _ (e1 k hk)
      rwa [Except.ok.inj ((e2 k hk).symm.trans k1)]
    have hb0 := hlen x2 x3
    have hb1 := hlen y2 y3
    have tot_coef : ∀ {m : ℕ → Meas} {a b : ℕ → List F}, (∀ k < n, P.flp.encode (m k) = .ok (a k)) →
        (∀ k < n, P.flp.truncate (a k) = .ok (b k)) → ∀ {B : List ℕ}, (∀ k ∈ B, k < n) → ∀ {tot},
        TotalOf P.flp (B.map m) tot → ∀ j, coef tot j = colsum (B.map b) j := by
      rintro m a b e1 e2 B hB tot ⟨os, z1, z2, -⟩ j
      have hos : os = B.map b := by
        refine Except.ok.inj (z1.symm.trans ?_)
        rw [mapRes_ok_iff, List.forall₂_map_left_iff, List.forall₂_map_right_iff, List.forall₂_same]
        intro k hk
        rw [e1 k (hB k hk)]
        exact e2 k (hB k hk)
      subst hos
      rw [(isSum_iff.1 z2).2]
      unfold colsum
      rw [← List.sum_ofFn]
      congr 1
      apply List.ext_getElem <;> simp
    by_cases hv : ∃ vs : ℕ → Transcript F, v.1 = tab n vs
    swap
    · have : {O ∈ oracles prims (batchSecrets P ctx h n coins) N |
          attackView (runWith P O) verifyKey ctx h n m0 coins σ q = .ok v} = ∅ := by
        ext O
        simp only [Set.mem_ofPred_eq, Set.mem_empty_iff_false, iff_false, not_and]
        rintro - hO
        obtain ⟨os, vs, -, h2, -⟩ := (Prio3.attackView_ok I.wf hctx hh x1 x2).1 hO
        exact hv ⟨vs, h2⟩
      rw [this]
      simp
    obtain ⟨vs, hvs⟩ := hv
    have hset : ∀ {m : ℕ → Meas} {a : ℕ → List F}, (∀ k < n, P.flp.encode (m k) = .ok (a k)) →
        (∀ k < n, (a k).length = P.flp.measLen) →
        {O ∈ oracles prims (batchSecrets P ctx h n coins) N |
          attackView (runWith P O) verifyKey ctx h n m coins σ q = .ok v} =
        {O ∈ oracles prims (batchSecrets P ctx h n coins) N |
          ∃ os, Prio3.Sees True P verifyKey ctx h n m coins vs os O ∧
            ∃ outs, playR (Spec.aggregate P.vdaf ()) (reactTo n (fun k => (vs k).message) os) (σ v.1) q =
              .ok (v.2, outs)} := by
      intro m a e1 e2
      ext O
      simp only [Set.mem_ofPred_eq]
      refine and_congr_right fun _ => ?_
      rw [Prio3.attackView_ok I.wf hctx hh e1 e2]
      constructor
      · rintro ⟨os, vs', h1, h2, outs, h3⟩
        have hvv : ∀ k < n, vs' k = vs k := fun k hk => by
          have := congrArg (fun l => l[k]?) (h2.symm.trans hvs)
          simp only [tab_getElem? hk] at this
          exact Option.some.inj this
        refine ⟨os, fun k hk => ?_, outs, ?_⟩
        · obtain ⟨t, k1, k2, k3⟩ := h1 k hk
          exact ⟨t, k1, k2.trans (hvv k hk), k3⟩
        · rw [← h3]
          congr 1
          funext k m
          unfold reactTo
          by_cases hk : k < n
          · simp only [hvv k hk]
          · simp [hk]
      · rintro ⟨os, h1, h3⟩
        exact ⟨os, vs, h1, hvs, h3⟩
    rw [hset x1 x2, hset y1 y2]
    refine Prio3.sees_le (chk := True) I.wf hctx hf hh hkey hN hN' x1 y1 x2 y2 x4 y4 (fun v hv => ?_) (fun k hk u o hu ho =>
      Prio3.truncate_shift I hu (x2 k hk) (y2 k hk) ho (x3 k hk) (y3 k hk)) vs fun os hos => ?_
    · obtain ⟨o, k1, -⟩ := htr v hv
      exact ⟨o, k1⟩
    · obtain ⟨outs, hos⟩ := hos
      refine playR_congr hos fun B hB hBn a ha => ?_
      obtain ⟨tot, t0, t1⟩ := htot B hB hBn
      rw [Prio3.aggregate_eq] at ha ⊢
      have hl : ∀ k ∈ B, (os k).length = P.flp.outputLen := by
        intro k hk
        by_contra hc
        rw [if_neg fun hall => hc (hall _ (List.mem_map.2 ⟨k, hk, rfl⟩))] at ha
        cases ha
      rw [if_pos (by
        intro w hw
        obtain ⟨k, hk, rfl⟩ := List.mem_map.1 hw
        exact hl k hk)] at ha
      rw [if_pos (by
        intro w hw
        obtain ⟨k, hk, rfl⟩ := List.mem_map.1 hw
        simp only [if_pos (hBn k hk), shift_length]
        exact hl k hk), ← ha]
      congr 1
      refine tab_congr fun j _ => ?_
      have hs : colsum (B.map fun k => if k < n then shift (os k) (b0 k) (b1 k) else os k) j =
          colsum (B.map os) j + (colsum (B.map b1) j - colsum (B.map b0) j) := by
        clear t0 t1 ha hB htot
        induction B with
        | nil => simp [colsum]
        | cons k B ih =>
          have hk := hBn k (by simp)
          have := ih (fun k hk => hBn k (by simp [hk])) (fun k hk => hl k (by simp [hk]))
          simp only [colsum, List.map_cons, List.sum_cons] at this ⊢
          rw [this, if_pos hk, coef_shift ((hb0 k hk).trans (hl k (by simp)).symm) ((hb1 k hk).trans (hl k (by simp)).symm)]
          ring
      rw [hs, ← tot_coef x1 x3 hBn t0, ← tot_coef y1 y3 hBn t1]
      ring
  refine le_antisymm (key hm0 hm1 htot) (key hm1 hm0 fun B hB hBn => ?_)
  obtain ⟨tot, h0, h1⟩ := htot B hB hBn
  exact ⟨tot, h1, h0⟩

/-- The truncated encodings have the same sums if the aggregate results agree. -/
theorem totals_agree {P : Prio3 (XofTurboShake128 prims fuel) F Meas Agg} {fn : Spec.Fun Meas Agg}
    (I : Spec.Instance P fn) {n : ℕ} {m0 m1 : ℕ → Meas} (hm0 : ∀ k < n, fn.valid (m0 k))
    (hm1 : ∀ k < n, fn.valid (m1 k)) {B : List ℕ} (hBn : ∀ k ∈ B, k < n)
    (hagg : fn.agg (B.map m0) = fn.agg (B.map m1)) :
    ∃ tot, TotalOf P.flp (B.map m0) tot ∧ TotalOf P.flp (B.map m1) tot := by
  obtain ⟨ints, of, h1, -, h2, h3⟩ := (Library.encFacts I.library).enc
  have htot : ∀ m : ℕ → Meas, (∀ k < n, fn.valid (m k)) → TotalOf P.flp (B.map m)
      (tab P.flp.outputLen fun j => ((((B.map m).map fun m => ints m j).sum : ℕ) : F)) := by
    intro m hm
    choose! e he using h1
    refine ⟨B.map fun k => tab P.flp.outputLen fun j => (ints (m k) j : F), ?_, ?_, by simp⟩
    · rw [mapRes_ok_iff, List.forall₂_map_left_iff, List.forall₂_map_right_iff, List.forall₂_same]
      intro k hk
      obtain ⟨k1, -, k2⟩ := he _ (hm k (hBn k hk))
      rw [k1]
      exact k2
    rw [isSum_iff]
    refine ⟨fun i => by simp, fun j => ?_⟩
    simp only [coef_tab]
    rw [← List.sum_ofFn]
    split
    · next hj =>
      rw [Nat.cast_list_sum]
      congr 1
      apply List.ext_getElem <;> simp [coef_tab, hj]
    · next hj =>
      symm
      apply List.sum_eq_zero
      simp [coef_tab, hj]
  have hsame : ∀ j < P.flp.outputLen, ((B.map m0).map fun m => ints m j).sum = ((B.map m1).map fun m => ints m j).sum := by
    have hv : ∀ {m : ℕ → Meas}, (∀ k < n, fn.valid (m k)) → ∀ x ∈ B.map m, fn.valid x := by
      intro m hm x hx
      obtain ⟨k, hk, rfl⟩ := List.mem_map.1 hx
      exact hm k (hBn k hk)
    rw [h3 _ (hv hm0), h3 _ (hv hm1)] at hagg
    have := congrArg fn.totals hagg
    rw [h2 _ (by simp), h2 _ (by simp)] at this
    intro j hj
    have := congrArg (fun l => l[j]?) this
    simpa only [tab_getElem? hj, Option.some.injEq] using this
  have h0 := htot m0 hm0
  rw [tab_congr fun j hj => by rw [hsame j hj]] at h0
  exact ⟨_, h0, htot m1 hm1⟩

/-- C65: a view `v` of the coalition has the same probability for two choices of valid measurements, provided that the
aggregate results agree for each batch whose aggregate share the coalition got. -/
theorem C65_privacy {P : Prio3 (XofTurboShake128 prims fuel) F Meas Agg} {fn : Spec.Fun Meas Agg}
    (I : Spec.Instance P fn) {verifyKey ctx : Bytes} (hkey : verifyKey.length = 32)
    (hctx : ctx.length + 8 < 2 ^ 16) {h n N : ℕ} (hh : h < P.shares) (hN : 32 ≤ N)
    (hN' : fuel * PyField.encSize F ≤ N) {coins : ℕ → Coins} (hf : FreshCoins P h n coins) {m0 m1 : ℕ → Meas}
    (hm0 : ∀ k < n, fn.valid (m0 k)) (hm1 : ∀ k < n, fn.valid (m1 k)) (σ : Strategy F) (q : ℕ)
    (v : List (Transcript F) × List (Reply F))
    (hagg : ∀ B ∈ batchesIn (σ v.1) v.2, (∀ k ∈ B, k < n) → fn.agg (B.map m0) = fn.agg (B.map m1)) :
    (oracles prims (batchSecrets P ctx h n coins) N).Finite ∧
    {O ∈ oracles prims (batchSecrets P ctx h n coins) N |
        attackView (runWith P O) verifyKey ctx h n m0 coins σ q = .ok v}.ncard =
      {O ∈ oracles prims (batchSecrets P ctx h n coins) N |
        attackView (runWith P O) verifyKey ctx h n m1 coins σ q = .ok v}.ncard := by
  refine ⟨oracles_finite (prims := prims)
    (Prio3.batchSecrets_finite (P := P) (ctx := ctx) (h := h) (n := n) (rs := coins)) N,
    C65_privacy_custom I.custom hkey hctx hh hN hN' hf hm0 hm1 σ q v fun B hB hBn => totals_agree I hm0 hm1 hBn (hagg B hB hBn)⟩

/-- C65: the honest Aggregator never fails: whatever the coalition does, it gets as many replies as it makes moves, if
only the reports were verified. -/
theorem C65_total {P : Prio3 (XofTurboShake128 prims fuel) F Meas Agg} {fn : Spec.Fun Meas Agg}
    (I : Spec.Instance P fn) {verifyKey ctx : Bytes} (hctx : ctx.length + 8 < 2 ^ 16) {h n : ℕ} (hh : h < P.shares)
    {coins : ℕ → Coins} {m : ℕ → Meas} (hm : ∀ k < n, fn.valid (m k)) (O : Bytes → ℕ → UInt8) (σ : Strategy F) (q : ℕ)
    (views : List (Transcript F)) :
    (∃ replies, attackView (runWith P O) verifyKey ctx h n m coins σ q = .ok (views, replies) ∧
        replies.length = q) ↔
      reportViews (runWith P O) verifyKey ctx h n m coins = .ok views := by
  obtain ⟨a, b, x1, x2, x3, x4⟩ := Prio3.encodings I.custom n hm
  unfold attackView reportViews
  cases hts : mapRes (fun k => transcript (runWith P O) verifyKey ctx (m k) (coins k).nonce (coins k).rand)
      (List.range n) with
  | error e => simp [Except.error_bind']
  | ok ts =>
    simp only [Except.ok_bind']
    have : Inhabited (Transcript F) := ⟨⟨none, [], [], [], none⟩⟩
    obtain ⟨t, rfl, ht⟩ := mapRes_range_ok hts
    have hst : ∀ k, ∃ o, k < n → (t k).states[h]? = some (o, (t k).message) ∧ o.length = P.flp.outputLen := by
      intro k
      by_cases hk : k < n
      · obtain ⟨ms, _, _, _, _, _, _, os, _, seed, _, W0⟩ :=
          Prio3.world_of (I.custom.wf.runWith O) hctx (x1 k hk) (x2 k hk) (ht k hk)
        refine ⟨os h, fun _ => ⟨?_, ?_⟩⟩
        · rw [W0.states, ← W0.seed_eq]
          exact tab_getElem? hh
        · have hmsl : (ms h).length = P.flp.measLen := (W0.S.measSum.1 ⟨h, hh⟩).trans (x2 k hk)
          obtain ⟨-, o, k1, -, -, k2⟩ := I.custom.computes.truncate 1 (fun _ => ms h) (ms h)
            (isSum_iff.2 ⟨fun _ => rfl, by simp⟩) hmsl
          rw [Except.ok.inj ((W0.osOk h hh).symm.trans k1), k2]
      · exact ⟨[], fun hc => absurd hc hk⟩
    choose os hos using hst
    obtain ⟨rs, outs, hp⟩ := playR_total (agg := Spec.aggregate (runWith P O).vdaf ()) (n := n)
      (msg := fun k => (t k).message) (os := os) (fun B hB => by
        rw [Prio3.aggregate_eq, if_pos (by
          intro w hw
          obtain ⟨k, hk, rfl⟩ := List.mem_map.1 hw
          exact (hos k (hB k hk)).2)]
        exact ⟨_, rfl⟩) (σ ((tab n t).map (Transcript.view h))) q
    rw [play_eq, Prio3.react_eq fun k hk => (hos k hk).1, hp]
    simp only [Except.ok_bind', Except.pure_eq', Except.ok.injEq, Prod.mk.injEq]
    constructor
    · rintro ⟨_, ⟨h1, -⟩, -⟩; exact h1
    · intro h1; exact ⟨rs, ⟨h1, rfl⟩, playR_length hp⟩

/-! ## A concrete case

The instance of `Prio3Histogram` in `Props/Privacy.lean`.  The coalition makes the honest Aggregator reject report 0 and
accept report 1, then it has both of them aggregated. -/

/-- The strategy. -/
def attackExample : Strategy Field128 := fun views replies =>
  match replies with
  | [] => .send 0 none
  | [_] => .send 1 ((views[1]?).bind Transcript.message)
  | _ => .collect [0, 1]

/-- What the coalition sees, for a given oracle. -/
def attackRun (m : ℕ → Int) : Res (List (Transcript Field128) × List (Reply Field128)) :=
  attackView (runWith privacyExample fun m i => toyPrims.turboShake m 1 i) (List.replicate 32 1) [1] 1 2 m privacyCoins
    attackExample 3

/-- The only batch consists of report 1. -/
theorem attackRun_batches : ∃ v, attackRun (fun k => (k : Int)) = .ok v ∧ batchesIn (attackExample v.1) v.2 = [[1]] := by
  have h : (match attackRun (fun k => (k : Int)) with
    | .ok v => batchesIn (attackExample v.1) v.2 == [[1]]
    | .error _ => false) = true := by decide +kernel
  split at h
  · next v hv => exact ⟨v, hv, eq_of_beq h⟩
  · cases h

-- the measurements `0, 1` and `1, 1` have different aggregates, but they agree on the batch: the view has the same
-- probability for both
example : ∃ v, attackRun (fun k => (k : Int)) = .ok v ∧
    (Spec.histogramFun 2).agg ((List.range 2).map fun k => (k : Int)) ≠
      (Spec.histogramFun 2).agg ((List.range 2).map fun _ => 1) ∧
    {O ∈ oracles toyPrims (batchSecrets privacyExample [1] 1 2 privacyCoins) 640 |
        attackView (runWith privacyExample O) (List.replicate 32 1) [1] 1 2 (fun k => (k : Int)) privacyCoins
          attackExample 3 = .ok v}.ncard =
      {O ∈ oracles toyPrims (batchSecrets privacyExample [1] 1 2 privacyCoins) 640 |
        attackView (runWith privacyExample O) (List.replicate 32 1) [1] 1 2 (fun _ => 1) privacyCoins
          attackExample 3 = .ok v}.ncard := by
  obtain ⟨v, hv, hb⟩ := attackRun_batches
  refine ⟨v, hv, by decide, (C65_privacy privacyExample_instance (by decide) (by decide) (by decide) (by decide)
    (by decide) privacyCoins_fresh (m0 := fun k => (k : Int)) (m1 := fun _ => 1) ?_ ?_ attackExample 3 v ?_).2⟩
  · intro k hk; interval_cases k <;> simp [Spec.histogramFun]
  · intro k hk; simp [Spec.histogramFun]
  · intro B hB _
    rw [hb, List.mem_singleton] at hB
    subst hB
    rfl

end Vdaf
