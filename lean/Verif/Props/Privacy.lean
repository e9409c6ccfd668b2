import Verif.Proofs.PrivacyMain
import Verif.Props.Xof
import Verif.Props.Custom

/-!
# C59: privacy of Prio3

All the Aggregators but one, `h`, may pool what they know: their input shares, their states, the public share, all the
verifier shares, the verifier message, and the aggregate share of `h`.  The output of TurboSHAKE128 at the inputs that
contain a seed known only to the Client and to `h` is random (`Spec.batchSecrets`); everywhere else it is an arbitrary
fixed function.  Then the distribution of what they see depends on nothing but the aggregate result.
-/

namespace Vdaf
open Spec
variable {F : Type} [NttField F] {Meas Agg : Type} {prims : Prims} {fuel : ℕ}

/-- C59 for the circuits supplied by users: if the truncated encodings of two batches of valid measurements have the
same sum, then the coalition's view has the same distribution for both. -/
theorem C59_privacy_custom {P : Prio3 (XofTurboShake128 prims fuel) F Meas Agg} {T : Spec.Task Meas Agg}
    (I : Spec.CustomInstance P T) {verifyKey ctx : Bytes} (hkey : verifyKey.length = 32)
    (hctx : ctx.length + 8 < 2 ^ 16) {h n N : ℕ} (hh : h < P.shares) (hN : 32 ≤ N)
    (hN' : fuel * PyField.encSize F ≤ N) {coins : ℕ → Coins} (hf : FreshCoins P h n coins) {m0 m1 : ℕ → Meas}
    (hm0 : ∀ k < n, T.valid (m0 k)) (hm1 : ∀ k < n, T.valid (m1 k)) {tot : List F}
    (ht0 : TotalIs P.flp n m0 tot) (ht1 : TotalIs P.flp n m1 tot) (v : List (Transcript F) × List F) :
    {O ∈ oracles prims (batchSecrets P ctx h n coins) N |
      batchView (runWith P O) verifyKey ctx h n m0 coins = .ok v}.ncard =
    {O ∈ oracles prims (batchSecrets P ctx h n coins) N |
      batchView (runWith P O) verifyKey ctx h n m1 coins = .ok v}.ncard := by
  have key : ∀ {m0 m1 : ℕ → Meas}, (∀ k < n, T.valid (m0 k)) → (∀ k < n, T.valid (m1 k)) →
      TotalIs P.flp n m0 tot → TotalIs P.flp n m1 tot →
      {O ∈ oracles prims (batchSecrets P ctx h n coins) N |
        batchView (runWith P O) verifyKey ctx h n m0 coins = .ok v}.ncard ≤
      {O ∈ oracles prims (batchSecrets P ctx h n coins) N |
        batchView (runWith P O) verifyKey ctx h n m1 coins = .ok v}.ncard := by
    intro m0 m1 hm0 hm1 ht0 ht1
    obtain ⟨a0, b0, x1, x2, x3, x4⟩ := Prio3.encodings I n hm0
    obtain ⟨a1, b1, y1, y2, y3, y4⟩ := Prio3.encodings I n hm1
    have htr : ∀ v : List F, v.length = P.flp.measLen → ∃ o, P.flp.truncate v = .ok o ∧ o.length = P.flp.outputLen := by
      intro v hv
      obtain ⟨-, o, k1, -, -, k2⟩ := I.computes.truncate 1 (fun _ => v) v (isSum_iff.2 ⟨fun _ => rfl, by simp⟩) hv
      exact ⟨o, k1, k2⟩
    have tot_coef : ∀ {m : ℕ → Meas} {a b : ℕ → List F}, (∀ k < n, P.flp.encode (m k) = .ok (a k)) →
        (∀ k < n, P.flp.truncate (a k) = .ok (b k)) → TotalIs P.flp n m tot →
        ∀ j, coef tot j = ∑ k : Fin n, coef (b k) j := by
      rintro m a b e1 e2 ⟨es, os, z1, z2, z3, -⟩ j
      rw [(isSum_iff.1 z3).2]
      refine Finset.sum_congr rfl fun k _ => ?_
      have h1 : es k = a k := Except.ok.inj ((z1 k).symm.trans (e1 k k.2))
      have h2 := z2 k
      rw [h1, e2 k k.2] at h2
      rw [Except.ok.inj h2]
    have hb0 : ∀ k < n, (b0 k).length = P.flp.outputLen := fun k hk => by
      obtain ⟨o, k1, k2⟩ := htr _ (x2 k hk)
      rwa [Except.ok.inj ((x3 k hk).symm.trans k1)]
    have hb1 : ∀ k < n, (b1 k).length = P.flp.outputLen := fun k hk => by
      obtain ⟨o, k1, k2⟩ := htr _ (y2 k hk)
      rwa [Except.ok.inj ((y3 k hk).symm.trans k1)]
    rcases Nat.eq_zero_or_pos n with rfl | hn
    · refine le_of_eq ?_
      congr 1
    by_cases hv : ∃ vs : ℕ → Transcript F, v.1 = tab n vs
    swap
    · have : {O ∈ oracles prims (batchSecrets P ctx h n coins) N |
          batchView (runWith P O) verifyKey ctx h n m0 coins = .ok v} = ∅ := by
        ext O
        simp only [Set.mem_setOf_eq, Set.mem_empty_iff_false, iff_false, not_and]
        rintro - hO
        obtain ⟨os, vs, -, h2, -⟩ := Prio3.batchView_ok.1 hO
        exact hv ⟨vs, h2⟩
      rw [this]
      simp
    obtain ⟨vs, hvs⟩ := hv
    have hset : ∀ m : ℕ → Meas, {O ∈ oracles prims (batchSecrets P ctx h n coins) N |
        batchView (runWith P O) verifyKey ctx h n m coins = .ok v} =
        {O ∈ oracles prims (batchSecrets P ctx h n coins) N | ∃ os, Prio3.Sees True P verifyKey ctx h n m coins vs os O ∧
          Spec.aggregate P.vdaf () (tab n os) = .ok v.2} := by
      intro m
      ext O
      simp only [Set.mem_setOf_eq]
      refine and_congr_right fun _ => ?_
      rw [Prio3.batchView_ok]
      constructor
      · rintro ⟨os, vs', h1, h2, h3⟩
        refine ⟨os, fun k hk => ?_, h3⟩
        obtain ⟨t, k1, k2, k3⟩ := h1 k hk
        refine ⟨t, k1, k2.trans ?_, k3⟩
        have := congrArg (fun l => l[k]?) (hvs.symm.trans h2)
        simp only [tab_getElem? hk] at this
        exact (Option.some.inj this).symm
      · rintro ⟨os, h1, h3⟩
        exact ⟨os, vs, h1, hvs, h3⟩
    rw [hset, hset]
    refine Prio3.sees_le (chk := True) I.wf hctx hf hh hkey hN hN' x1 y1 x2 y2 x4 y4 (fun v hv => ?_) (fun k hk u o hu ho =>
      Prio3.truncate_shift I hu (x2 k hk) (y2 k hk) ho (x3 k hk) (y3 k hk)) vs fun os hos => ?_
    · obtain ⟨o, k1, -⟩ := htr v hv
      exact ⟨o, k1⟩
    · rw [Prio3.aggregate_eq] at hos ⊢
      have hl : ∀ k < n, (os k).length = P.flp.outputLen := by
        intro k hk
        by_contra hc
        rw [if_neg fun hall => hc (hall _ (List.mem_map.2 ⟨k, List.mem_range.2 hk, rfl⟩))] at hos
        cases hos
      rw [if_pos (by
        intro w hw
        obtain ⟨k, hk, rfl⟩ := List.mem_map.1 hw
        exact hl k (List.mem_range.1 hk))] at hos
      rw [if_pos (by
        intro w hw
        obtain ⟨k, hk, rfl⟩ := List.mem_map.1 hw
        have hk := List.mem_range.1 hk
        simp only [if_pos hk, shift_length]
        exact hl k hk), ← hos]
      congr 1
      refine tab_congr fun j _ => ?_
      have hc : ∀ f : ℕ → List F, colsum (tab n f) j = ∑ k : Fin n, coef (f k) j := by
        intro f
        unfold colsum tab
        rw [List.map_map, Fin.sum_univ_eq_sum_range fun k => coef (f k) j]
        exact list_sum_range _ _
      rw [hc, hc]
      have : ∑ k : Fin n, coef (if k < n then shift (os k) (b0 k) (b1 k) else os k) j =
          ∑ k : Fin n, (coef (os k) j + (coef (b1 k) j - coef (b0 k) j)) := by
        refine Finset.sum_congr rfl fun k _ => ?_
        rw [if_pos k.2, coef_shift ((hb0 k k.2).trans (hl k k.2).symm) ((hb1 k k.2).trans (hl k k.2).symm)]
      rw [this, Finset.sum_add_distrib, Finset.sum_sub_distrib, ← tot_coef x1 x3 ht0, ← tot_coef y1 y3 ht1]
      ring
  exact le_antisymm (key hm0 hm1 ht0 ht1) (key hm1 hm0 ht1 ht0)

/-- C59 for the circuits supplied by users, without aggregation: the coalition's view of the verification of reports
has the same distribution for any valid measurements. -/
theorem C59_privacy_reports_custom {P : Prio3 (XofTurboShake128 prims fuel) F Meas Agg} {T : Spec.Task Meas Agg}
    (I : Spec.CustomInstance P T) {verifyKey ctx : Bytes} (hkey : verifyKey.length = 32)
    (hctx : ctx.length + 8 < 2 ^ 16) {h n N : ℕ} (hh : h < P.shares) (hN : 32 ≤ N)
    (hN' : fuel * PyField.encSize F ≤ N) {coins : ℕ → Coins} (hf : FreshCoins P h n coins) {m0 m1 : ℕ → Meas}
    (hm0 : ∀ k < n, T.valid (m0 k)) (hm1 : ∀ k < n, T.valid (m1 k)) (v : List (Transcript F)) :
    {O ∈ oracles prims (batchSecrets P ctx h n coins) N |
      reportViews (runWith P O) verifyKey ctx h n m0 coins = .ok v}.ncard =
    {O ∈ oracles prims (batchSecrets P ctx h n coins) N |
      reportViews (runWith P O) verifyKey ctx h n m1 coins = .ok v}.ncard := by
  have key : ∀ {m0 m1 : ℕ → Meas}, (∀ k < n, T.valid (m0 k)) → (∀ k < n, T.valid (m1 k)) →
      {O ∈ oracles prims (batchSecrets P ctx h n coins) N |
        reportViews (runWith P O) verifyKey ctx h n m0 coins = .ok v}.ncard ≤
      {O ∈ oracles prims (batchSecrets P ctx h n coins) N |
        reportViews (runWith P O) verifyKey ctx h n m1 coins = .ok v}.ncard := by
    intro m0 m1 hm0 hm1
    obtain ⟨a0, b0, x1, x2, x3, x4⟩ := Prio3.encodings I n hm0
    obtain ⟨a1, b1, y1, y2, y3, y4⟩ := Prio3.encodings I n hm1
    by_cases hv : v.length = n
    swap
    · have : {O ∈ oracles prims (batchSecrets P ctx h n coins) N |
          reportViews (runWith P O) verifyKey ctx h n m0 coins = .ok v} = ∅ := by
        ext O
        simp only [Set.mem_setOf_eq, Set.mem_empty_iff_false, iff_false, not_and]
        rintro - hO
        exact hv (Prio3.reportViews_ok.1 hO).1
      rw [this]
      simp
    set vs : ℕ → Transcript F := fun k => v.getD k ⟨none, [], [], [], none⟩ with hvs
    have hv' : ∀ k < n, v[k]? = some (vs k) := fun k hk => by simp [hvs, hv, hk]
    have hset : ∀ {m : ℕ → Meas} {a : ℕ → List F}, (∀ k < n, P.flp.encode (m k) = .ok (a k)) →
        (∀ k < n, (a k).length = P.flp.measLen) →
        {O ∈ oracles prims (batchSecrets P ctx h n coins) N |
          reportViews (runWith P O) verifyKey ctx h n m coins = .ok v} =
        {O ∈ oracles prims (batchSecrets P ctx h n coins) N |
          ∃ os, Prio3.Sees False P verifyKey ctx h n m coins vs os O ∧ True} := by
      intro m a e1 e2
      ext O
      simp only [Set.mem_setOf_eq]
      refine and_congr_right fun _ => ?_
      rw [Prio3.reportViews_ok]
      constructor
      · rintro ⟨-, h1⟩
        have : ∀ k, ∃ o, k < n → ∃ t, transcript (runWith P O) verifyKey ctx (m k) (coins k).nonce (coins k).rand = .ok t ∧
            t.view h = vs k ∧ ∃ seed, t.states[h]? = some (o, seed) ∧ (False → seed = t.message) := fun k => by
          by_cases hk : k < n
          · obtain ⟨t, k1, k2⟩ := h1 k hk
            obtain ⟨_, _, _, _, _, _, _, os, _, seed, _, W0⟩ :=
              Prio3.world_of (I.wf.runWith O) hctx (e1 k hk) (e2 k hk) k1
            refine ⟨os h, fun _ => ⟨t, k1, ?_, seed, ?_, False.elim⟩⟩
            · exact Option.some.inj (k2.symm.trans (hv' k hk))
            · rw [W0.states]
              exact tab_getElem? hh
          · exact ⟨[], fun hc => absurd hc hk⟩
        choose os hos using this
        exact ⟨os, fun k hk => hos k hk, trivial⟩
      · rintro ⟨os, h1, -⟩
        refine ⟨hv, fun k hk => ?_⟩
        obtain ⟨t, k1, k2, -⟩ := h1 k hk
        exact ⟨t, k1, k2 ▸ hv' k hk⟩
    rw [hset x1 x2, hset y1 y2]
    refine Prio3.sees_le (chk := False) I.wf hctx hf hh hkey hN hN' x1 y1 x2 y2 x4 y4 (fun v hv => ?_)
      (fun k hk u o hu ho => Prio3.truncate_shift I hu (x2 k hk) (y2 k hk) ho (x3 k hk) (y3 k hk)) vs fun _ h => h
    obtain ⟨-, o, k1, -⟩ := I.computes.truncate 1 (fun _ => v) v (isSum_iff.2 ⟨fun _ => rfl, by simp⟩) hv
    exact ⟨o, k1⟩
  exact le_antisymm (key hm0 hm1) (key hm1 hm0)

/-! ## The circuits of the library -/

theorem Spec.Instance.custom {P : Prio3 (XofTurboShake128 prims fuel) F Meas Agg} {fn : Spec.Fun Meas Agg}
    (I : Spec.Instance P fn) : Spec.CustomInstance P (fn.task F) :=
  ⟨library_computes I.library I.fits, I.init, I.id, I.proofs, I.shares⟩

/-- C59: two batches of valid measurements with the same aggregate result give the same distribution of the
coalition's view, including the aggregate share of the honest Aggregator.  There are only finitely many oracles, so
this compares probabilities. -/
theorem C59_privacy {P : Prio3 (XofTurboShake128 prims fuel) F Meas Agg} {fn : Spec.Fun Meas Agg}
    (I : Spec.Instance P fn) {verifyKey ctx : Bytes} (hkey : verifyKey.length = 32)
    (hctx : ctx.length + 8 < 2 ^ 16) {h n N : ℕ} (hh : h < P.shares) (hN : 32 ≤ N)
    (hN' : fuel * PyField.encSize F ≤ N) {coins : ℕ → Coins} (hf : FreshCoins P h n coins) {m0 m1 : ℕ → Meas}
    (hm0 : ∀ k < n, fn.valid (m0 k)) (hm1 : ∀ k < n, fn.valid (m1 k))
    (hagg : fn.agg ((List.range n).map m0) = fn.agg ((List.range n).map m1)) :
    (oracles prims (batchSecrets P ctx h n coins) N).Finite ∧
    (∀ v, {O ∈ oracles prims (batchSecrets P ctx h n coins) N |
        batchView (runWith P O) verifyKey ctx h n m0 coins = .ok v}.ncard =
      {O ∈ oracles prims (batchSecrets P ctx h n coins) N |
        batchView (runWith P O) verifyKey ctx h n m1 coins = .ok v}.ncard) ∧
    {O ∈ oracles prims (batchSecrets P ctx h n coins) N |
        ∀ v, batchView (runWith P O) verifyKey ctx h n m0 coins ≠ .ok v}.ncard =
      {O ∈ oracles prims (batchSecrets P ctx h n coins) N |
        ∀ v, batchView (runWith P O) verifyKey ctx h n m1 coins ≠ .ok v}.ncard := by
  have hfin := oracles_finite (prims := prims)
    (Prio3.batchSecrets_finite (P := P) (ctx := ctx) (h := h) (n := n) (rs := coins)) N
  obtain ⟨ints, of, h1, -, h2, h3⟩ := (Library.encFacts I.library).enc
  have htot : ∀ m : ℕ → Meas, (∀ k < n, fn.valid (m k)) → TotalIs P.flp n m
      (tab P.flp.outputLen fun j => (((((List.range n).map m).map fun m => ints m j).sum : ℕ) : F)) := by
    intro m hm
    choose! e he using h1
    refine ⟨fun k => e (m k), fun k => tab P.flp.outputLen fun j => (ints (m k) j : F),
      fun k => (he _ (hm k k.2)).1, fun k => (he _ (hm k k.2)).2.2, ?_, by simp⟩
    rw [isSum_iff]
    refine ⟨fun k => by simp, fun j => ?_⟩
    simp only [coef_tab]
    split
    · rw [List.map_map, Fin.sum_univ_eq_sum_range fun k => (ints (m k) j : F), ← Nat.cast_sum]
      congr 1
    · simp
  have hsame : ∀ j < P.flp.outputLen, (((List.range n).map m0).map fun m => ints m j).sum =
      (((List.range n).map m1).map fun m => ints m j).sum := by
    have hv : ∀ {m : ℕ → Meas}, (∀ k < n, fn.valid (m k)) → ∀ x ∈ (List.range n).map m, fn.valid x := by
      intro m hm x hx
      obtain ⟨k, hk, rfl⟩ := List.mem_map.1 hx
      exact hm k (List.mem_range.1 hk)
    rw [h3 _ (hv hm0), h3 _ (hv hm1)] at hagg
    have := congrArg fn.totals hagg
    rw [h2 _ (by simp), h2 _ (by simp)] at this
    intro j hj
    have := congrArg (fun l => l[j]?) this
    simpa only [tab_getElem? hj, Option.some.injEq] using this
  have h0 := htot m0 hm0
  rw [tab_congr fun j hj => by rw [hsame j hj]] at h0
  have hall := C59_privacy_custom I.custom hkey hctx hh hN hN' hf hm0 hm1 h0 (htot m1 hm1)
  exact ⟨hfin, hall, ncard_fail hfin hall⟩

/-- C59: the coalition's view of the verification of reports, before any aggregate share is revealed, has the same
distribution for all valid measurements. -/
theorem C59_privacy_reports {P : Prio3 (XofTurboShake128 prims fuel) F Meas Agg} {fn : Spec.Fun Meas Agg}
    (I : Spec.Instance P fn) {verifyKey ctx : Bytes} (hkey : verifyKey.length = 32)
    (hctx : ctx.length + 8 < 2 ^ 16) {h n N : ℕ} (hh : h < P.shares) (hN : 32 ≤ N)
    (hN' : fuel * PyField.encSize F ≤ N) {coins : ℕ → Coins} (hf : FreshCoins P h n coins) {m0 m1 : ℕ → Meas}
    (hm0 : ∀ k < n, fn.valid (m0 k)) (hm1 : ∀ k < n, fn.valid (m1 k)) :
    (oracles prims (batchSecrets P ctx h n coins) N).Finite ∧
    (∀ v, {O ∈ oracles prims (batchSecrets P ctx h n coins) N |
        reportViews (runWith P O) verifyKey ctx h n m0 coins = .ok v}.ncard =
      {O ∈ oracles prims (batchSecrets P ctx h n coins) N |
        reportViews (runWith P O) verifyKey ctx h n m1 coins = .ok v}.ncard) ∧
    {O ∈ oracles prims (batchSecrets P ctx h n coins) N |
        ∀ v, reportViews (runWith P O) verifyKey ctx h n m0 coins ≠ .ok v}.ncard =
      {O ∈ oracles prims (batchSecrets P ctx h n coins) N |
        ∀ v, reportViews (runWith P O) verifyKey ctx h n m1 coins ≠ .ok v}.ncard := by
  have hfin := oracles_finite (prims := prims)
    (Prio3.batchSecrets_finite (P := P) (ctx := ctx) (h := h) (n := n) (rs := coins)) N
  have hall := C59_privacy_reports_custom I.custom hkey hctx hh hN hN' hf hm0 hm1
  exact ⟨hfin, hall, ncard_fail hfin hall⟩

/-! ## A concrete case

Two reports of `Prio3Histogram`, whose circuit uses joint randomness, with three Aggregators; the honest one is a
Helper.  The batches `[0, 1]` and `[1, 0]` have the same aggregate. -/

/-- The instance. -/
def privacyExample : Prio3 (XofTurboShake128 toyPrims 40) Field128 Int (List Nat) :=
  ⟨4, 3, 1, Histogram.circuit Field128 2 1, 9⟩

/-- The nonces and the random bytes of the reports. -/
def privacyCoins (k : ℕ) : Coins :=
  ⟨List.replicate 16 (UInt8.ofNat k), List.replicate 192 (UInt8.ofNat (k + 7))⟩

theorem privacyExample_instance : Spec.Instance privacyExample (Spec.histogramFun 2) :=
  (instance_histogram (shares := 3) (cl := 1) (by decide) (by rfl)).1

theorem privacyCoins_fresh : FreshCoins privacyExample 1 2 privacyCoins := by
  have h1 : ∀ k ∈ List.range 2, (privacyCoins k).nonce.length = 16 ∧
      (privacyCoins k).rand.length = privacyExample.randSize := by decide +kernel
  have h2 : ∀ k ∈ List.range 2, ∀ l ∈ List.range 2, k ≠ l →
      shareSeed privacyExample (privacyCoins k).rand 1 ≠ shareSeed privacyExample (privacyCoins l).rand 1 ∧
      proveSeed privacyExample (privacyCoins k).rand ≠ proveSeed privacyExample (privacyCoins l).rand ∧
      blindSeed privacyExample (privacyCoins k).rand 1 ≠ blindSeed privacyExample (privacyCoins l).rand 1 := by
    decide +kernel
  refine ⟨fun k hk => h1 k (List.mem_range.2 hk), fun k hk l hl hkl => ?_⟩
  obtain ⟨a, b, c⟩ := h2 k (List.mem_range.2 hk) l (List.mem_range.2 hl) hkl
  exact ⟨fun _ => a, b, fun _ => .inl c⟩

-- the measurements are valid and the aggregates agree
example : (∀ k < 2, (Spec.histogramFun 2).valid ((k : ℕ) : Int)) ∧
    (∀ k < 2, (Spec.histogramFun 2).valid (1 - (k : ℕ) : Int)) ∧
    (Spec.histogramFun 2).agg ((List.range 2).map fun k => (k : Int)) =
      (Spec.histogramFun 2).agg ((List.range 2).map fun k => 1 - (k : Int)) := by
  refine ⟨?_, ?_, by decide⟩ <;> intro k hk <;> interval_cases k <;> simp [Spec.histogramFun]

-- there are oracles for which the reports are verified and aggregated
example : (fun m i => toyPrims.turboShake m 1 i) ∈ oracles toyPrims (batchSecrets privacyExample [1] 1 2 privacyCoins) 640 ∧
    ∃ v, batchView (runWith privacyExample fun m i => toyPrims.turboShake m 1 i) (List.replicate 32 1) [1] 1 2
      (fun k => (k : Int)) privacyCoins = .ok v := by
  refine ⟨fun m i hc => absurd rfl hc, ?_⟩
  have h : (batchView (runWith privacyExample fun m i => toyPrims.turboShake m 1 i) (List.replicate 32 1) [1] 1 2
      (fun k => (k : Int)) privacyCoins).isOk = true := by decide +kernel
  cases hr : batchView (runWith privacyExample fun m i => toyPrims.turboShake m 1 i) (List.replicate 32 1) [1] 1 2
      (fun k => (k : Int)) privacyCoins with
  | error => rw [hr] at h; cases h
  | ok v => exact ⟨v, rfl⟩

end Vdaf
