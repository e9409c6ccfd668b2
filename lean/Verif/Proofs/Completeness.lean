import Verif.Proofs.SampleLaw
import Verif.Proofs.BindingJoint
import Verif.Proofs.TestHarness
import Verif.Proofs.RomBad
import Verif.Proofs.PrivacyMain
import Verif.Proofs.Custom
import Verif.Proofs.CustomInst

/-! The probability that an honest execution of Prio3 fails. -/

set_option linter.unusedSectionVars false

namespace Vdaf
open Finset
open Spec (tag runWith withOracle shareSeed proveSeed honestInputs reportError shortfall oracles)
attribute [local instance] bytesFintype

/-- An event about the value of the oracle at one input -/
theorem fixed_bound {prims : Prims} {S : Set Bytes} [Fintype S] {N : ℕ} {m : Bytes} (hm : m ∈ S) (Bad : (ℕ → UInt8) → Prop)
    {ε : ℚ} (hε : 0 ≤ ε)
    (h : ∀ base : ℕ → UInt8, (Set.ncard {y : Fin N → UInt8 | Bad (withHead base y)} : ℚ) ≤ ε * Fintype.card (Fin N → UInt8)) :
    (Set.ncard {f : S → Fin N → UInt8 | Bad (glue prims S f m)} : ℚ) ≤ ε * Fintype.card (S → Fin N → UInt8) := by
  classical
  refine deferred_one (fun _ i => i = ⟨m, hm⟩) (by rintro O i j rfl rfl; rfl) (by rintro O i y rfl; rfl) _
    (fun O _ => ⟨⟨m, hm⟩, rfl⟩) hε ?_
  rintro O i rfl
  refine le_trans (Nat.cast_le.2 (Set.ncard_le_ncard ?_ (Set.toFinite _))) (h (prims.turboShake m 1))
  intro y hy
  have := glue_mem prims S (Function.update O ⟨m, hm⟩ y) ⟨m, hm⟩
  rw [Function.update_self] at this
  simp only [Set.mem_ofPred_eq] at hy
  rw [this] at hy
  exact hy

/-- An event about the value of the oracle at one input, which is chosen depending on the values at other inputs -/
theorem chosen_bound {prims : Prims} {S : Set Bytes} [Fintype S] [DecidableEq S] {N : ℕ} (pos : (S → Fin N → UInt8) → S)
    (hpos : ∀ f y, pos (Function.update f (pos f) y) = pos f) (Bad : (ℕ → UInt8) → Prop) {ε : ℚ} (hε : 0 ≤ ε)
    (h : ∀ base : ℕ → UInt8, (Set.ncard {y : Fin N → UInt8 | Bad (withHead base y)} : ℚ) ≤ ε * Fintype.card (Fin N → UInt8)) :
    (Set.ncard {f : S → Fin N → UInt8 | Bad (glue prims S f (pos f))} : ℚ) ≤ ε * Fintype.card (S → Fin N → UInt8) := by
  refine deferred_one (fun f i => i = pos f) ?_ ?_ _ (fun O _ => ⟨_, rfl⟩) hε ?_
  · rintro O i j rfl rfl
    rfl
  · rintro O i y rfl
    exact (hpos O y).symm
  · rintro O i rfl
    refine le_trans (Nat.cast_le.2 (Set.ncard_le_ncard ?_ (Set.toFinite _))) (h (prims.turboShake (pos O) 1))
    intro y hy
    have := glue_mem prims S (Function.update O (pos O) y) (pos O)
    rw [Function.update_self] at this
    simp only [Set.mem_ofPred_eq] at hy
    rw [hpos, this] at hy
    exact hy

namespace Prio3
variable {F : Type} [NttField F] {Meas Agg : Type} {prims : Prims} {fuel : ℕ}
  {P : Prio3 (XofTurboShake128 prims fuel) F Meas Agg} {T : Bytes → ℕ → UInt8}

/-- The seed of the joint randomness of an honest report -/
def seedOf (P : Prio3 (XofTurboShake128 prims fuel) F Meas Agg) (T : Bytes → ℕ → UInt8) (meas : List F)
    (rand ctx nonce : Bytes) : Bytes :=
  headOf T (turboInput (List.replicate 32 0) (tag P.id 6 ctx) (tab P.shares (ptAt P T meas rand ctx nonce)).flatten)

/-- All the expansions for the report find enough field elements. -/
structure Enough (P : Prio3 (XofTurboShake128 prims fuel) F Meas Agg) (T : Bytes → ℕ → UInt8) (vk ctx : Bytes) (meas : List F)
    (nonce rand : Bytes) : Prop where
  share : ∀ j, 0 < j → j < P.shares →
    P.flp.measLen ≤ yield F fuel (T (turboInput (shareSeed P rand j) (tag P.id 1 ctx) [UInt8.ofNat j]))
  proofs : ∀ j, 0 < j → j < P.shares → P.proofLen * P.proofs ≤
    yield F fuel (T (turboInput (shareSeed P rand j) (tag P.id 2 ctx) [UInt8.ofNat P.proofs, UInt8.ofNat j]))
  prove : P.flp.proveRandLen * P.proofs ≤
    yield F fuel (T (turboInput (proveSeed P rand) (tag P.id 4 ctx) [UInt8.ofNat P.proofs]))
  joint : P.flp.jointRandLen * P.proofs ≤
    yield F fuel (T (turboInput (seedOf P T meas rand ctx nonce) (tag P.id 3 ctx) [UInt8.ofNat P.proofs]))
  query : P.flp.queryRandLen * P.proofs ≤
    yield F fuel (T (turboInput vk (tag P.id 5 ctx) (UInt8.ofNat P.proofs :: nonce)))

theorem good_of_ev {E : Err → Prop} {r : Res (List F)} {n : ℕ} {s : ℕ → UInt8} (h : ∀ v, r = .ok v ↔ Ev F fuel n s v)
    (hy : n ≤ yield F fuel s) : Good E r fun v => v.length = n := by
  obtain ⟨v, hv⟩ := ev_exists.2 hy
  exact Good.of_eq ((h v).2 hv) hv.1

section
variable (W : P.WF) {ctx : Bytes} (hctx : ctx.length + 8 < 2 ^ 16)
include W hctx

theorem seed_eq (hj0 : 0 < P.flp.jointRandLen) {meas : List F} (hmeas : meas.length = P.flp.measLen) {nonce rand : Bytes}
    (hr : rand.length = P.randSize) {ms : ℕ → List F} {parts : ℕ → Bytes} {seed : Bytes}
    (h1 : Spec.IsSum (fun j : Fin P.shares => ms j) meas)
    (h2 : ∀ j < P.shares - 1, (runWith P T).helperMeasShare ctx (j + 1) (Spec.seedAt P rand (2 * j)) = .ok (ms (j + 1)))
    (h3 : ∀ j < P.shares, (runWith P T).jointRandPart ctx j (consFn (Spec.seedAt P rand (2 * P.shares - 2))
      (fun i => Spec.seedAt P rand (2 * i + 1)) j) (ms j) nonce = .ok (parts j))
    (h4 : (runWith P T).jointRandSeed ctx (tab P.shares parts) = .ok seed) :
    seed = seedOf P T meas rand ctx nonce := by
  have hN := W.shares_ge
  have hns : P.numSeeds = P.shares + P.shares := by unfold numSeeds; rw [if_pos hj0]
  have hbl := (seeds_length (rand := rand) W hj0 hr).2
  have hms : ∀ j, j ≠ 0 → j < P.shares → Spec.measShare (runWith P T) ctx j (sdAt P rand j) = .ok (ms j) := by
    intro j h0 hj
    obtain ⟨j, rfl⟩ : ∃ i, j = i + 1 := ⟨j - 1, by omega⟩
    exact (measShare_ok.1 (h2 j (by omega))).2.2
  have hms' : ∀ j < P.shares, ms j = msAt P T meas rand ctx j := by
    intro j hj
    unfold msAt
    by_cases h0 : j = 0
    · subst h0
      rw [if_pos rfl]
      rw [isSum_iff] at h1
      have hl0 : (ms 0).length = P.flp.measLen := by rw [h1.1 ⟨0, hj⟩, hmeas]
      rw [eq_tab hl0]
      apply tab_congr
      intro k _
      have h6 := h1.2 k
      have h7 : ∑ i : Fin P.shares, coef (ms i) k = ∑ i ∈ range (P.shares - 1 + 1), coef (ms i) k := by
        rw [Nat.sub_add_cancel (by omega)]
        exact Fin.sum_univ_eq_sum_range (fun i => coef (ms i) k) P.shares
      rw [h7, sum_range_succ'] at h6
      rw [h6]
      have h8 : ∑ i ∈ range (P.shares - 1), coef (okVal (Spec.measShare (runWith P T) ctx (i + 1) (sdAt P rand (i + 1)))) k =
          ∑ i ∈ range (P.shares - 1), coef (ms (i + 1)) k := by
        refine sum_congr rfl fun i hi => ?_
        rw [hms (i + 1) (by omega) (by have := mem_range.1 hi; omega)]
        rfl
      rw [h8]
      ring
    · rw [if_neg h0, hms j h0 hj]
      rfl
  have hcons : ∀ j, consFn (Spec.seedAt P rand (2 * P.shares - 2)) (fun i => Spec.seedAt P rand (2 * i + 1)) j = blAt P rand j := by
    intro j
    unfold blAt
    cases j with
    | zero =>
      rw [if_pos rfl, hns, ← two_mul]
      rfl
    | succ j =>
      rw [if_neg (by omega)]
      rfl
  have hparts : tab P.shares parts = tab P.shares (ptAt P T meas rand ctx nonce) := by
    apply tab_congr
    intro j hj
    have a3 := (jointRandPart_ok.1 (h3 j hj)).2.2
    rw [hcons, jointRandPart_head hctx (by rw [hbl j hj]; norm_num), hms' j hj] at a3
    exact (Except.ok.inj a3).symm
  have h4 := (jointRandSeed_ok.1 h4).2
  rw [hparts, jointRandSeed_head hctx] at h4
  exact (Except.ok.inj h4).symm

theorem shard_enough {m : Meas} {meas : List F} (he : P.flp.encode m = .ok meas)
    (hmeas : meas.length = P.flp.measLen) {vk nonce rand : Bytes} (hn : nonce.length = 16)
    (hr : rand.length = P.randSize) (H : Enough P T vk ctx meas nonce rand) :
    Good (fun _ => False) ((runWith P T).shard ctx m nonce rand) fun r =>
      ∃ ms ps bl prs jrs π, (runWith P T).Sharded ctx nonce meas r.1 r.2 ms ps bl prs jrs π := by
  have hsh := W.shares_ge
  have hsl := W.shares_lt
  have WT := W.runWith T
  unfold shard
  rw [raiseIf_of_not (by simpa [NONCE_SIZE] using hn), raiseIf_of_not (show ¬ (rand.length ≠ (runWith P T).randSize) from fun h => h hr),
    show (runWith P T).flp.encode m = .ok meas from he]
  simp only [Except.ok_bind']
  unfold randSize at hr
  have hc : chunks rand (runWith P T).numSeeds (XofTurboShake128 (withOracle prims T) fuel).seedSize =
      tab P.numSeeds fun i => Spec.seedAt P rand i := rfl
  rw [hc]
  have hsd : ∀ i < P.numSeeds, (Spec.seedAt P rand i).length = 32 := fun i (hi : i < P.numSeeds) => chunks_length hr hi
  by_cases hj : P.flp.jointRandLen > 0
  · have hns : P.numSeeds = P.shares + P.shares := by unfold numSeeds; rw [if_pos hj]
    rw [if_pos (show (runWith P T).flp.jointRandLen > 0 from hj)]
    rw [hns] at hsd ⊢
    have hss : ∀ j, shareSeed P rand (j + 1) = Spec.seedAt P rand (2 * j) := by
      intro j
      unfold shareSeed
      rw [if_pos hj]
      rfl
    have hps : proveSeed P rand = Spec.seedAt P rand (2 * P.shares - 1) := by
      unfold proveSeed Spec.numSeeds
      rw [if_pos hj]
    refine (shardWithJointRand_gen WT hctx hj hmeas (sd := Spec.seedAt P rand) hsd ?_ ?_ ?_ ?_).mono ?_
    · intro j hj'
      have hj' : j < P.shares - 1 := hj'
      have := H.share (j + 1) (by omega) (by omega)
      rw [hss] at this
      exact good_of_ev (fun v => measShare_ev W hctx (by omega) (by rw [hsd _ (by omega)]; norm_num)) this
    · intro j hj'
      have hj' : j < P.shares - 1 := hj'
      have := H.proofs (j + 1) (by omega) (by omega)
      rw [hss] at this
      exact good_of_ev (fun v => proofsShare_ev W hctx (by omega) (by rw [hsd _ (by omega)]; norm_num)) this
    · have := H.prove
      rw [hps] at this
      exact good_of_ev (fun v => proveRands_ev W hctx (by rw [show (runWith P T).shares = P.shares from rfl, hsd _ (by omega)]; norm_num)) this
    · intro ms parts seed h1 h2 h3 h4 h5
      have hs : seed = seedOf P T meas rand ctx nonce := seed_eq W hctx hj hmeas hr h1 h2 h3 h4
      have := H.joint
      rw [← hs] at this
      exact good_of_ev (fun v => jointRands_ev W hctx (by rw [show seed.length = 32 from h5]; norm_num)) this
    · rintro r - ⟨ms, ps, bl, prs, jrs, π, h1, h2, h3, h4⟩
      exact ⟨ms, ps, bl, prs, jrs, π, h1⟩
  · have hns : P.numSeeds = P.shares := by unfold numSeeds; rw [if_neg hj]
    rw [if_neg (show ¬ (runWith P T).flp.jointRandLen > 0 from hj)]
    rw [hns] at hsd ⊢
    have hss : ∀ j, shareSeed P rand (j + 1) = Spec.seedAt P rand j := by
      intro j
      unfold shareSeed
      rw [if_neg hj]
      rfl
    have hps : proveSeed P rand = Spec.seedAt P rand (P.shares - 1) := by
      unfold proveSeed Spec.numSeeds
      rw [if_neg hj]
    refine (shardWithoutJointRand_gen WT (nonce := nonce) (show (runWith P T).flp.jointRandLen = 0 from by
      show P.flp.jointRandLen = 0; omega) hmeas (sd := Spec.seedAt P rand) ?_ ?_ ?_).mono ?_
    · intro j hj'
      have hj' : j < P.shares - 1 := hj'
      have := H.share (j + 1) (by omega) (by omega)
      rw [hss] at this
      exact good_of_ev (fun v => measShare_ev W hctx (by omega) (by rw [hsd _ (by omega)]; norm_num)) this
    · intro j hj'
      have hj' : j < P.shares - 1 := hj'
      have := H.proofs (j + 1) (by omega) (by omega)
      rw [hss] at this
      exact good_of_ev (fun v => proofsShare_ev W hctx (by omega) (by rw [hsd _ (by omega)]; norm_num)) this
    · have := H.prove
      rw [hps] at this
      exact good_of_ev (fun v => proveRands_ev W hctx (by rw [show (runWith P T).shares = P.shares from rfl, hsd _ (by omega)]; norm_num)) this
    · rintro r - ⟨ms, ps, prs, π, h1, h2, h3⟩
      exact ⟨ms, ps, fun _ => none, prs, [], π, h1⟩

/-- A report for which all the expansions find enough field elements, and no test point is a root of unity -/
theorem runVerify_enough {valid : Meas → Prop} {o : Meas → ℕ → F} (H : RunFacts P.flp valid o) {vk : Bytes}
    (hvk : vk.length = 32) {m : Meas} (hv : valid m) {nonce rand : Bytes} (hn : nonce.length = 16)
    (hr : rand.length = P.randSize)
    (h1 : ∀ meas, P.flp.encode m = .ok meas → Enough P T vk ctx meas nonce rand)
    (h2 : ¬ Spec.RootHit (runWith P T) vk ctx nonce) :
    Good (fun _ => False) ((runWith P T).vdaf.runVerify vk () ctx m nonce rand) fun r =>
      ∃ (os : ℕ → List F) (seed : Option Bytes), r = (tab P.shares fun j => (os j, seed), seed) ∧
        Spec.IsSum (fun j : Fin P.shares => os j) (tab P.flp.outputLen (o m)) := by
  obtain ⟨meas, he, hmeas, ho, hacc⟩ := H.enc m hv
  have H1 := h1 meas he
  refine ((runVerify_gen (P := runWith P T) (W.runWith T) hctx H hmeas ho hacc (shard_enough W hctx he hmeas hn hr H1)
    (good_of_ev (fun v => queryRands_ev W hctx (by rw [hvk]; norm_num)) H1.query)).weaken ?_).mono ?_
  · rintro e (h | ⟨-, h⟩)
    · exact h
    · exact h2 h
  · rintro _ - ⟨os, seed, rfl, hsum, -⟩
    exact ⟨os, seed, rfl, hsum⟩

end

/-! ### Counting -/

theorem coord_bound {ι A : Type} [Fintype ι] [Fintype A] [Nonempty A] (i : ι) (B : Set A) {ε : ℚ} (hε : 0 ≤ ε)
    (h : (B.ncard : ℚ) ≤ ε * Fintype.card A) :
    (Set.ncard {q : ι → A | q i ∈ B} : ℚ) ≤ ε * Nat.card (ι → A) := by
  classical
  rw [Nat.card_eq_fintype_card]
  refine deferred_one (fun _ j => j = i) (by rintro O j k rfl rfl; rfl) (by rintro O j y rfl; rfl) _ (fun O _ => ⟨i, rfl⟩) hε ?_
  rintro O j rfl
  simpa using h

/-- The test points are hardly ever roots of unity. -/
theorem root_bound (hC : Spec.Circuit P.flp) {N : ℕ} (hN : fuel * PyField.encSize F ≤ N) (base : ℕ → UInt8) :
    (Set.ncard {y : Fin N → UInt8 | ∃ qrs, Ev F fuel (P.flp.queryRandLen * P.proofs) (withHead base y) qrs ∧
      ∃ i < P.proofs, Spec.BadTestPoint P.flp (Spec.piece P.flp.queryRandLen qrs i)} : ℚ) ≤
      (P.proofs * ((P.flp.gadgetCalls.map fun calls => 2 ^ Nat.size calls).sum : ℕ) / PyField.modulus F) *
        Fintype.card (Fin N → UInt8) := by
  have hp := modulus_pos_rat F
  have h1 : (Set.ncard {qr : Fin P.flp.queryRandLen → F | Spec.BadTestPoint P.flp (List.ofFn qr)} : ℚ) ≤
      (((P.flp.gadgetCalls.map fun calls => 2 ^ Nat.size calls).sum : ℕ) / PyField.modulus F : ℚ) *
        Fintype.card (Fin P.flp.queryRandLen → F) := by
    have := badTestPoint_ncard hC
    rw [Fintype.card_fun, Fintype.card_fin, card_eq]
    refine le_trans (Nat.cast_le.2 this) ?_
    rcases Nat.eq_zero_or_pos P.flp.queryRandLen with h | h
    · have hq : P.flp.gadgets.length ≤ P.flp.queryRandLen := by
        unfold Valid.queryRandLen; split <;> omega
      have : P.flp.gadgetCalls = [] := List.length_eq_zero_iff.1 (by rw [hC.calls_length]; omega)
      simp [this]
    · obtain ⟨k, hk⟩ : ∃ k, P.flp.queryRandLen = k + 1 := ⟨P.flp.queryRandLen - 1, by omega⟩
      rw [hk, Nat.add_sub_cancel]
      generalize (P.flp.gadgetCalls.map fun calls => 2 ^ Nat.size calls).sum = s
      push_cast
      rw [pow_succ]
      refine le_of_eq ?_
      field_simp
  set E := {y : Fin N → UInt8 | ∃ qrs, Ev F fuel (P.flp.queryRandLen * P.proofs) (withHead base y) qrs ∧
      ∃ i < P.proofs, Spec.BadTestPoint P.flp (Spec.piece P.flp.queryRandLen qrs i)} with hE
  have h2 := ncard_streams (F := F) (fuel := fuel) hN base (P := P.proofs) (k := P.flp.queryRandLen)
    {q | ∃ i < P.proofs, q ∈ {q | ∃ h : i < P.proofs, q ⟨i, h⟩ ∈ {qr | Spec.BadTestPoint P.flp (List.ofFn qr)}}} E (by
      rintro y ⟨qrs, h1, i, hi, h2⟩
      obtain ⟨q, rfl, hq⟩ := flat_surj h1.1
      refine ⟨q, ⟨i, hi, hi, ?_⟩, h1⟩
      simp only [Set.mem_ofPred_eq]
      rw [hq]
      exact h2)
  have h3 := ncard_exists_le P.proofs (fun i => {q : Fin P.proofs → Fin P.flp.queryRandLen → F |
    ∃ h : i < P.proofs, q ⟨i, h⟩ ∈ {qr | Spec.BadTestPoint P.flp (List.ofFn qr)}}) (b :=
      (((P.flp.gadgetCalls.map fun calls => 2 ^ Nat.size calls).sum : ℕ) / PyField.modulus F : ℚ) *
        Nat.card (Fin P.proofs → Fin P.flp.queryRandLen → F)) (by
      intro i hi
      refine le_trans (le_of_eq ?_) (coord_bound (⟨i, hi⟩ : Fin P.proofs) _ (by positivity) h1)
      congr 2
      ext q
      simp [hi])
  rw [Nat.card_eq_fintype_card] at h3
  have hQ : (0 : ℚ) < Fintype.card (Fin P.proofs → Fin P.flp.queryRandLen → F) := by exact_mod_cast Fintype.card_pos
  refine le_of_mul_le_mul_right ?_ hQ
  refine h2.trans ((mul_le_mul_of_nonneg_right h3 (Nat.cast_nonneg _)).trans (le_of_eq ?_))
  ring

theorem yield_bound {prims : Prims} {S : Set Bytes} [Fintype S] {N : ℕ} {m : Bytes} (hm : m ∈ S)
    (hN : fuel * PyField.encSize F ≤ N) (n : ℕ) :
    (Set.ncard {f : S → Fin N → UInt8 | yield F fuel (glue prims S f m) < n} : ℚ) ≤
      shortfall F fuel n * Fintype.card (S → Fin N → UInt8) :=
  fixed_bound hm (fun s => yield F fuel s < n) (shortfall_nonneg _ _) fun base => (ncard_yield fuel n hN base).le

section
variable (W : P.WF) {ctx : Bytes} (hctx : ctx.length + 8 < 2 ^ 16)
include W hctx

omit W hctx in
theorem seedOf_length {meas : List F} {nonce rand : Bytes} : (seedOf P T meas rand ctx nonce).length = 32 := by
  simp [seedOf, headOf, Spec.bytesAt]

theorem seedOf_update (hj : 0 < P.flp.jointRandLen) {meas : List F} {nonce rand : Bytes} (hr : rand.length = P.randSize)
    {S : Set Bytes} [DecidableEq S] {N : ℕ} (f : S → Fin N → UInt8) (i : S) (y : Fin N → UInt8)
    (hi : (i : Bytes) = turboInput (seedOf P (glue prims S f) meas rand ctx nonce) (tag P.id 3 ctx) [UInt8.ofNat P.proofs]) :
    seedOf P (glue prims S (Function.update f i y)) meas rand ctx nonce = seedOf P (glue prims S f) meas rand ctx nonce := by
  have hs : (seedOf P (glue prims S f) meas rand ctx nonce).length < 2 ^ 8 := by rw [seedOf_length]; norm_num
  have hp : tab P.shares (ptAt P (glue prims S (Function.update f i y)) meas rand ctx nonce) =
      tab P.shares (ptAt P (glue prims S f) meas rand ctx nonce) := by
    apply tab_congr
    intro j hj'
    exact ptAt_update W hctx f i y (by norm_num) hs hctx hi (by norm_num) (by norm_num) ((seeds_length W hj hr).2 j hj')
  unfold seedOf
  rw [hp]
  exact headOf_congr (glue_tag W f i y (by norm_num) hs hctx hi (by norm_num) (by simp) hctx (.inl (by norm_num)))

theorem joint_bound' {meas : List F} {nonce rand : Bytes} (hr : rand.length = P.randSize) {S : Set Bytes} [Fintype S]
    (hS : ∀ seed : Bytes, seed.length = 32 → turboInput seed (tag P.id 3 ctx) [UInt8.ofNat P.proofs] ∈ S) {N : ℕ}
    (hN : fuel * PyField.encSize F ≤ N) :
    (Set.ncard {f : S → Fin N → UInt8 | yield F fuel (glue prims S f (turboInput (seedOf P (glue prims S f) meas rand ctx nonce)
      (tag P.id 3 ctx) [UInt8.ofNat P.proofs])) < P.flp.jointRandLen * P.proofs} : ℚ) ≤
      shortfall F fuel (P.flp.jointRandLen * P.proofs) * Fintype.card (S → Fin N → UInt8) := by
  have hz : P.flp.jointRandLen = 0 ∨ 0 < P.flp.jointRandLen := Nat.eq_zero_or_pos _
  generalize hn : P.flp.jointRandLen * P.proofs = n
  rcases hz with hj | hj
  · rw [hj, Nat.zero_mul] at hn
    subst hn
    simp only [Nat.not_lt_zero, Set.ofPred_false, Set.ncard_empty, Nat.cast_zero, shortfall_zero_right, zero_mul, le_refl]
  exact chosen_bound (prims := prims) (S := S) (N := N)
    (fun f => ⟨turboInput (seedOf P (glue prims S f) meas rand ctx nonce) (tag P.id 3 ctx) [UInt8.ofNat P.proofs],
      hS _ seedOf_length⟩)
    (fun f y => Subtype.ext (by
      dsimp only
      rw [seedOf_update W hctx hj hr f _ y rfl]))
    (fun s => yield F fuel s < n) (shortfall_nonneg _ _) fun base => (ncard_yield fuel n hN base).le

/-- The probability that one report fails -/
theorem report_bound {vk nonce rand : Bytes} (hvk : vk.length = 32) (hr : rand.length = P.randSize) {meas : List F}
    {S : Set Bytes} [Fintype S] (hS : honestInputs P vk ctx nonce rand ⊆ S) {N : ℕ} (hN : fuel * PyField.encSize F ≤ N) :
    (Set.ncard {f : S → Fin N → UInt8 | ¬ Enough P (glue prims S f) vk ctx meas nonce rand ∨
      Spec.RootHit (runWith P (glue prims S f)) vk ctx nonce} : ℚ) ≤ reportError P * Fintype.card (S → Fin N → UInt8) := by
  have hC := circuit_iff.2 W.lawful
  have b1 : (Set.ncard {f : S → Fin N → UInt8 | ∃ j < P.shares - 1, f ∈ {f | yield F fuel (glue prims S f
      (turboInput (shareSeed P rand (j + 1)) (tag P.id 1 ctx) [UInt8.ofNat (j + 1)])) < P.flp.measLen}} : ℚ) ≤ _ :=
    ncard_exists_le (P.shares - 1) _ fun j hj =>
      yield_bound (hS (.inl ⟨j + 1, by omega, by omega, .inl rfl⟩)) hN P.flp.measLen
  have b2 : (Set.ncard {f : S → Fin N → UInt8 | ∃ j < P.shares - 1, f ∈ {f | yield F fuel (glue prims S f
      (turboInput (shareSeed P rand (j + 1)) (tag P.id 2 ctx) [UInt8.ofNat P.proofs, UInt8.ofNat (j + 1)])) <
        P.proofLen * P.proofs}} : ℚ) ≤ _ :=
    ncard_exists_le (P.shares - 1) _ fun j hj =>
      yield_bound (hS (.inl ⟨j + 1, by omega, by omega, .inr rfl⟩)) hN (P.proofLen * P.proofs)
  have b3 := yield_bound (F := F) (fuel := fuel) (prims := prims) (hS (.inr (.inl rfl))) hN (P.flp.proveRandLen * P.proofs)
  have b4 := joint_bound' W hctx (meas := meas) (nonce := nonce) hr (fun seed h => hS (.inr (.inr (.inl ⟨seed, h, rfl⟩)))) hN
  have b5 := yield_bound (F := F) (fuel := fuel) (prims := prims) (hS (.inr (.inr (.inr rfl)))) hN
    (P.flp.queryRandLen * P.proofs)
  have b6 := fixed_bound (prims := prims) (S := S) (hS (.inr (.inr (.inr rfl)))) (N := N)
    (fun s => ∃ qrs, Ev F fuel (P.flp.queryRandLen * P.proofs) s qrs ∧
      ∃ i < P.proofs, Spec.BadTestPoint P.flp (Spec.piece P.flp.queryRandLen qrs i))
    (ε := P.proofs * ((P.flp.gadgetCalls.map fun calls => 2 ^ Nat.size calls).sum : ℕ) / PyField.modulus F) (by positivity)
    (root_bound hC hN)
  have := ncard_or_le _ _ b6 (ncard_or_le _ _ b1 (ncard_or_le _ _ b2 (ncard_or_le _ _ b3 (ncard_or_le _ _ b4 b5))))
  refine le_trans (Nat.cast_le.2 (Set.ncard_le_ncard ?_ (Set.toFinite _))) (this.trans (le_of_eq ?_))
  · rintro f (h | ⟨qrs, h1, h2⟩)
    · simp only [Set.mem_ofPred_eq]
      right
      by_contra hc
      push Not at hc
      obtain ⟨c1, c2, c3, c4, c5⟩ := hc
      refine h ⟨fun j h0 hj => ?_, fun j h0 hj => ?_, c3, c4, c5⟩
      · obtain ⟨j, rfl⟩ : ∃ i, j = i + 1 := ⟨j - 1, by omega⟩
        exact c1 j (by omega)
      · obtain ⟨j, rfl⟩ : ∃ i, j = i + 1 := ⟨j - 1, by omega⟩
        exact c2 j (by omega)
    · left
      refine ⟨qrs, ?_, h2⟩
      have := (queryRands_ev W hctx (T := glue prims S f) (s := vk) (nonce := nonce) (by rw [hvk]; norm_num)).1
        (queryRands_ok.2 ⟨W.id, W.proofs, h1⟩)
      exact this
  · unfold reportError
    ring

/-- The probability that an honest execution fails -/
theorem fail_bound {T : Spec.Task Meas Agg} (C : Spec.Computes P.flp T) {vk : Bytes} (hvk : vk.length = 32)
    {batch : List (Meas × Bytes × Bytes)}
    (hb : ∀ m ∈ batch, T.valid m.1 ∧ m.2.1.length = 16 ∧ m.2.2.length = P.randSize) (hsup : T.supported (batch.map Prod.fst))
    {S : Set Bytes} (hfin : S.Finite) (hS : ∀ m ∈ batch, honestInputs P vk ctx m.2.1 m.2.2 ⊆ S) {N : ℕ}
    (hN : fuel * PyField.encSize F ≤ N) :
    Spec.failProbability P vk ctx batch (T.agg (batch.map Prod.fst)) S N ≤ batch.length * reportError P := by
  classical
  have : Fintype S := hfin.fintype
  have hcard : Set.ncard (oracles prims S N) = Fintype.card (S → Fin N → UInt8) := by
    have := ncard_glue prims S (N := N) fun _ => True
    simp only [and_true, Set.ofPred_mem_eq] at this
    rw [this, ← Nat.card_eq_fintype_card, ← Set.ncard_univ]
    congr 1
  have hex : ∀ i : Fin batch.length, ∃ meas, P.flp.encode (batch[i].1) = .ok meas := fun i => by
    obtain ⟨e, h, -⟩ := C.encode _ (hb _ (List.getElem_mem i.2)).1
    exact ⟨e, h⟩
  choose meas hmeas using hex
  unfold Spec.failProbability
  rw [hcard, ncard_glue]
  have hpos : (0 : ℚ) < Fintype.card (S → Fin N → UInt8) := by exact_mod_cast Fintype.card_pos
  rw [div_le_iff₀ hpos, mul_assoc]
  refine le_trans (Nat.cast_le.2 (Set.ncard_le_ncard ?_ (Set.toFinite _)))
    (ncard_exists_le batch.length (fun i => {f : S → Fin N → UInt8 | ∃ h : i < batch.length,
      ¬ Enough P (glue prims S f) vk ctx (meas ⟨i, h⟩) batch[i].2.1 batch[i].2.2 ∨
        Spec.RootHit (runWith P (glue prims S f)) vk ctx batch[i].2.1}) fun i hi => ?_)
  · intro f hf
    simp only [Set.mem_ofPred_eq] at hf ⊢
    by_contra hc
    push Not at hc
    apply hf
    have := customRun_any (P := runWith P (glue prims S f)) (W.runWith _) C (E := fun _ => False) hctx hvk
      (fun m hm => (hb m hm).1) hsup (by
        intro o H m hm
        obtain ⟨i, hi, rfl⟩ := List.mem_iff_getElem.1 hm
        obtain ⟨h1, h2⟩ := hc i hi hi
        obtain ⟨k1, k2, k3⟩ := hb _ hm
        refine runVerify_enough W hctx H hvk k1 k2 k3 ?_ h2
        intro me hme
        have := Except.ok.inj ((hmeas ⟨i, hi⟩).symm.trans hme)
        subst this
        exact h1)
    rcases this.cases with ⟨R, h1, rfl⟩ | ⟨e, -, h⟩
    · exact h1
    · exact h.elim
  · have hm := List.getElem_mem hi
    have := report_bound W hctx hvk (hb _ hm).2.2 (meas := meas ⟨i, hi⟩) (hS _ hm) hN
    refine le_trans (le_of_eq ?_) this
    congr 2
    ext f
    simp [hi]

end
end Prio3
end Vdaf
