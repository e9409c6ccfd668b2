import Verif.Proofs.Binding

/-! A report of Prio3 with joint randomness that is presented for another application context or with another nonce. -/

set_option linter.unusedSectionVars false

namespace Vdaf
open Finset
open Spec (tag runWith withOracle crossOutShares broadcast oracleInputs)

attribute [local instance] bytesFintype

namespace Prio3
variable {F : Type} [NttField F] {Meas Agg : Type} {prims : Prims} {fuel : ℕ}
  {P : Prio3 (XofTurboShake128 prims fuel) F Meas Agg} {T T' : Bytes → ℕ → UInt8}

/-- The seed of the shares of Helper `j` -/
def sdAt (P : Prio3 (XofTurboShake128 prims fuel) F Meas Agg) (rand : Bytes) (j : ℕ) : Bytes := Spec.seedAt P rand (2 * (j - 1))

/-- The blind of Aggregator `j` -/
def blAt (P : Prio3 (XofTurboShake128 prims fuel) F Meas Agg) (rand : Bytes) (j : ℕ) : Bytes :=
  if j = 0 then Spec.seedAt P rand (P.numSeeds - 2) else Spec.seedAt P rand (2 * (j - 1) + 1)

/-- The measurement share of Aggregator `j` in the report for `ctx` -/
def msAt (P : Prio3 (XofTurboShake128 prims fuel) F Meas Agg) (T : Bytes → ℕ → UInt8) (meas : List F) (rand ctx : Bytes)
    (j : ℕ) : List F :=
  if j = 0 then tab P.flp.measLen fun k => coef meas k -
    ∑ i ∈ range (P.shares - 1), coef (okVal (Spec.measShare (runWith P T) ctx (i + 1) (sdAt P rand (i + 1)))) k
  else okVal (Spec.measShare (runWith P T) ctx j (sdAt P rand j))

/-- The measurement share that Aggregator `j` computes for `ctx'` -/
def mcAt (P : Prio3 (XofTurboShake128 prims fuel) F Meas Agg) (T : Bytes → ℕ → UInt8) (meas : List F) (rand ctx ctx' : Bytes)
    (j : ℕ) : List F :=
  if j = 0 then msAt P T meas rand ctx 0 else msAt P T meas rand ctx' j

/-- The Client's part of the joint randomness for Aggregator `j` -/
def ptAt (P : Prio3 (XofTurboShake128 prims fuel) F Meas Agg) (T : Bytes → ℕ → UInt8) (meas : List F)
    (rand ctx nonce : Bytes) (j : ℕ) : Bytes :=
  headOf T (partPos P ctx j (blAt P rand j) (msAt P T meas rand ctx j) nonce)

/-- The part of the joint randomness that Aggregator `j` computes -/
def pcAt (P : Prio3 (XofTurboShake128 prims fuel) F Meas Agg) (T : Bytes → ℕ → UInt8) (meas : List F)
    (rand ctx ctx' nonce' : Bytes) (j : ℕ) : Bytes :=
  headOf T (partPos P ctx' j (blAt P rand j) (mcAt P T meas rand ctx ctx' j) nonce')

section
variable (W : P.WF) {ctx ctx' : Bytes} (hctx : ctx.length + 8 < 2 ^ 16) (hctx' : ctx'.length + 8 < 2 ^ 16)
  (hj0 : 0 < P.flp.jointRandLen) {m : Meas} {meas : List F}
    (he : P.flp.encode m = .ok meas) (hmeas : meas.length = P.flp.measLen) {nonce nonce' rand : Bytes} (hn : nonce.length = 16)
    (hr : rand.length = P.randSize)

omit hctx hctx' he hmeas hn in
include W hj0 hr in
theorem seeds_length : (∀ j, j ≠ 0 → j < P.shares → (sdAt P rand j).length = 32) ∧ ∀ j < P.shares, (blAt P rand j).length = 32 := by
  have hns : P.numSeeds = P.shares + P.shares := by unfold numSeeds; rw [if_pos hj0]
  have hN := W.shares_ge
  have key : ∀ i < P.numSeeds, (Spec.seedAt P rand i).length = 32 := fun i hi => chunks_length hr hi
  constructor
  · intro j h0 hj
    exact key _ (by omega)
  · intro j hj
    unfold blAt
    split
    · exact key _ (by omega)
    · exact key _ (by omega)

include W hctx hj0 he hmeas hn hr in
/-- The report of an honest Client -/
theorem report_data {pub : Option (List Bytes)} {l : List (Prio3InputShare F)}
    (h : (runWith P T).shard ctx m nonce rand = .ok (pub, l)) :
    pub = some (tab P.shares (ptAt P T meas rand ctx nonce)) ∧
    (∃ ps, l[0]? = some (.leader (msAt P T meas rand ctx 0) ps (some (blAt P rand 0)))) ∧
    ∀ j, j ≠ 0 → j < P.shares → l[j]? = some (.helper (sdAt P rand j) (some (blAt P rand j))) := by
  have hg := shard_good (W.runWith T) hctx he hmeas hn hr
  rw [h] at hg
  obtain ⟨ms, ps, bl, prs, jrs, π, S, h2, -, h4⟩ := hg
  have hN := W.shares_ge
  have hbl := (seeds_length (rand := rand) W hj0 hr).2
  have hl : ∀ j, j ≠ 0 → j < P.shares → l[j]? = some (.helper (sdAt P rand j) (some (blAt P rand j))) := by
    intro j h0 hj
    have h3 : l[j]? = (Spec.helperShares (runWith P T) rand)[j - 1]? := by
      rw [← h2]
      simp only [List.getElem?_drop]
      congr 1
      omega
    rw [h3]
    unfold Spec.helperShares
    rw [List.getElem?_map, List.getElem?_range (show j - 1 < (runWith P T).shares - 1 by show j - 1 < P.shares - 1; omega)]
    simp only [Option.map_some]
    rw [if_pos (show 0 < (runWith P T).flp.jointRandLen from hj0)]
    unfold sdAt blAt
    rw [if_neg h0]
    rfl
  have hms : ∀ j, j ≠ 0 → j < P.shares → Spec.measShare (runWith P T) ctx j (sdAt P rand j) = .ok (ms j) ∧
      bl j = some (blAt P rand j) := by
    intro j h0 hj
    obtain ⟨s, e1, e2⟩ := S.expand j hj
    have e1' : l[j]? = some s := e1
    rw [hl j h0 hj] at e1'
    cases e1'
    rcases expandInputShare_ok e2 with ⟨k, -⟩ | ⟨-, s, e, k1, -⟩
    · exact absurd k h0
    · injection e with e1 e2
      subst e1
      exact ⟨k1, e2.symm⟩
  have hb0 : bl 0 = some (blAt P rand 0) := by
    have := h4 hj0
    unfold blAt
    rw [if_pos rfl]
    exact this
  have hms' : ∀ j < P.shares, ms j = msAt P T meas rand ctx j := by
    intro j hj
    unfold msAt
    by_cases h0 : j = 0
    · subst h0
      rw [if_pos rfl]
      have h5 := S.measSum
      rw [isSum_iff] at h5
      have hl0 : (ms 0).length = P.flp.measLen := by rw [h5.1 ⟨0, hj⟩, hmeas]
      rw [eq_tab hl0]
      apply tab_congr
      intro k _
      have h6 := h5.2 k
      have h7 : ∑ i : Fin (runWith P T).shares, coef (ms i) k = ∑ i ∈ range (P.shares - 1 + 1), coef (ms i) k := by
        rw [Nat.sub_add_cancel (by omega)]
        exact Fin.sum_univ_eq_sum_range (fun i => coef (ms i) k) P.shares
      rw [h7, sum_range_succ'] at h6
      rw [h6]
      have h8 : ∑ i ∈ range (P.shares - 1), coef (okVal (Spec.measShare (runWith P T) ctx (i + 1) (sdAt P rand (i + 1)))) k =
          ∑ i ∈ range (P.shares - 1), coef (ms (i + 1)) k := by
        refine sum_congr rfl fun i hi => ?_
        rw [(hms (i + 1) (by omega) (by have := mem_range.1 hi; omega)).1]
        rfl
      rw [h8]
      ring
    · rw [if_neg h0, (hms j h0 hj).1]
      rfl
  have hblj : ∀ j < P.shares, bl j = some (blAt P rand j) := by
    intro j hj
    by_cases h0 : j = 0
    · subst h0; exact hb0
    · exact (hms j h0 hj).2
  refine ⟨?_, ?_, hl⟩
  · rcases S.joint with ⟨k, -⟩ | ⟨-, parts, b, seed, k1, k2, -⟩
    · exact absurd k (by show ¬ P.flp.jointRandLen = 0; omega)
    · have k1' : pub = some (tab P.shares parts) := k1
      rw [k1']
      congr 1
      apply tab_congr
      intro j hj
      obtain ⟨a1, a2, a3, -⟩ := k2 j hj
      rw [hblj j hj] at a1
      have a1 := Option.some.inj a1
      rw [← a1] at a3
      have a3 := (jointRandPart_ok.1 a3).2.2
      rw [jointRandPart_head hctx (by rw [hbl j hj]; norm_num), hms' j hj] at a3
      exact (Except.ok.inj a3).symm
  · obtain ⟨s, e1, e2⟩ := S.expand 0 (by show 0 < P.shares; omega)
    rcases expandInputShare_ok e2 with ⟨-, k⟩ | ⟨k, -⟩
    · refine ⟨ps 0, ?_⟩
      have e1' : l[0]? = some s := e1
      rw [e1', k, hms' 0 (by omega), hb0]
    · omega

include W hctx hctx' hj0 he hmeas hn hr in
/-- If the report is accepted, the seed of the joint randomness of the first Aggregator is that of all of them. -/
theorem accept_data {vk : Bytes} {o : List (List F)}
    (h : crossOutShares (runWith P T).vdaf vk () m rand ctx nonce ctx' nonce' = .ok o) :
    headOf T (seedPos P ctx' ((tab P.shares (ptAt P T meas rand ctx nonce)).set 0 (pcAt P T meas rand ctx ctx' nonce' 0))) =
      headOf T (seedPos P ctx' (tab P.shares (pcAt P T meas rand ctx ctx' nonce'))) ∧
    ∀ j < P.shares, (mcAt P T meas rand ctx ctx' j).length = P.flp.measLen := by
  unfold crossOutShares at h
  obtain ⟨⟨pub, l⟩, h1, h2⟩ := Except.bind_eq_ok.1 h
  obtain ⟨rfl, ⟨ps0, hl0⟩, hl⟩ := report_data W hctx hj0 he hmeas hn hr h1
  obtain ⟨ish, st, sh, msg, g1, g2, -⟩ := WireGame.prio3_broadcast.1 h2
  have hN := W.shares_ge
  have hbl := (seeds_length (rand := rand) W hj0 hr).2
  obtain ⟨ms, ps, bl, jrs, qrs, a1, a2, a3, a4⟩ := joint_of_success (by show 0 < P.shares; omega) g2
  have hmc : ∀ j < P.shares, ms j = mcAt P T meas rand ctx ctx' j ∧ bl j = some (blAt P rand j) ∧
      (ms j).length = P.flp.measLen := by
    intro j hj
    have b1 := a1 j hj
    have b2 := g1 j hj
    unfold mcAt
    by_cases h0 : j = 0
    · subst h0
      rw [hl0] at b2
      rw [if_pos rfl]
      rcases expandInputShare_ok b1 with ⟨-, k⟩ | ⟨k, -⟩
      · rw [← Option.some.inj b2] at k
        injection k with k1 _ k3
        refine ⟨k1.symm, k3.symm, ?_⟩
        rw [← k1]
        unfold msAt
        rw [if_pos rfl]
        simp
      · omega
    · rw [hl j h0 hj] at b2
      rw [if_neg h0]
      rcases expandInputShare_ok b1 with ⟨k, -⟩ | ⟨-, s, k, k1, -⟩
      · exact absurd k h0
      · rw [← Option.some.inj b2] at k
        injection k with k2 k3
        subst k2
        refine ⟨?_, k3.symm, expandIntoVec_length k1⟩
        unfold msAt
        rw [if_neg h0, k1]
        rfl
  rcases a2 with ⟨k, -⟩ | ⟨-, b, parts, s, rfl, k1, k2, -⟩
  · exact absurd k (by show ¬ P.flp.jointRandLen = 0; omega)
  have hparts : ∀ j < P.shares, parts j = pcAt P T meas rand ctx ctx' nonce' j := by
    intro j hj
    obtain ⟨b1, b2⟩ := k1 j hj
    rw [(hmc j hj).2.1] at b1
    have b1 := Option.some.inj b1
    rw [← b1] at b2
    have b3 := (jointRandPart_ok.1 b2).2.2
    rw [jointRandPart_head hctx' (by rw [hbl j hj]; norm_num), (hmc j hj).1] at b3
    exact (Except.ok.inj b3).symm
  refine ⟨?_, fun j hj => by rw [← (hmc j hj).1]; exact (hmc j hj).2.2⟩
  have h5 : s = headOf T (seedPos P ctx' (tab P.shares (pcAt P T meas rand ctx ctx' nonce'))) := by
    have g1 := (jointRandSeed_ok.1 k2).2
    rw [jointRandSeed_head hctx'] at g1
    rw [← Except.ok.inj g1]
    congr 2
    exact List.map_congr_left fun j hj => hparts j (List.mem_range.1 hj)
  rw [← h5]
  have h0 : 0 < P.shares := by omega
  have this := g2.1 0 h0
  have hst := (a4 0 h0).1
  unfold verifyInit at this
  obtain ⟨⟨ms', ps', bl'⟩, e1, this⟩ := Except.bind_eq_ok.1 this
  obtain ⟨o, e2, this⟩ := Except.bind_eq_ok.1 this
  obtain ⟨⟨jrs', c, p⟩, e3, this⟩ := Except.bind_eq_ok.1 this
  obtain ⟨qrs', e4, this⟩ := Except.bind_eq_ok.1 this
  obtain ⟨w, e5, this⟩ := Except.bind_eq_ok.1 this
  have h8 : st 0 = (o, c) := (congrArg Prod.fst (Except.ok.inj this)).symm
  rw [h8] at hst
  rw [a1 0 h0] at e1
  simp only [Except.ok.injEq, Prod.mk.injEq] at e1
  obtain ⟨rfl, rfl, rfl⟩ := e1
  unfold verifyJointRand at e3
  rw [if_pos (show (runWith P T).flp.jointRandLen > 0 from hj0), (hmc 0 h0).2.1] at e3
  dsimp only at e3
  obtain ⟨p1, f1, e3⟩ := Except.bind_eq_ok.1 e3
  obtain ⟨a2, f2, e3⟩ := Except.bind_eq_ok.1 e3
  obtain ⟨a3, f3, e3⟩ := Except.bind_eq_ok.1 e3
  obtain ⟨a4, f4, e3⟩ := Except.bind_eq_ok.1 e3
  have h9 : some a3 = c := congrArg (fun x => x.2.1) (Except.ok.inj e3)
  have h10 : a3 = s := Option.some.inj (h9.trans hst)
  subst h10
  have hp1 : p1 = pcAt P T meas rand ctx ctx' nonce' 0 := by
    have b3 := (jointRandPart_ok.1 f1).2.2
    rw [jointRandPart_head hctx' (by rw [hbl 0 h0]; norm_num), (hmc 0 h0).1] at b3
    exact (Except.ok.inj b3).symm
  subst hp1
  have f3 := (jointRandSeed_ok.1 f3).2
  rw [jointRandSeed_head hctx'] at f3
  have f2' : a2 = (tab P.shares (ptAt P T meas rand ctx nonce)).set 0 (pcAt P T meas rand ctx ctx' nonce' 0) := by
    unfold setI at f2
    split at f2
    · exact (Except.ok.inj f2).symm
    · cases f2
  rw [← f2']
  exact Except.ok.inj f3

end

/-- Changing the oracle at an input with the tag for `u` does not change it at inputs with other tags. -/
theorem glue_tag (W : P.WF) {S : Set Bytes} [DecidableEq S] {N : ℕ} (f : S → Fin N → UInt8) (m0 : S) (y : Fin N → UInt8)
    {s0 b0 c0 : Bytes} {u0 : ℕ} (hu0 : u0 < 2 ^ 16) (hs0 : s0.length < 2 ^ 8) (hc0 : c0.length + 8 < 2 ^ 16)
    (hm : (m0 : Bytes) = turboInput s0 (tag P.id u0 c0) b0) {u : ℕ} (hu : u < 2 ^ 16) {s b c : Bytes} (hs : s.length < 2 ^ 8)
    (hc : c.length + 8 < 2 ^ 16) (hne : u ≠ u0 ∨ c ≠ c0 ∨ b ≠ b0) :
    glue prims S (Function.update f m0 y) (turboInput s (tag P.id u c) b) = glue prims S f (turboInput s (tag P.id u c) b) := by
  refine glue_upd f m0 y fun he => ?_
  rw [hm] at he
  obtain ⟨-, h2, h3⟩ := turboInput_inj (by rw [tag_length]; omega) (by rw [tag_length]; omega) hs hs0 he
  obtain ⟨h4, h5⟩ := tag_inj W.id hu hu0 h2
  rcases hne with h | h | h
  · exact h h4
  · exact h h5
  · exact h h3

section
variable (W : P.WF) {ctx ctx' : Bytes} (hctx : ctx.length + 8 < 2 ^ 16) (hctx' : ctx'.length + 8 < 2 ^ 16)
  {meas : List F} {rand nonce nonce' : Bytes} {S : Set Bytes} [DecidableEq S] {N : ℕ} (f : S → Fin N → UInt8) (m0 : S)
  (y : Fin N → UInt8) {s0 b0 c0 : Bytes} {u0 : ℕ} (hu0 : u0 < 2 ^ 16) (hs0 : s0.length < 2 ^ 8) (hc0 : c0.length + 8 < 2 ^ 16)
  (hm : (m0 : Bytes) = turboInput s0 (tag P.id u0 c0) b0)
include W hu0 hs0 hc0 hm

include hctx in
theorem msAt_update (h1 : u0 ≠ 1) (j : ℕ) : msAt P (glue prims S (Function.update f m0 y)) meas rand ctx j =
    msAt P (glue prims S f) meas rand ctx j := by
  have key : ∀ j s, Spec.measShare (runWith P (glue prims S (Function.update f m0 y))) ctx j s =
      Spec.measShare (runWith P (glue prims S f)) ctx j s := fun j s =>
    expandIntoVec_congr fun hs => glue_tag W f m0 y hu0 hs0 hc0 hm (by norm_num) hs hctx (.inl h1.symm)
  unfold msAt
  simp only [key]

include hctx hctx' in
theorem mcAt_update (h1 : u0 ≠ 1) (j : ℕ) : mcAt P (glue prims S (Function.update f m0 y)) meas rand ctx ctx' j =
    mcAt P (glue prims S f) meas rand ctx ctx' j := by
  unfold mcAt
  rw [msAt_update W hctx f m0 y hu0 hs0 hc0 hm h1, msAt_update W hctx' f m0 y hu0 hs0 hc0 hm h1]

include hctx in
theorem ptAt_update (h1 : u0 ≠ 1) (h7 : u0 ≠ 7) {j : ℕ} (hb : (blAt P rand j).length = 32) :
    ptAt P (glue prims S (Function.update f m0 y)) meas rand ctx nonce j = ptAt P (glue prims S f) meas rand ctx nonce j := by
  unfold ptAt
  rw [msAt_update W hctx f m0 y hu0 hs0 hc0 hm h1]
  exact headOf_congr (glue_tag W f m0 y hu0 hs0 hc0 hm (by norm_num) (by rw [hb]; norm_num) hctx (.inl h7.symm))

include hctx hctx' in
theorem pcAt_update (h1 : u0 ≠ 1) (h7 : u0 ≠ 7) {j : ℕ} (hb : (blAt P rand j).length = 32) :
    pcAt P (glue prims S (Function.update f m0 y)) meas rand ctx ctx' nonce' j =
      pcAt P (glue prims S f) meas rand ctx ctx' nonce' j := by
  unfold pcAt
  rw [mcAt_update W hctx hctx' f m0 y hu0 hs0 hc0 hm h1]
  exact headOf_congr (glue_tag W f m0 y hu0 hs0 hc0 hm (by norm_num) (by rw [hb]; norm_num) hctx' (.inl h7.symm))

end

/-- A report for one application context and nonce is hardly ever accepted for others. -/
theorem joint_bound (W : P.WF) (hj0 : 0 < P.flp.jointRandLen) {ctx ctx' vk nonce nonce' rand : Bytes}
    (hctx : ctx.length + 8 < 2 ^ 16) (hctx' : ctx'.length + 8 < 2 ^ 16) (hne : (ctx, nonce) ≠ (ctx', nonce'))
    {m : Meas} {meas : List F} (he : P.flp.encode m = .ok meas) (hmeas : meas.length = P.flp.measLen)
    (hn : nonce.length = 16) (hn' : nonce'.length = 16) (hr : rand.length = P.randSize) {S : Set Bytes} [Finite S]
    (hS : oracleInputs P vk ctx' ⊆ S) {N : ℕ} (hN : 32 ≤ N) :
    Spec.crossProbability (fun O => (runWith P O).vdaf) prims vk () m rand ctx nonce ctx' nonce' S N ≤ 2 / 2 ^ 256 := by
  classical
  have : Fintype S := Fintype.ofFinite S
  have hbl := (seeds_length (rand := rand) W hj0 hr).2
  have h1s : 1 < P.shares := by have := W.shares_ge; omega
  have hall : Set.ncard (Spec.oracles prims S N) = Fintype.card (S → Fin N → UInt8) := by
    have := ncard_glue prims S (N := N) fun _ => True
    simpa [Set.ncard_univ] using this
  unfold Spec.crossProbability
  rw [hall, ncard_glue prims S fun O => ∃ outs, crossOutShares (runWith P O).vdaf vk () m rand ctx nonce ctx' nonce' = .ok outs]
  rw [div_le_iff₀ (by exact_mod_cast Fintype.card_pos)]
  -- two parts collide
  have hA := pair_bound (prims := prims) (S := S) hN
    (fun f m => (m : Bytes) = partPos P ctx' 1 (blAt P rand 1) (mcAt P (glue prims S f) meas rand ctx ctx' 1) nonce')
    (fun f h => h = ptAt P (glue prims S f) meas rand ctx nonce 1)
    (fun f m m' h h' => Subtype.ext (h.trans h'.symm))
    (fun f m y h => by
      rw [mcAt_update W hctx hctx' f m y (by norm_num) (by rw [hbl 1 h1s]; norm_num) hctx' h (by norm_num)]
      exact h)
    (fun f h h' e e' => e.trans e'.symm)
    (fun f m y h hm e => by
      rw [e]
      unfold ptAt
      rw [msAt_update W hctx f m y (by norm_num) (by rw [hbl 1 h1s]; norm_num) hctx' hm (by norm_num)]
      refine headOf_congr (glue_tag W f m y (by norm_num) (by rw [hbl 1 h1s]; norm_num) hctx' hm (by norm_num)
        (by rw [hbl 1 h1s]; norm_num) hctx (.inr ?_))
      by_cases hc : ctx = ctx'
      · right
        intro hb
        obtain ⟨-, h5⟩ := List.cons.inj hb
        obtain ⟨h6, -⟩ := List.append_inj h5 (by rw [hn, hn'])
        exact hne (by rw [hc, h6])
      · exact .inl hc)
  -- two seeds collide
  have hB := pair_bound (prims := prims) (S := S) hN
    (fun f m => (m : Bytes) = seedPos P ctx' (tab P.shares (pcAt P (glue prims S f) meas rand ctx ctx' nonce')) ∧
      (tab P.shares (pcAt P (glue prims S f) meas rand ctx ctx' nonce')).flatten ≠
        ((tab P.shares (ptAt P (glue prims S f) meas rand ctx nonce)).set 0
          (pcAt P (glue prims S f) meas rand ctx ctx' nonce' 0)).flatten)
    (fun f h => h = headOf (glue prims S f) (seedPos P ctx' ((tab P.shares (ptAt P (glue prims S f) meas rand ctx nonce)).set 0
          (pcAt P (glue prims S f) meas rand ctx ctx' nonce' 0))))
    (fun f m m' h h' => Subtype.ext (h.1.trans h'.1.symm))
    (fun f m y h => by
      have e1 : tab P.shares (pcAt P (glue prims S (Function.update f m y)) meas rand ctx ctx' nonce') =
          tab P.shares (pcAt P (glue prims S f) meas rand ctx ctx' nonce') := tab_congr fun j hj =>
        pcAt_update W hctx hctx' f m y (by norm_num) (by simp) hctx' h.1 (by norm_num) (by norm_num) (hbl j hj)
      have e2 : tab P.shares (ptAt P (glue prims S (Function.update f m y)) meas rand ctx nonce) =
          tab P.shares (ptAt P (glue prims S f) meas rand ctx nonce) := tab_congr fun j hj =>
        ptAt_update W hctx f m y (by norm_num) (by simp) hctx' h.1 (by norm_num) (by norm_num) (hbl j hj)
      rw [e1, e2, pcAt_update W hctx hctx' f m y (by norm_num) (by simp) hctx' h.1 (by norm_num) (by norm_num)
        (hbl 0 (by omega))]
      exact h)
    (fun f h h' e e' => e.trans e'.symm)
    (fun f m y h hm e => by
      have e2 : tab P.shares (ptAt P (glue prims S (Function.update f m y)) meas rand ctx nonce) =
          tab P.shares (ptAt P (glue prims S f) meas rand ctx nonce) := tab_congr fun j hj =>
        ptAt_update W hctx f m y (by norm_num) (by simp) hctx' hm.1 (by norm_num) (by norm_num) (hbl j hj)
      rw [e, e2, pcAt_update W hctx hctx' f m y (by norm_num) (by simp) hctx' hm.1 (by norm_num) (by norm_num)
        (hbl 0 (by omega))]
      exact headOf_congr (glue_tag W f m y (by norm_num) (by simp) hctx' hm.1 (by norm_num) (by simp) hctx'
        (.inr (.inr fun h => hm.2 h.symm))))
  refine le_trans ?_ (le_trans (add_le_add hA hB) (le_of_eq (by ring)))
  rw [← Nat.cast_add]
  refine Nat.cast_le.2 (le_trans (Set.ncard_le_ncard ?_ (Set.toFinite _)) (Set.ncard_union_le _ _))
  rintro f ⟨o, ho⟩
  obtain ⟨h1, h2⟩ := accept_data W hctx hctx' hj0 he hmeas hn hr ho
  have hpc : ∀ j, (pcAt P (glue prims S f) meas rand ctx ctx' nonce' j).length = 32 := fun j => headOf_length _
  have hpt : ∀ j, (ptAt P (glue prims S f) meas rand ctx nonce j).length = 32 := fun j => headOf_length _
  by_cases hf : (tab P.shares (pcAt P (glue prims S f) meas rand ctx ctx' nonce')).flatten =
      ((tab P.shares (ptAt P (glue prims S f) meas rand ctx nonce)).set 0
        (pcAt P (glue prims S f) meas rand ctx ctx' nonce' 0)).flatten
  · left
    have h3 := flatten_inj (n := 32) (by simp) (by
      intro p hp
      obtain ⟨j, -, rfl⟩ := List.mem_map.1 hp
      exact hpc j) (by
      intro p hp
      rcases List.mem_or_eq_of_mem_set hp with h | rfl
      · obtain ⟨j, -, rfl⟩ := List.mem_map.1 h
        exact hpt j
      · exact hpc 0) hf
    have h4 := congrArg (fun l : List Bytes => l[1]?) h3
    have h5 : pcAt P (glue prims S f) meas rand ctx ctx' nonce' 1 = ptAt P (glue prims S f) meas rand ctx nonce 1 := by
      simpa [tab, h1s] using h4
    refine ⟨⟨partPos P ctx' 1 (blAt P rand 1) (mcAt P (glue prims S f) meas rand ctx ctx' 1) nonce', hS (R7_inputs
      ⟨1, _, _, _, h1s, hbl 1 h1s, h2 1 h1s, hn', rfl⟩)⟩, rfl, h5⟩
  · right
    refine ⟨⟨seedPos P ctx' (tab P.shares (pcAt P (glue prims S f) meas rand ctx ctx' nonce')), hS (R6_inputs
      ⟨_, by simp, ?_, rfl⟩)⟩, ⟨rfl, hf⟩, h1.symm⟩
    intro p hp
    obtain ⟨j, -, rfl⟩ := List.mem_map.1 hp
    exact hpc j

end Prio3
end Vdaf
