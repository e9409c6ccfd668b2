import Verif.Proofs.FewProofs
import Verif.Proofs.PingPongRobustPrio3
import Verif.Proofs.RomPair
import Verif.Spec.Binding

/-! A report of Prio3 that is presented for another application context. -/

set_option linter.unusedSectionVars false

namespace Vdaf
open Finset
open Spec (tag runWith withOracle commitment measShares seedOf crossOutShares broadcast firstProofInput)

attribute [local instance] bytesFintype

namespace Prio3
variable {F : Type} [NttField F] {Meas Agg : Type}

section
variable {X : Xof} {P : Prio3 X F Meas Agg}

/-- The proof shares of the first Helper with which a proof passes -/
def FirstPass (P : Prio3 X F Meas Agg) (ms q : ℕ → List F) (qr jr : List F) : Set (Fin P.proofLen → F) :=
  {π | ∃ (vs : ℕ → List F) (v : List F),
    (∀ j < P.shares, P.flp.query (ms j) (if j = 1 then List.ofFn π else q j) qr jr P.shares = .ok (vs j)) ∧
    Spec.IsSum (fun j : Fin P.shares => vs j) v ∧ P.flp.decide v = .ok true}

theorem firstPass_card (W : P.WF) (h0 : P.flp.gadgets ≠ []) (ms q : ℕ → List F) (qr jr : List F) :
    (P.FirstPass ms q qr jr).ncard * Fintype.card F ≤ Fintype.card F ^ P.proofLen := by
  classical
  have hL : P.proofLen = P.flp.off P.flp.num := Except.ok.inj (W.proofLen.symm.trans W.lawful.proofLen_eq)
  have hn : 0 < P.flp.num := List.length_pos_iff.2 h0
  have hN := W.shares_ge
  by_cases hne : (P.FirstPass ms q qr jr).Nonempty
  · obtain ⟨π0, vs0, v0, h1, h2, h3⟩ := hne
    have hlen := fun j hj => query_ok_len W (by omega) W.modulus (h1 j hj)
    have hms : Spec.IsSum (fun j : Fin P.shares => ms j) _ := isSum_range fun j hj => (hlen j hj).1
    have key := W.lawful.few_proofs hn (W.lawful.deg_pos 0 hn) (qr := qr) (jr := jr)
      (meas := tab P.flp.measLen fun k => ∑ j ∈ range P.shares, coef (ms j) k) (by simp)
      (hlen 0 (by omega)).2.2.1 (hlen 0 (by omega)).2.2.2.1
    rw [← hL] at key
    refine le_trans (Nat.mul_le_mul_right _ ?_) key
    refine Set.ncard_le_ncard_of_injOn (fun π k => ∑ j ∈ range P.shares, coef (if j = 1 then List.ofFn π else q j) k) ?_ ?_
      (Set.toFinite _)
    · rintro π ⟨vs, v, g1, g2, g3⟩
      have glen := fun j hj => query_ok_len W (by omega) W.modulus (g1 j hj)
      have hπs : Spec.IsSum (fun j : Fin P.shares => if (j : ℕ) = 1 then List.ofFn π else q j) _ :=
        isSum_range (w := fun j => if j = 1 then List.ofFn π else q j) fun j hj => (glen j hj).2.1
      have he : (List.ofFn fun k : Fin P.proofLen => ∑ j ∈ range P.shares, coef (if j = 1 then List.ofFn π else q j) k) =
          tab P.proofLen fun k => ∑ j ∈ range P.shares, coef (if j = 1 then List.ofFn π else q j) k := by
        exact List.ext_getElem (by simp [tab]) fun k _ _ => by simp [tab]
      rcases W.lawful.query_sum (by omega) W.modulus hms hπs (by simp) (by simp [hL]) (hlen 0 (by omega)).2.2.1
        (hlen 0 (by omega)).2.2.2.1 with ⟨-, hb⟩ | ⟨v', vs', e1, e2, e3⟩
      · have := hb ⟨0, by omega⟩
        rw [g1 0 (by omega)] at this
        cases this
      · have hv : (fun j : Fin P.shares => vs j) = vs' := by
          funext j
          exact Except.ok.inj ((g1 j j.2).symm.trans (e2 j))
        rw [← hv] at e3
        have hvv : v' = v := IsSum.unique e3 g2 (by rw [← e3.1 ⟨0, by omega⟩, ← g2.1 ⟨0, by omega⟩])
        subst hvv
        refine ⟨v', ?_, g3⟩
        rw [he]
        exact e1
    · intro π _ π' _ he
      funext k
      have := congrFun he k
      dsimp only at this
      have hs : ∀ π : Fin P.proofLen → F, ∑ j ∈ range P.shares, coef (if j = 1 then List.ofFn π else q j) k =
          π k + ∑ j ∈ (range P.shares).erase 1, coef (q j) k := by
        intro π
        rw [← Finset.add_sum_erase _ _ (mem_range.2 (by omega : 1 < P.shares))]
        congr 1
        · rw [if_pos rfl]
          simp [coef]
        · refine sum_congr rfl fun j hj => ?_
          rw [if_neg (Finset.ne_of_mem_erase hj)]
      rw [hs, hs] at this
      exact add_right_cancel this
  · rw [Set.not_nonempty_iff_eq_empty] at hne
    rw [hne]
    simp

end

variable {prims : Prims} {fuel : ℕ} {P : Prio3 (XofTurboShake128 prims fuel) F Meas Agg} {T T' : Bytes → ℕ → UInt8}

theorem tag_inj {id u u' : ℕ} {ctx ctx' : Bytes} (hid : id < 2 ^ 32) (hu : u < 2 ^ 16) (hu' : u' < 2 ^ 16)
    (h : tag id u ctx = tag id u' ctx') : u = u' ∧ ctx = ctx' := by
  have a := (tag_ok_iff (ctx := ctx)).2 ⟨hid, hu, rfl⟩
  have b := (tag_ok_iff (ctx := ctx')).2 ⟨hid, hu', rfl⟩
  unfold domainSeparationTag at a b
  obtain ⟨t, e1, e2⟩ := Except.bind_eq_ok.1 a
  obtain ⟨t', e3, e4⟩ := Except.bind_eq_ok.1 b
  exact (formatDst_inj e1 e3 ((Except.ok.inj e2).trans (h.trans (Except.ok.inj e4).symm))).2.2

/-- The oracles agree for this application context. -/
def Agree (P : Prio3 (XofTurboShake128 prims fuel) F Meas Agg) (ctx : Bytes) (T T' : Bytes → ℕ → UInt8) : Prop :=
  ∀ u s b, u < 2 ^ 16 → s.length < 2 ^ 8 → T' (turboInput s (tag P.id u ctx) b) = T (turboInput s (tag P.id u ctx) b)

section
variable {ctx : Bytes} (A : Agree P ctx T T')
include A

theorem Agree.expand {u : ℕ} (hu : u < 2 ^ 16) (s b : Bytes) (n : ℕ) :
    ((do
      let d ← domainSeparationTag P.id u ctx
      (XofTurboShake128 (withOracle prims T') fuel).expandIntoVec F s d b n) : Res (List F)) = (do
      let d ← domainSeparationTag P.id u ctx
      (XofTurboShake128 (withOracle prims T) fuel).expandIntoVec F s d b n) := by
  cases hd : domainSeparationTag P.id u ctx with
  | error e => rfl
  | ok d =>
    obtain ⟨-, -, rfl⟩ := tag_ok_iff.1 hd
    exact expandIntoVec_congr fun hs => A u s b hu hs

theorem Agree.derive {u : ℕ} (hu : u < 2 ^ 16) (s b : Bytes) :
    ((do
      let d ← domainSeparationTag P.id u ctx
      (XofTurboShake128 (withOracle prims T') fuel).deriveSeed s d b) : Res Bytes) = (do
      let d ← domainSeparationTag P.id u ctx
      (XofTurboShake128 (withOracle prims T) fuel).deriveSeed s d b) := by
  cases hd : domainSeparationTag P.id u ctx with
  | error e => rfl
  | ok d =>
    obtain ⟨-, -, rfl⟩ := tag_ok_iff.1 hd
    exact deriveSeed_congr fun hs => A u s b hu hs

theorem Agree.helperMeasShare (j : ℕ) (s : Bytes) :
    (runWith P T').helperMeasShare ctx j s = (runWith P T).helperMeasShare ctx j s := by
  unfold Prio3.helperMeasShare
  cases hb : byte j with
  | error e => rfl
  | ok b => exact A.expand (by norm_num [USAGE_MEAS_SHARE]) s b _

theorem Agree.helperProofsShare (j : ℕ) (s : Bytes) :
    (runWith P T').helperProofsShare ctx j s = (runWith P T).helperProofsShare ctx j s := by
  unfold Prio3.helperProofsShare
  rw [show (runWith P T').proofs = P.proofs from rfl, show (runWith P T).proofs = P.proofs from rfl]
  cases hp : byte P.proofs with
  | error e => rfl
  | ok p =>
    cases hb : byte j with
    | error e => rfl
    | ok b => exact A.expand (by norm_num [USAGE_PROOF_SHARE]) s (p ++ b) _

theorem Agree.proveRands (s : Bytes) : (runWith P T').proveRands ctx s = (runWith P T).proveRands ctx s := by
  unfold Prio3.proveRands
  rw [show (runWith P T').proofs = P.proofs from rfl, show (runWith P T).proofs = P.proofs from rfl]
  cases hp : byte P.proofs with
  | error e => rfl
  | ok p => exact A.expand (by norm_num [USAGE_PROVE_RANDOMNESS]) s p _

theorem Agree.jointRands (s : Bytes) : (runWith P T').jointRands ctx s = (runWith P T).jointRands ctx s := by
  unfold Prio3.jointRands
  rw [show (runWith P T').proofs = P.proofs from rfl, show (runWith P T).proofs = P.proofs from rfl]
  cases hp : byte P.proofs with
  | error e => rfl
  | ok p => exact A.expand (by norm_num [USAGE_JOINT_RANDOMNESS]) s p _

theorem Agree.jointRandPart (j : ℕ) (s : Bytes) (ms : List F) (nonce : Bytes) :
    (runWith P T').jointRandPart ctx j s ms nonce = (runWith P T).jointRandPart ctx j s ms nonce := by
  unfold Prio3.jointRandPart
  cases hb : byte j with
  | error e => rfl
  | ok b =>
    cases he : encodeVec ms with
    | error e => rfl
    | ok e => exact A.derive (by norm_num [USAGE_JOINT_RAND_PART]) s _

theorem Agree.jointRandSeed (parts : List Bytes) :
    (runWith P T').jointRandSeed ctx parts = (runWith P T).jointRandSeed ctx parts := by
  unfold Prio3.jointRandSeed
  exact A.derive (by norm_num [USAGE_JOINT_RAND_SEED]) _ _

/-- The Client makes the same report. -/
theorem Agree.shard (m : Meas) (nonce rand : Bytes) :
    (runWith P T').shard ctx m nonce rand = (runWith P T).shard ctx m nonce rand := by
  unfold Prio3.shard Prio3.shardWithJointRand Prio3.shardWithoutJointRand Prio3.subHelperProofs
  simp only [A.helperMeasShare, A.helperProofsShare, A.proveRands, A.jointRands, A.jointRandPart, A.jointRandSeed]
  rfl

end

/-- The oracles agree, except at the input for the proof share of the first Helper. -/
structure Off (P : Prio3 (XofTurboShake128 prims fuel) F Meas Agg) (s0 ctx : Bytes) (T T' : Bytes → ℕ → UInt8) : Prop where
  agree : ∀ m, m ≠ turboInput s0 (tag P.id 2 ctx) [UInt8.ofNat P.proofs, 1] → T' m = T m
  size : s0.length = 32

section
variable (W : P.WF) {ctx s0 : Bytes} (hctx : ctx.length + 8 < 2 ^ 16) (A : Off P s0 ctx T T')
include W hctx A

theorem Off.other {ctx' : Bytes} (hctx' : ctx'.length + 8 < 2 ^ 16) (h : ctx' ≠ ctx) : Agree P ctx' T T' := by
  intro u s b hu hs
  apply A.agree
  intro he
  obtain ⟨-, h2, -⟩ := turboInput_inj (by rw [tag_length]; omega) (by rw [tag_length]; omega) hs
    (by rw [A.size]; norm_num) he
  exact h (tag_inj W.id hu (by norm_num) h2).2

theorem Off.usage {u : ℕ} (hu : u < 2 ^ 16) (h2 : u ≠ 2) {s b : Bytes} (hs : s.length < 2 ^ 8) :
    T' (turboInput s (tag P.id u ctx) b) = T (turboInput s (tag P.id u ctx) b) := by
  apply A.agree
  intro he
  obtain ⟨-, h3, -⟩ := turboInput_inj (by rw [tag_length]; omega) (by rw [tag_length]; omega) hs
    (by rw [A.size]; norm_num) he
  exact h2 (tag_inj W.id hu (by norm_num) h3).1

theorem Off.measShare (j : ℕ) (s : Bytes) :
    Spec.measShare (runWith P T') ctx j s = Spec.measShare (runWith P T) ctx j s :=
  expandIntoVec_congr fun hs => A.usage W hctx (by norm_num) (by norm_num) hs

theorem Off.proofsShare {j : ℕ} (hj : j < 256) (h1 : j ≠ 1) (s : Bytes) :
    Spec.proofsShare (runWith P T') ctx j s = Spec.proofsShare (runWith P T) ctx j s := by
  refine expandIntoVec_congr fun hs => A.agree _ fun he => h1 ?_
  obtain ⟨-, -, h3⟩ := turboInput_inj (by rw [tag_length]; omega) (by rw [tag_length]; omega) hs
    (by rw [A.size]; norm_num) he
  simp only [List.cons.injEq, and_true] at h3
  have := congrArg UInt8.toNat h3.2
  simpa [Nat.mod_eq_of_lt hj] using this

theorem Off.part (j : ℕ) (b : Bytes) (ms : List F) (nonce : Bytes) :
    Spec.jointRandPart (runWith P T') ctx j b ms nonce = Spec.jointRandPart (runWith P T) ctx j b ms nonce := by
  unfold Spec.jointRandPart
  congr 1
  funext e
  exact deriveSeed_congr fun hs => A.usage W hctx (by norm_num) (by norm_num) hs

theorem Off.seed (parts : List Bytes) :
    Spec.jointRandSeed (runWith P T') ctx parts = Spec.jointRandSeed (runWith P T) ctx parts :=
  deriveSeed_congr fun hs => A.usage W hctx (by norm_num) (by norm_num) hs

theorem Off.jointRands (s : Bytes) :
    Spec.jointRands (runWith P T') ctx s = Spec.jointRands (runWith P T) ctx s :=
  expandIntoVec_congr fun hs => A.usage W hctx (by norm_num) (by norm_num) hs

theorem Off.queryRands (vk nonce : Bytes) :
    Spec.queryRands (runWith P T') vk ctx nonce = Spec.queryRands (runWith P T) vk ctx nonce :=
  expandIntoVec_congr fun hs => A.usage W hctx (by norm_num) (by norm_num) hs

theorem Off.measShares (ish : List (Prio3InputShare F)) :
    measShares (runWith P T') ctx ish = measShares (runWith P T) ctx ish := by
  unfold Spec.measShares
  apply mapRes_congr
  intro j _
  congr 1
  funext s
  cases s with
  | leader => rfl
  | helper => simp only [A.measShare W hctx]

theorem Off.seedOf (nonce : Bytes) (xs : List (List F × Option Bytes)) :
    seedOf (runWith P T') ctx nonce xs = seedOf (runWith P T) ctx nonce xs := by
  unfold Spec.seedOf
  simp only [A.part W hctx, A.seed W hctx]
  rfl

theorem Off.commitment (nonce : Bytes) (ish : List (Prio3InputShare F)) :
    commitment (runWith P T') ctx nonce ish = commitment (runWith P T) ctx nonce ish := by
  unfold Spec.commitment
  simp only [A.measShares W hctx, A.seedOf W hctx]

end

/-- The report of an honest Client: the share of the first Helper -/
theorem first_share (W : P.WF) {ctx : Bytes} (hctx : ctx.length + 8 < 2 ^ 16) {m : Meas} {meas : List F}
    (he : P.flp.encode m = .ok meas) (hmeas : meas.length = P.flp.measLen) {nonce rand : Bytes} (hn : nonce.length = 16)
    (hr : rand.length = P.randSize) {pub : Option (List Bytes)} {l : List (Prio3InputShare F)}
    (h : (runWith P T).shard ctx m nonce rand = .ok (pub, l)) :
    ∃ b, l[1]? = some (.helper (Spec.seedAt P rand 0) b) := by
  have hg := shard_good (W.runWith T) hctx he hmeas hn hr
  rw [h] at hg
  obtain ⟨ms, ps, bl, prs, jrs, π, -, h2, -⟩ := hg
  have h3 : l[1]? = (Spec.helperShares (runWith P T) rand)[0]? := by
    rw [← h2]
    simp
  have hN := W.shares_ge
  rw [h3]
  unfold Spec.helperShares
  rw [List.getElem?_map, List.getElem?_range (show 0 < (runWith P T).shares - 1 by show 0 < P.shares - 1; omega)]
  simp only [Option.map_some]
  split
  · exact ⟨_, rfl⟩
  · exact ⟨_, rfl⟩

/-- What acceptance means, with the proof shares of the first Helper set apart -/
theorem cross_accept (W : P.WF) {vk ctx nonce : Bytes} {pub : Option (List Bytes)} {l : List (Prio3InputShare F)}
    {o : List (List F)} (h : broadcast (runWith P T).vdaf vk () ctx nonce pub l = .ok o) :
    ∃ (ish : ℕ → Prio3InputShare F) (ms ps : ℕ → List F) (bl : ℕ → Option Bytes) (jrs qrs : List F) (seed : Bytes),
      (∀ j < P.shares, l[j]? = some (ish j)) ∧
      (∀ j < P.shares, Spec.Expands (runWith P T) ctx j (ish j) (ms j) (ps j) (bl j)) ∧
      commitment (runWith P T) ctx nonce l = .ok (tab P.shares ms, seed) ∧
      (0 < P.flp.jointRandLen → Spec.jointRands (runWith P T) ctx seed = .ok jrs) ∧
      (P.flp.jointRandLen = 0 → jrs = []) ∧ Spec.queryRands (runWith P T) vk ctx nonce = .ok qrs ∧
      ∀ i < P.proofs, ∀ q : Fin P.flp.queryRandLen → F, List.ofFn q = blk P.flp.queryRandLen qrs i →
        q ∈ P.Pass ms ps jrs i := by
  obtain ⟨ish, st, sh, msg, h1, h2, -⟩ := WireGame.prio3_broadcast.1 h
  have hN : 0 < (runWith P T).shares := by have := W.shares_ge; show 0 < P.shares; omega
  obtain ⟨ms, ps, bl, jrs, qrs, seed, h3, h4, h5, h6, h7, h8⟩ := commitment_of_success hN h1 h2
  refine ⟨ish, ms, ps, bl, jrs, qrs, seed, h1, h3, h4, fun h0 => (jointRands_ok.1 (h5 h0).2).2.2, fun h0 => (h6 h0).2,
    (queryRands_ok.1 h7).2.2, fun i hi q hq => ?_⟩
  exact pass_of_success (W.runWith T) (fun j hj => (h8 j hj).2) h2.2.1 hi q hq

theorem firstPass_pi (W : P.WF) (h0 : P.flp.gadgets ≠ []) (ms : ℕ → List F) (q : ℕ → ℕ → List F) (qr jr : ℕ → List F) :
    (Set.ncard {p : Fin P.proofs → Fin P.proofLen → F | ∀ i : Fin P.proofs, p i ∈ P.FirstPass ms (q i) (qr i) (jr i)} : ℚ) ≤
      (1 / PyField.modulus F) ^ P.proofs * Fintype.card (Fin P.proofs → Fin P.proofLen → F) := by
  classical
  have hp := modulus_pos_rat F
  have h1 : {p : Fin P.proofs → Fin P.proofLen → F | ∀ i : Fin P.proofs, p i ∈ P.FirstPass ms (q i) (qr i) (jr i)} =
      Set.pi Set.univ fun i : Fin P.proofs => P.FirstPass ms (q i) (qr i) (jr i) := by
    ext f
    simp
  have hcard : (Fintype.card (Fin P.proofs → Fin P.proofLen → F) : ℚ) =
      ∏ _i : Fin P.proofs, (PyField.modulus F : ℚ) ^ P.proofLen := by
    rw [Fintype.card_fun, Fintype.card_fun, Fintype.card_fin, Fintype.card_fin, card_eq, prod_const, card_univ,
      Fintype.card_fin]
    push_cast
    rfl
  have hpow : (1 / (PyField.modulus F : ℚ)) ^ P.proofs = ∏ _i : Fin P.proofs, 1 / (PyField.modulus F : ℚ) := by
    rw [prod_const, card_univ, Fintype.card_fin]
  rw [h1, ← Nat.card_coe_set_eq, Nat.card_congr (Equiv.Set.univPi _), Nat.card_pi, hcard, hpow, ← prod_mul_distrib]
  push_cast
  refine prod_le_prod (fun _ _ => Nat.cast_nonneg _) fun i _ => ?_
  rw [Nat.card_coe_set_eq]
  have := firstPass_card W h0 ms (q i) (qr i) (jr i)
  rw [card_eq] at this
  have h2 : ((P.FirstPass ms (q i) (qr i) (jr i)).ncard : ℚ) * PyField.modulus F ≤ (PyField.modulus F : ℚ) ^ P.proofLen := by
    exact_mod_cast this
  rw [one_div, ← div_eq_inv_mul, le_div_iff₀ hp]
  exact h2

/-- A report for one application context is hardly ever accepted for another one. -/
theorem context_bound (W : P.WF) (h0 : P.flp.gadgets ≠ []) {ctx ctx' vk nonce nonce' rand : Bytes}
    (hctx : ctx.length + 8 < 2 ^ 16) (hctx' : ctx'.length + 8 < 2 ^ 16) (hne : ctx ≠ ctx')
    {m : Meas} {meas : List F} (he : P.flp.encode m = .ok meas) (hmeas : meas.length = P.flp.measLen)
    (hn : nonce.length = 16) (hr : rand.length = P.randSize) {S : Set Bytes} [Finite S] (hS : firstProofInput P rand ctx' ∈ S)
    {N : ℕ} (hN : fuel * PyField.encSize F ≤ N) :
    Spec.crossProbability (fun O => (runWith P O).vdaf) prims vk () m rand ctx nonce ctx' nonce' S N ≤
      (1 / PyField.modulus F) ^ P.proofs := by
  classical
  have : Fintype S := Fintype.ofFinite S
  have hp := modulus_pos_rat F
  have hs0 : (Spec.seedAt P rand 0).length = 32 := by
    have : 0 < P.numSeeds := by
      have := W.shares_ge
      unfold numSeeds
      split <;> omega
    exact chunks_length hr this
  have hall : Set.ncard (Spec.oracles prims S N) = Fintype.card (S → Fin N → UInt8) := by
    have := ncard_glue prims S (N := N) fun _ => True
    simpa [Set.ncard_univ] using this
  unfold Spec.crossProbability
  rw [hall, ncard_glue prims S fun O => ∃ outs, crossOutShares (runWith P O).vdaf vk () m rand ctx nonce ctx' nonce' = .ok outs]
  rw [div_le_iff₀ (by exact_mod_cast Fintype.card_pos)]
  set m0 : S := ⟨firstProofInput P rand ctx', hS⟩ with hm0
  refine deferred_one (fun _ i => i = m0) (fun _ _ _ h h' => h.trans h'.symm) (fun _ _ _ h => h) _ (fun _ _ => ⟨m0, rfl⟩)
    (by positivity) ?_
  rintro O _ rfl
  rcases Set.eq_empty_or_nonempty {y | Function.update O m0 y ∈ {f : S → Fin N → UInt8 | ∃ outs,
    crossOutShares (runWith P (glue prims S f)).vdaf vk () m rand ctx nonce ctx' nonce' = .ok outs}} with hem | ⟨y0, hy0⟩
  · rw [hem]
    simp only [Set.ncard_empty, Nat.cast_zero]
    positivity
  have split : ∀ y, Function.update O m0 y ∈ {f : S → Fin N → UInt8 | ∃ outs,
      crossOutShares (runWith P (glue prims S f)).vdaf vk () m rand ctx nonce ctx' nonce' = .ok outs} →
      ∃ pub l o, (runWith P (glue prims S (Function.update O m0 y))).shard ctx m nonce rand = .ok (pub, l) ∧
        broadcast (runWith P (glue prims S (Function.update O m0 y))).vdaf vk () ctx' nonce' pub l = .ok o := by
    rintro y ⟨o, h⟩
    unfold crossOutShares at h
    obtain ⟨⟨pub, l⟩, h1, h2⟩ := Except.bind_eq_ok.1 h
    exact ⟨pub, l, o, h1, h2⟩
  have off : ∀ y y', Off P (Spec.seedAt P rand 0) ctx' (glue prims S (Function.update O m0 y))
      (glue prims S (Function.update O m0 y')) := by
    intro y y'
    refine ⟨fun m hm => ?_, hs0⟩
    rw [glue_upd O m0 y' hm, glue_upd O m0 y hm]
  obtain ⟨pub, l, o0, hsh0, hb0⟩ := split y0 hy0
  obtain ⟨b1, hl1⟩ := first_share W hctx he hmeas hn hr hsh0
  obtain ⟨ish, ms, ps, bl, jrs, qrs, seed, a1, a2, a3, a4, a5, a6, -⟩ := cross_accept W hb0
  have h7 := ncard_streams (F := F) (fuel := fuel) hN (prims.turboShake m0 1)
    {p : Fin P.proofs → Fin P.proofLen → F | ∀ i : Fin P.proofs, p i ∈ P.FirstPass ms (fun j => blk P.proofLen (ps j) i)
      (blk P.flp.queryRandLen qrs i) (blk P.flp.jointRandLen jrs i)}
    {y | Function.update O m0 y ∈ {f : S → Fin N → UInt8 | ∃ outs,
      crossOutShares (runWith P (glue prims S f)).vdaf vk () m rand ctx nonce ctx' nonce' = .ok outs}} (by
    intro y hy
    obtain ⟨pub', l', o', hsh', hb'⟩ := split y hy
    have A := off y0 y
    rw [(A.other W hctx' hctx hne).shard, hsh0] at hsh'
    simp only [Except.ok.injEq, Prod.mk.injEq] at hsh'
    obtain ⟨rfl, rfl⟩ := hsh'
    obtain ⟨ish', ms', ps', bl', jrs', qrs', seed', c1, c2, c3, c4, c5, c6, c7⟩ := cross_accept W hb'
    rw [A.commitment W hctx', a3] at c3
    simp only [Except.ok.injEq, Prod.mk.injEq] at c3
    obtain ⟨c3, rfl⟩ := c3
    rw [A.queryRands W hctx', a6] at c6
    have c6 := (Except.ok.inj c6)
    subst c6
    have hjr : jrs' = jrs := by
      rcases Nat.eq_zero_or_pos P.flp.jointRandLen with hz | hz
      · rw [a5 hz, c5 hz]
      · have := c4 hz
        rw [A.jointRands W hctx', a4 hz] at this
        exact (Except.ok.inj this).symm
    subst hjr
    have hish : ∀ j < P.shares, ish' j = ish j := fun j hj => Option.some.inj ((c1 j hj).symm.trans (a1 j hj))
    have hms : ∀ j < P.shares, ms' j = ms j := by
      intro j hj
      have := congrArg (fun l : List (List F) => l[j]?) c3
      simpa [tab, hj] using this.symm
    have hps : ∀ j < P.shares, j ≠ 1 → ps' j = ps j := by
      intro j hj h1
      have e1 := a2 j hj
      have e2 := c2 j hj
      rw [hish j hj] at e2
      rcases e1 with ⟨-, e1⟩ | ⟨k0, s, e1, -, e1'⟩
      · rcases e2 with ⟨-, e2⟩ | ⟨-, s, e2, -⟩
        · rw [e1] at e2
          injection e2 with _ k2 _
          exact k2.symm
        · rw [e1] at e2
          cases e2
      · rcases e2 with ⟨k1, -⟩ | ⟨-, s', e2, -, e2'⟩
        · omega
        · rw [e1] at e2
          injection e2 with k1 _
          subst k1
          rw [A.proofsShare W hctx' (lt_trans hj W.shares_lt) h1, e1'] at e2'
          exact (Except.ok.inj e2').symm
    have h1s : 1 < P.shares := by have := W.shares_ge; omega
    have hev : Ev F fuel (P.proofLen * P.proofs) (withHead (prims.turboShake m0 1) y) (ps' 1) := by
      rcases c2 1 h1s with ⟨k, -⟩ | ⟨-, s, e2, -, e2'⟩
      · cases k
      · have e3 := c1 1 h1s
        rw [hl1, e2] at e3
        cases e3
        have := (proofsShare_ev W hctx' (T := glue prims S (Function.update O m0 y)) (by norm_num) (by rw [hs0]; norm_num)).1
          (proofsShare_ok.2 ⟨W.id, W.proofs, by norm_num, e2'⟩)
        have hg := glue_mem prims S (Function.update O m0 y) m0
        rw [Function.update_self] at hg
        rw [← hg]
        exact this
    obtain ⟨p, hp1, hp2⟩ := flat_surj hev.1
    have hqlen : qrs.length = P.flp.queryRandLen * P.proofs := expandIntoVec_length a6
    obtain ⟨qq, -, hq2⟩ := flat_surj hqlen
    refine ⟨p, fun i => ?_, hp1 ▸ hev⟩
    obtain ⟨vs, v, d1, d2, d3⟩ := c7 i i.2 (qq i) (hq2 i)
    refine ⟨vs, v, fun j hj => ?_, d2, d3⟩
    have := d1 j hj
    rw [hms j hj, hq2 i] at this
    split
    · next hj1 =>
      subst hj1
      rw [hp2 i]
      exact this
    · next hj1 =>
      rw [hps j hj hj1] at this
      exact this)
  have h8 := firstPass_pi W h0 ms (fun i j => blk P.proofLen (ps j) i) (fun i => blk P.flp.queryRandLen qrs i)
    (fun i => blk P.flp.jointRandLen jrs i)
  have hQ : (0 : ℚ) < Fintype.card (Fin P.proofs → Fin P.proofLen → F) := by exact_mod_cast Fintype.card_pos
  refine le_of_mul_le_mul_right (h7.trans ((mul_le_mul_of_nonneg_right h8 (Nat.cast_nonneg _)).trans (le_of_eq ?_))) hQ
  ring

end Prio3
end Vdaf
