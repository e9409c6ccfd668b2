import Verif.Proofs.RobustGame
import Verif.Proofs.RobustStream
import Verif.Proofs.Robustness

/-! The probability that a malicious Client wins. -/

set_option linter.unusedSectionVars false

namespace Vdaf
open Finset
open Spec (tag runWith withOracle ClientMove ClientReply clientRun respond submittedNonces commitment clientInputs oracles)

attribute [local instance] bytesFintype

open Classical in
/-- The oracle with the given values at the inputs in `S` -/
noncomputable def glue (prims : Prims) (S : Set Bytes) {N : ℕ} (f : S → Fin N → UInt8) : Bytes → ℕ → UInt8 := fun m =>
  if h : m ∈ S then withHead (prims.turboShake m 1) (f ⟨m, h⟩) else prims.turboShake m 1

theorem glue_mem (prims : Prims) (S : Set Bytes) {N : ℕ} (f : S → Fin N → UInt8) (m : S) :
    glue prims S f m = withHead (prims.turboShake m 1) (f m) := by
  unfold glue
  rw [dif_pos m.2]

theorem glue_update [DecidableEq Bytes] (prims : Prims) (S : Set Bytes) {N : ℕ} (f : S → Fin N → UInt8) (m0 : S)
    (y : Fin N → UInt8) {m : Bytes} (h : m ≠ m0) : glue prims S (Function.update f m0 y) m = glue prims S f m := by
  unfold glue
  split
  · next hm =>
    rw [Function.update_of_ne]
    rintro rfl
    exact h rfl
  · rfl

theorem glue_injective (prims : Prims) (S : Set Bytes) {N : ℕ} :
    Function.Injective (glue prims S : (S → Fin N → UInt8) → _) := by
  intro f g h
  funext m
  have := congrFun h m
  rw [glue_mem, glue_mem] at this
  exact withHead_inj this

theorem glue_range (prims : Prims) (S : Set Bytes) {N : ℕ} :
    Set.range (glue prims S : (S → Fin N → UInt8) → _) = oracles prims S N := by
  ext T
  constructor
  · rintro ⟨f, rfl⟩ m i h
    unfold glue at h
    split at h
    · next hm =>
      refine ⟨hm, ?_⟩
      by_contra hi
      unfold withHead at h
      rw [dif_neg hi] at h
      exact h rfl
    · exact absurd rfl h
  · intro h
    refine ⟨fun m i => T m i, ?_⟩
    funext m
    unfold glue
    split
    · next hm =>
      apply withHead_head
      intro i hi
      by_contra hc
      have := (h m i hc).2
      omega
    · next hm =>
      funext i
      by_contra hc
      exact hm (h m i (fun h => hc h.symm)).1

theorem ncard_glue (prims : Prims) (S : Set Bytes) {N : ℕ} (E : (Bytes → ℕ → UInt8) → Prop) :
    Set.ncard {T ∈ oracles prims S N | E T} = Set.ncard {f : S → Fin N → UInt8 | E (glue prims S f)} := by
  rw [← Set.ncard_image_of_injective _ (glue_injective prims S)]
  congr 1
  ext T
  simp only [Set.mem_ofPred_eq, Set.mem_image]
  rw [← glue_range]
  constructor
  · rintro ⟨⟨f, rfl⟩, h⟩
    exact ⟨f, h, rfl⟩
  · rintro ⟨f, h, rfl⟩
    exact ⟨⟨f, rfl⟩, h⟩

namespace Prio3
variable {F : Type} [NttField F] {Meas Agg : Type} {prims : Prims} {fuel : ℕ}
  {P : Prio3 (XofTurboShake128 prims fuel) F Meas Agg}

theorem clientInputs_finite (P : Prio3 (XofTurboShake128 prims fuel) F Meas Agg) (vk ctx : Bytes) :
    (clientInputs P vk ctx).Finite := by
  have h1 : ∀ n, {l : Bytes | l.length = n}.Finite := fun n => List.finite_length_eq UInt8 n
  refine (((h1 16).image fun nonce => qrPos P vk ctx nonce).union ((h1 32).image fun s => jrPos P ctx s)).subset ?_
  rintro m (⟨nonce, h, rfl⟩ | ⟨s, h, rfl⟩)
  · exact .inl ⟨nonce, h, rfl⟩
  · exact .inr ⟨s, h, rfl⟩

theorem commitment_seed {ctx : Bytes} (hctx : ctx.length + 8 < 2 ^ 16) {T : Bytes → ℕ → UInt8} {nonce : Bytes}
    {ish : List (Prio3InputShare F)} {ms : List (List F)} {s : Bytes}
    (h : commitment (runWith P T) ctx nonce ish = .ok (ms, s)) : s.length = 32 := by
  unfold Spec.commitment at h
  obtain ⟨xs, -, h⟩ := Except.bind_eq_ok.1 h
  obtain ⟨s', h1, h⟩ := Except.bind_eq_ok.1 h
  obtain ⟨-, rfl⟩ := Prod.mk.inj (Except.ok.inj h)
  unfold Spec.seedOf at h1
  split at h1
  · obtain ⟨parts, -, h1⟩ := Except.bind_eq_ok.1 h1
    unfold Spec.jointRandSeed at h1
    rw [deriveSeed_eq (by rw [tag_length]; omega) (by show (List.replicate 32 (0 : UInt8)).length < _; simp)] at h1
    cases h1
    simp [Spec.bytesAt]
  · cases h1
    simp

/-- What a report is committed to -/
structure Committed (F : Type) where
  nonce : Bytes
  shares : List (List F)
  seed : Bytes
  nonce_length : nonce.length = 16
  seed_length : seed.length = 32

/-- The inputs of the oracle for a commitment -/
def Committed.jr (P : Prio3 (XofTurboShake128 prims fuel) F Meas Agg) (vk ctx : Bytes) (d : Committed F) :
    clientInputs P vk ctx := ⟨jrPos P ctx d.seed, .inr ⟨d.seed, d.seed_length, rfl⟩⟩

/-- The inputs of the oracle for a commitment -/
def Committed.qr (P : Prio3 (XofTurboShake128 prims fuel) F Meas Agg) (vk ctx : Bytes) (d : Committed F) :
    clientInputs P vk ctx := ⟨qrPos P vk ctx d.nonce, .inl ⟨d.nonce, d.nonce_length, rfl⟩⟩

/-- Move `t` is the first with the commitment `d`, whose measurement is invalid, and no report with its nonce has been
submitted before. -/
structure First (P : Prio3 (XofTurboShake128 prims fuel) F Meas Agg) (vk ctx : Bytes) (σ : Spec.ClientStrategy F)
    (valid : List F → Prop) (t : ℕ) (T : Bytes → ℕ → UInt8) (d : Committed F) : Prop where
  nonce : (σ ((clientRun (runWith P T) vk ctx σ t).map Prod.snd)).nonce = d.nonce
  commit : commitment (runWith P T) ctx d.nonce (σ ((clientRun (runWith P T) vk ctx σ t).map Prod.snd)).inputShares =
    .ok (d.shares, d.seed)
  fresh : d.nonce ∉ submittedNonces (clientRun (runWith P T) vk ctx σ t)
  first : 0 < P.flp.jointRandLen → ∀ x ∈ clientRun (runWith P T) vk ctx σ t, ∀ ms,
    commitment (runWith P T) ctx x.1.nonce x.1.inputShares ≠ .ok (ms, d.seed)
  bad : ∃ meas, Spec.IsSum (fun j : Fin d.shares.length => d.shares[j]) meas ∧ meas.length = P.flp.measLen ∧ ¬ valid meas

theorem First.unique {vk ctx : Bytes} {σ : Spec.ClientStrategy F} {valid : List F → Prop} {t : ℕ} {T : Bytes → ℕ → UInt8}
    {d d' : Committed F} (h : First P vk ctx σ valid t T d) (h' : First P vk ctx σ valid t T d') : d = d' := by
  obtain ⟨n, ms, s, hn, hs⟩ := d
  obtain ⟨n', ms', s', hn', hs'⟩ := d'
  have h1 : n = n' := h.nonce.symm.trans h'.nonce
  subst h1
  have h2 := h.commit
  rw [h'.commit] at h2
  simp only [Except.ok.injEq, Prod.mk.injEq] at h2
  obtain ⟨rfl, rfl⟩ := h2
  rfl

/-- The probability over the query randomness that a report for the commitment `d` is accepted, given the joint
randomness -/
noncomputable def passBound (P : Prio3 (XofTurboShake128 prims fuel) F Meas Agg) (d : Committed F)
    (jq : Fin P.proofs → Fin P.flp.jointRandLen → F) : ℚ := by
  classical
  exact ∏ i, if ∃ meas, Spec.IsSum (fun j : Fin d.shares.length => d.shares[j]) meas ∧
    Spec.Accepts P.flp meas (List.ofFn (jq i)) then 1 else Spec.paddedSoundness P.flp

section
variable (W : P.WF) {vk ctx : Bytes} (hctx : ctx.length + 8 < 2 ^ 16) (hvk : vk.length = 32)
include W hctx hvk

theorem jr_ne_qr (s nonce : Bytes) (hs : s.length < 2 ^ 8) : jrPos P ctx s ≠ qrPos P vk ctx nonce := by
  intro h
  have hd : ∀ u, (tag P.id u ctx).length < 2 ^ 16 := fun u => by rw [tag_length]; omega
  obtain ⟨-, h2, -⟩ := turboInput_inj (hd _) (hd _) hs (by omega) h
  have := tag_usage W (by norm_num) (by norm_num) h2
  omega

theorem jr_inj {s s' : Bytes} (hs : s.length < 2 ^ 8) (hs' : s'.length < 2 ^ 8)
    (h : jrPos P ctx s = jrPos P ctx s') : s = s' := by
  have hd : ∀ u, (tag P.id u ctx).length < 2 ^ 16 := fun u => by rw [tag_length]; omega
  exact (turboInput_inj (hd _) (hd _) hs hs' h).1

theorem qr_inj {n n' : Bytes} (h : qrPos P vk ctx n = qrPos P vk ctx n') : n = n' := by
  have hd : ∀ u, (tag P.id u ctx).length < 2 ^ 16 := fun u => by rw [tag_length]; omega
  exact (List.cons.inj (turboInput_inj (hd _) (hd _) (by omega) (by omega) h).2.2).2

/-- The reply to a move other than the submission of a report with the nonce does not depend on the query randomness. -/
theorem avoids_qr {T : Bytes → ℕ → UInt8} {nonce : Bytes} {hist : List (ClientMove F × ClientReply F)}
    (h : nonce ∉ submittedNonces hist) : ∀ x ∈ hist, Avoids P T vk ctx (qrPos P vk ctx nonce) x.1 := by
  intro x hx
  refine ⟨fun ms s h1 _ => jr_ne_qr W hctx hvk s nonce (by rw [commitment_seed hctx h1]; norm_num), ?_⟩
  intro r hr _ h2
  exact h (mem_submittedNonces.2 ⟨r, x.2, by rw [← hr]; exact hx, qr_inj W hctx hvk h2⟩)

theorem avoids_jr {T : Bytes → ℕ → UInt8} {seed : Bytes} (hs : seed.length = 32)
    {hist : List (ClientMove F × ClientReply F)}
    (h : 0 < P.flp.jointRandLen → ∀ x ∈ hist, ∀ ms, commitment (runWith P T) ctx x.1.nonce x.1.inputShares ≠ .ok (ms, seed)) :
    ∀ x ∈ hist, Avoids P T vk ctx (jrPos P ctx seed) x.1 := by
  intro x hx
  refine ⟨fun ms s h1 h0 h2 => ?_, fun r hr _ h2 => jr_ne_qr W hctx hvk _ _ (by rw [hs]; norm_num) h2.symm⟩
  have := jr_inj W hctx hvk (by rw [commitment_seed hctx h1]; norm_num) (by rw [hs]; norm_num) h2
  subst this
  exact h h0 x hx ms h1

theorem First.of_near {σ : Spec.ClientStrategy F} {valid : List F → Prop} {t : ℕ} {T T' : Bytes → ℕ → UInt8}
    {d : Committed F} {m0 : Bytes} (A : Near P vk ctx T T' m0) (h : First P vk ctx σ valid t T d)
    (ha : ∀ x ∈ clientRun (runWith P T) vk ctx σ t, Avoids P T vk ctx m0 x.1) : First P vk ctx σ valid t T' d := by
  have hr := A.clientRun W hctx hvk ha
  refine ⟨by rw [hr]; exact h.nonce, by rw [hr, A.commitment W hctx hvk]; exact h.commit, by rw [hr]; exact h.fresh, ?_,
    h.bad⟩
  intro h0 x hx ms
  rw [hr] at hx
  rw [A.commitment W hctx hvk]
  exact h.first h0 x hx ms

/-- Whether a report with a given nonce is accepted, and which one, does not depend on the query randomness. -/
theorem same_report {σ : Spec.ClientStrategy F} {q : ℕ} {T T' : Bytes → ℕ → UInt8} {nonce : Bytes}
    (A : Near P vk ctx T T' (qrPos P vk ctx nonce)) {r r' : Spec.Report F}
    (h : (.submit r, .verdict true) ∈ clientRun (runWith P T) vk ctx σ q) (hn : r.nonce = nonce)
    (h' : (.submit r', .verdict true) ∈ clientRun (runWith P T') vk ctx σ q) (hn' : r'.nonce = nonce) : r = r' := by
  have key : ∀ {T T' : Bytes → ℕ → UInt8} {r r' : Spec.Report F} {t t' : ℕ}, Near P vk ctx T T' (qrPos P vk ctx nonce) →
      r.nonce = nonce → r'.nonce = nonce → t ≤ t' → σ ((clientRun (runWith P T) vk ctx σ t).map Prod.snd) = .submit r →
      r.nonce ∉ submittedNonces (clientRun (runWith P T) vk ctx σ t) →
      σ ((clientRun (runWith P T') vk ctx σ t').map Prod.snd) = .submit r' →
      r'.nonce ∉ submittedNonces (clientRun (runWith P T') vk ctx σ t') → r = r' := by
    intro T T' r r' t t' A hn hn' ht h1 h2 h3 h4
    rw [hn] at h2
    rw [← A.clientRun W hctx hvk (avoids_qr W hctx hvk h2)] at h1
    rcases ht.lt_or_eq with ht | rfl
    · have h5 := (mem_clientRun (P := runWith P T') (vk := vk) (ctx := ctx) (σ := σ)).2 ⟨t, ht, rfl⟩
      rw [h1] at h5
      exact absurd (mem_submittedNonces.2 ⟨r, _, h5, hn.trans hn'.symm⟩) h4
    · rw [h1] at h3
      exact ClientMove.submit.inj h3
  obtain ⟨t, -, h1, -, h2, -⟩ := submit_accepted.1 h
  obtain ⟨t', -, h3, -, h4, -⟩ := submit_accepted.1 h'
  rcases Nat.le_total t t' with ht | ht
  · exact key A hn hn' ht h1 h2 h3 h4
  · exact (key A.symm hn' hn ht h3 h4 h1 h2).symm

/-- What an accepted report means for the streams -/
theorem accepted_pass {T : Bytes → ℕ → UInt8} {r : Spec.Report F} {ds : List (List F)} {seed : Bytes}
    (hs : seed.length = 32) (ha : Spec.accepts (runWith P T) vk ctx r = true)
    (hc : commitment (runWith P T) ctx r.nonce r.inputShares = .ok (ds, seed)) :
    ∃ (ish : ℕ → Prio3InputShare F) (ms ps : ℕ → List F) (bl : ℕ → Option Bytes) (jrs qrs : List F),
      (∀ j < P.shares, r.inputShares[j]? = some (ish j)) ∧
      (∀ j < P.shares, Spec.Expands (runWith P T) ctx j (ish j) (ms j) (ps j) (bl j)) ∧ ds = tab P.shares ms ∧
      Ev F fuel (P.flp.jointRandLen * P.proofs) (T (jrPos P ctx seed)) jrs ∧
      Ev F fuel (P.flp.queryRandLen * P.proofs) (T (qrPos P vk ctx r.nonce)) qrs ∧
      ∀ i < P.proofs, ∀ q : Fin P.flp.queryRandLen → F, List.ofFn q = blk P.flp.queryRandLen qrs i →
        q ∈ P.Pass ms ps jrs i := by
  obtain ⟨ish, st, sh, msg, h1, h2⟩ := accepts_iff.1 ha
  have hN : 0 < (runWith P T).shares := by have := W.shares_ge; show 0 < P.shares; omega
  obtain ⟨ms, ps, bl, jrs, qrs, seed', h3, h4, h5, h6, h7, h8⟩ := commitment_of_success hN h1 h2
  rw [h4] at hc
  simp only [Except.ok.injEq, Prod.mk.injEq] at hc
  obtain ⟨rfl, rfl⟩ := hc
  refine ⟨ish, ms, ps, bl, jrs, qrs, h1, h3, rfl, ?_, ?_, ?_⟩
  · rcases Nat.eq_zero_or_pos P.flp.jointRandLen with h0 | h0
    · rw [(h6 h0).2, h0]
      exact ⟨by simp, _, (List.nil_append _).symm⟩
    · exact (jointRands_ev W hctx (by rw [hs]; norm_num)).1 (h5 h0).2
  · exact (queryRands_ev W hctx (by rw [hvk]; norm_num)).1 h7
  · intro i hi q hq
    exact pass_of_success (W.runWith T) (fun j hj => (h8 j hj).2) h2.2.1 hi q hq

omit W hctx hvk in
theorem Pass_congr {ms ms' ps ps' : ℕ → List F} {jrs : List F} {i : ℕ}
    (h : ∀ j < P.shares, ms' j = ms j ∧ ps' j = ps j) : P.Pass ms' ps' jrs i = P.Pass ms ps jrs i := by
  ext q
  constructor
  · rintro ⟨vs, v, h1, h2, h3⟩
    exact ⟨vs, v, fun j hj => by rw [← (h j hj).1, ← (h j hj).2]; exact h1 j hj, h2, h3⟩
  · rintro ⟨vs, v, h1, h2, h3⟩
    exact ⟨vs, v, fun j hj => by rw [(h j hj).1, (h j hj).2]; exact h1 j hj, h2, h3⟩

theorem Near.expands {T T' : Bytes → ℕ → UInt8} {m0 : Bytes} (A : Near P vk ctx T T' m0) {j : ℕ} {s : Prio3InputShare F}
    {ms ps ms' ps' : List F} {bl bl' : Option Bytes} (h : Spec.Expands (runWith P T) ctx j s ms ps bl)
    (h' : Spec.Expands (runWith P T') ctx j s ms' ps' bl') : ms' = ms ∧ ps' = ps := by
  rcases h with ⟨h0, rfl⟩ | ⟨h0, seed, rfl, h1, h2⟩
  · rcases h' with ⟨-, h⟩ | ⟨-, seed, h, -⟩
    · cases h; exact ⟨rfl, rfl⟩
    · cases h
  · rcases h' with ⟨h, -⟩ | ⟨-, seed', h, h3, h4⟩
    · omega
    · cases h
      rw [A.measShare W hctx hvk, h1] at h3
      rw [A.proofsShare W hctx hvk, h2] at h4
      exact ⟨(Except.ok.inj h3).symm, (Except.ok.inj h4).symm⟩

omit hctx hvk in
theorem pass_ncard (hC : Spec.Circuit P.flp) (hg : P.flp.gadgets ≠ []) {d : Committed F} {ms ps : ℕ → List F}
    (hd : d.shares = tab P.shares ms) (jq : Fin P.proofs → Fin P.flp.jointRandLen → F) :
    (Set.ncard {q : Fin P.proofs → Fin P.flp.queryRandLen → F | ∀ i : Fin P.proofs, q i ∈ P.Pass ms ps (flat jq) i} : ℚ) ≤
      passBound P d jq * Fintype.card (Fin P.proofs → Fin P.flp.queryRandLen → F) := by
  classical
  have hp := modulus_pos_rat F
  have hcard : (Fintype.card (Fin P.proofs → Fin P.flp.queryRandLen → F) : ℚ) =
      ∏ _i : Fin P.proofs, (PyField.modulus F : ℚ) ^ P.flp.queryRandLen := by
    rw [Fintype.card_fun, Fintype.card_fun, Fintype.card_fin, Fintype.card_fin, card_eq, prod_const, card_univ,
      Fintype.card_fin]
    push_cast
    rfl
  have h1 : {q : Fin P.proofs → Fin P.flp.queryRandLen → F | ∀ i : Fin P.proofs, q i ∈ P.Pass ms ps (flat jq) i} =
      Set.pi Set.univ fun i : Fin P.proofs => P.Pass ms ps (flat jq) i := by
    ext f
    simp
  rw [h1, ← Nat.card_coe_set_eq, Nat.card_congr (Equiv.Set.univPi _), Nat.card_pi]
  unfold passBound
  rw [hcard, ← prod_mul_distrib]
  push_cast
  refine prod_le_prod (fun _ _ => Nat.cast_nonneg _) fun i _ => ?_
  rw [Nat.card_coe_set_eq]
  split
  · rw [one_mul]
    have : (P.Pass ms ps (flat jq) i).ncard ≤ PyField.modulus F ^ P.flp.queryRandLen := by
      refine (Set.ncard_le_card _).trans (le_of_eq ?_)
      rw [Nat.card_eq_fintype_card, Fintype.card_fun, Fintype.card_fin, card_eq]
    exact_mod_cast this
  · next hn =>
    have h2 := pass_card W (ms := ms) (ps := ps) (jrs := flat jq) (i := i) (fun meas hm ha => hn ⟨meas, ?_, ?_⟩)
      (totalDegree P.flp) (total_pos hC hg) (degree_le_total P.flp)
    · rw [padded_eq, ← pow_pred_div (queryRandLen_pos hg) hp.ne', div_mul_cancel₀ _ (pow_ne_zero _ hp.ne')]
      exact_mod_cast h2
    · rw [isSum_iff] at hm ⊢
      have hl : d.shares.length = P.shares := by rw [hd, tab_length]
      have hj : ∀ j : Fin d.shares.length, d.shares[j] = ms j := by
        intro j
        simp only [Fin.getElem_fin, hd, tab_getElem]
      simp only [hj]
      refine ⟨fun j => hm.1 ⟨j, by omega⟩, fun k => ?_⟩
      rw [hm.2 k]
      exact Fintype.sum_equiv (finCongr hl.symm) _ _ fun j => rfl
    · rw [flat_blk] at ha
      exact ha

omit W hctx hvk in
theorem passBound_nonneg (d : Committed F) (jq : Fin P.proofs → Fin P.flp.jointRandLen → F) : 0 ≤ passBound P d jq := by
  classical
  unfold passBound
  refine prod_nonneg fun i _ => ?_
  split
  · norm_num
  · rw [padded_eq]
    have := modulus_pos_rat F
    positivity

omit W hctx hvk in
/-- The average over the joint randomness -/
theorem sum_passBound {d : Committed F} (hd : 0 < d.shares.length) {meas : List F} {ε : ℚ}
    (hm : Spec.IsSum (fun j : Fin d.shares.length => d.shares[j]) meas)
    (hε : (Set.ncard {jr : Fin P.flp.jointRandLen → F | Spec.Accepts P.flp meas (List.ofFn jr)} : ℚ) ≤
      ε * (PyField.modulus F : ℚ) ^ P.flp.jointRandLen) :
    ∑ jq, passBound P d jq ≤ (ε + Spec.paddedSoundness P.flp) ^ P.proofs *
      Fintype.card (Fin P.proofs → Fin P.flp.jointRandLen → F) := by
  classical
  have hp := modulus_pos_rat F
  have h0 : (0 : ℚ) ≤ Spec.paddedSoundness P.flp := by
    rw [padded_eq]
    positivity
  have hacc : ∀ jr : Fin P.flp.jointRandLen → F, (∃ meas, Spec.IsSum (fun j : Fin d.shares.length => d.shares[j]) meas ∧
      Spec.Accepts P.flp meas (List.ofFn jr)) ↔ jr ∈ {jr | Spec.Accepts P.flp meas (List.ofFn jr)} := by
    intro jr
    constructor
    · rintro ⟨meas', h1, h2⟩
      have h3 := IsSum.unique hm h1 (by rw [← hm.1 ⟨0, hd⟩, ← h1.1 ⟨0, hd⟩])
      subst h3
      exact h2
    · intro h
      exact ⟨meas, hm, h⟩
  unfold passBound
  simp only [hacc]
  rw [← Fintype.sum_pow (fun jr : Fin P.flp.jointRandLen → F =>
    if jr ∈ {jr | Spec.Accepts P.flp meas (List.ofFn jr)} then (1 : ℚ) else Spec.paddedSoundness P.flp)]
  have hcard : (Fintype.card (Fin P.proofs → Fin P.flp.jointRandLen → F) : ℚ) =
      ((PyField.modulus F : ℚ) ^ P.flp.jointRandLen) ^ P.proofs := by
    rw [Fintype.card_fun, Fintype.card_fun, Fintype.card_fin, Fintype.card_fin, card_eq]
    push_cast
    rfl
  rw [hcard, ← mul_pow]
  refine pow_le_pow_left₀ (sum_nonneg fun jr _ => by split <;> [norm_num; exact h0]) ?_ _
  rw [ncard_sum] at hε
  have h1 : ∑ jr : Fin P.flp.jointRandLen → F, Spec.paddedSoundness P.flp =
      Spec.paddedSoundness P.flp * (PyField.modulus F : ℚ) ^ P.flp.jointRandLen := by
    rw [sum_const, card_univ, Fintype.card_fun, Fintype.card_fin, card_eq, nsmul_eq_mul]
    push_cast
    ring
  rw [add_mul, ← h1]
  refine le_trans ?_ (add_le_add_left hε _)
  rw [← sum_add_distrib]
  refine sum_le_sum fun jr _ => ?_
  split
  · linarith
  · simp

omit W hctx hvk in
theorem commitment_length {T : Bytes → ℕ → UInt8} {nonce : Bytes} {ish : List (Prio3InputShare F)} {ms : List (List F)}
    {s : Bytes} (h : commitment (runWith P T) ctx nonce ish = .ok (ms, s)) : ms.length = P.shares := by
  unfold Spec.commitment at h
  obtain ⟨xs, h1, h⟩ := Except.bind_eq_ok.1 h
  obtain ⟨s', -, h⟩ := Except.bind_eq_ok.1 h
  obtain ⟨rfl, -⟩ := Prod.mk.inj (Except.ok.inj h)
  unfold Spec.measShares at h1
  have h2 := (mapRes_ok_iff _ _ _).1 h1
  rw [List.length_map, ← h2.length_eq, List.length_range]
  rfl

theorem accepted_len (hP : 0 < P.proofs) {T : Bytes → ℕ → UInt8} {r : Spec.Report F} {ds : List (List F)} {seed : Bytes}
    (hs : seed.length = 32) (ha : Spec.accepts (runWith P T) vk ctx r = true)
    (hc : commitment (runWith P T) ctx r.nonce r.inputShares = .ok (ds, seed)) {meas : List F}
    (hm : Spec.IsSum (fun j : Fin ds.length => ds[j]) meas) : meas.length = P.flp.measLen := by
  obtain ⟨ish, ms, ps, bl, jrs, qrs, h1, h2, rfl, h4, h5, h6⟩ := accepted_pass W hctx hvk hs ha hc
  have hN : 0 < P.shares := by have := W.shares_ge; omega
  obtain ⟨q, h7, h8⟩ := flat_surj h5.1
  obtain ⟨vs, v, h9, -⟩ := h6 0 hP (q ⟨0, hP⟩) (h8 ⟨0, hP⟩)
  rw [← hm.1 ⟨0, by rw [tab_length]; exact hN⟩]
  simp only [Fin.getElem_fin, tab_getElem]
  exact (query_ok_len W (by omega) W.modulus (h9 0 hN)).1

/-- The Client is committed to an invalid measurement in move `t`, and later a report for it is accepted. -/
def HitAt (P : Prio3 (XofTurboShake128 prims fuel) F Meas Agg) (vk ctx : Bytes) (σ : Spec.ClientStrategy F)
    (valid : List F → Prop) (q t : ℕ) (T : Bytes → ℕ → UInt8) : Prop :=
  ∃ d : Committed F, First P vk ctx σ valid t T d ∧ ∃ r, (.submit r, .verdict true) ∈ clientRun (runWith P T) vk ctx σ q ∧
    r.nonce = d.nonce ∧ commitment (runWith P T) ctx r.nonce r.inputShares = .ok (d.shares, d.seed)

theorem near_glue [DecidableEq (clientInputs P vk ctx)] {N : ℕ} (f : clientInputs P vk ctx → Fin N → UInt8)
    (m0 : clientInputs P vk ctx) (y : Fin N → UInt8) :
    Near P vk ctx (glue prims _ f) (glue prims _ (Function.update f m0 y)) m0 := by
  classical
  refine ⟨fun m hm => ?_, ?_⟩
  · unfold glue
    split
    · next h =>
      rw [Function.update_of_ne]
      rintro rfl
      exact hm rfl
    · rfl
  · rcases m0.2 with ⟨nonce, h1, h2⟩ | ⟨s, h1, h2⟩
    · exact .inr ⟨nonce, h2⟩
    · exact .inl ⟨s, by rw [h1]; norm_num, h2⟩

theorem hit_bound (hC : Spec.Circuit P.flp) (hg : P.flp.gadgets ≠ []) {N : ℕ} (hN : fuel * PyField.encSize F ≤ N)
    {σ : Spec.ClientStrategy F} {valid : List F → Prop} {ε : ℚ} (h0 : 0 ≤ ε)
    (hε : ∀ meas : List F, meas.length = P.flp.measLen → ¬ valid meas →
      (Set.ncard {jr : Fin P.flp.jointRandLen → F | Spec.Accepts P.flp meas (List.ofFn jr)} : ℚ) ≤
        ε * (PyField.modulus F : ℚ) ^ P.flp.jointRandLen) (q t : ℕ) :
    (Set.ncard {f : clientInputs P vk ctx → Fin N → UInt8 | HitAt P vk ctx σ valid q t (glue prims _ f)} : ℚ) ≤
      (ε + Spec.paddedSoundness P.flp) ^ P.proofs * Nat.card (clientInputs P vk ctx → Fin N → UInt8) := by
  classical
  have : Fintype (clientInputs P vk ctx) := (clientInputs_finite P vk ctx).fintype
  have hp := modulus_pos_rat F
  have hps : (0 : ℚ) ≤ Spec.paddedSoundness P.flp := by
    rw [padded_eq]
    positivity
  let c : (clientInputs P vk ctx → Fin N → UInt8) → Option (Committed F) := fun f =>
    if h : ∃ d, First P vk ctx σ valid t (glue prims _ f) d then some h.choose else none
  have hc : ∀ f d, c f = some d ↔ First P vk ctx σ valid t (glue prims _ f) d := by
    intro f d
    constructor
    · intro h
      simp only [c] at h
      split at h
      · next h' =>
        rw [← Option.some.inj h]
        exact h'.choose_spec
      · cases h
    · intro h
      have h' : ∃ d, First P vk ctx σ valid t (glue prims _ f) d := ⟨d, h⟩
      simp only [c]
      rw [dif_pos h', h'.choose_spec.unique h]
  have ha : ∀ O d x, c O = some d → c (Function.update O (d.jr P vk ctx) x) = some d := by
    intro O d x h
    rw [hc] at h ⊢
    exact h.of_near W hctx hvk (near_glue W hctx hvk O _ x) (avoids_jr W hctx hvk d.seed_length h.first)
  have hb : ∀ O d x, c O = some d → c (Function.update O (d.qr P vk ctx) x) = some d := by
    intro O d x h
    rw [hc] at h ⊢
    exact h.of_near W hctx hvk (near_glue W hctx hvk O _ x) (avoids_qr W hctx hvk h.fresh)
  rw [Nat.card_eq_fintype_card]
  refine deferred c (Committed.jr P vk ctx) (Committed.qr P vk ctx) ha hb _ ?_
    (fun d x => valueAt fuel (passBound P d) (withHead (prims.turboShake (d.jr P vk ctx) 1) x)) (by positivity) ?_ ?_
  · rintro O ⟨d, hd, -⟩ h
    rw [(hc O d).2 hd] at h
    cases h
  · intro O d hd
    rcases Set.eq_empty_or_nonempty {y | Function.update O (d.qr P vk ctx) y ∈
      {f | HitAt P vk ctx σ valid q t (glue prims _ f)}} with he | ⟨y0, hy0⟩
    · rw [he, Set.ncard_empty, Nat.cast_zero]
      exact mul_nonneg (valueAt_nonneg (passBound_nonneg d) _) (Nat.cast_nonneg _)
    have step : ∀ y, HitAt P vk ctx σ valid q t (glue prims _ (Function.update O (d.qr P vk ctx) y)) → ∃ r,
        (.submit r, .verdict true) ∈ clientRun (runWith P (glue prims _ (Function.update O (d.qr P vk ctx) y))) vk ctx σ q ∧
        r.nonce = d.nonce ∧ commitment (runWith P (glue prims _ (Function.update O (d.qr P vk ctx) y))) ctx r.nonce
          r.inputShares = .ok (d.shares, d.seed) := by
      rintro y ⟨d', h1, r, h2⟩
      have := ((hc _ _).1 (hb O d y hd)).unique h1
      subst this
      exact ⟨r, h2⟩
    have hjr : ∀ y, glue prims _ (Function.update O (d.qr P vk ctx) y) (jrPos P ctx d.seed) =
        withHead (prims.turboShake (d.jr P vk ctx) 1) (O (d.jr P vk ctx)) := by
      intro y
      rw [(near_glue W hctx hvk O (d.qr P vk ctx) y).agree _
        (jr_ne_qr W hctx hvk _ _ (by rw [d.seed_length]; norm_num))]
      exact glue_mem prims _ O (d.jr P vk ctx)
    have hqr : ∀ y, glue prims _ (Function.update O (d.qr P vk ctx) y) (qrPos P vk ctx d.nonce) =
        withHead (prims.turboShake (d.qr P vk ctx) 1) y := by
      intro y
      have := glue_mem prims _ (Function.update O (d.qr P vk ctx) y) (d.qr P vk ctx)
      rw [Function.update_self] at this
      exact this
    obtain ⟨r0, hr0, hn0, hc0⟩ := step y0 hy0
    obtain ⟨-, -, -, -, -, ha0⟩ := submit_accepted.1 hr0
    obtain ⟨ish, ms, ps, bl, jrs, qrs, h1, h2, h3, h4, h5, h6⟩ := accepted_pass W hctx hvk d.seed_length ha0 hc0
    rw [hjr] at h4
    obtain ⟨jq, rfl, -⟩ := flat_surj h4.1
    show _ ≤ valueAt fuel (passBound P d) (withHead (prims.turboShake (d.jr P vk ctx) 1) (O (d.jr P vk ctx))) * _
    rw [valueAt_eq (passBound P d) h4]
    have h7 := ncard_streams (F := F) (fuel := fuel) hN (prims.turboShake (d.qr P vk ctx) 1)
      {q : Fin P.proofs → Fin P.flp.queryRandLen → F | ∀ i : Fin P.proofs, q i ∈ P.Pass ms ps (flat jq) i}
      {y | Function.update O (d.qr P vk ctx) y ∈ {f | HitAt P vk ctx σ valid q t (glue prims _ f)}} (by
        intro y hy
        obtain ⟨r1, hr1, hn1, hc1⟩ := step y hy
        obtain ⟨-, -, -, -, -, ha1⟩ := submit_accepted.1 hr1
        obtain ⟨ish', ms', ps', bl', jrs', qrs', g1, g2, g3, g4, g5, g6⟩ := accepted_pass W hctx hvk d.seed_length ha1 hc1
        have A : Near P vk ctx (glue prims _ (Function.update O (d.qr P vk ctx) y0))
            (glue prims _ (Function.update O (d.qr P vk ctx) y)) (qrPos P vk ctx d.nonce) := by
          refine ⟨fun m hm => ?_, .inr ⟨_, rfl⟩⟩
          rw [(near_glue W hctx hvk O (d.qr P vk ctx) y).agree _ hm, (near_glue W hctx hvk O (d.qr P vk ctx) y0).agree _ hm]
        have := same_report W hctx hvk A hr0 hn0 hr1 hn1
        subst this
        rw [hjr] at g4
        have := g4.unique h4
        subst this
        have hmp : ∀ j < P.shares, ms' j = ms j ∧ ps' j = ps j := by
          intro j hj
          have e : ish' j = ish j := Option.some.inj ((g1 j hj).symm.trans (h1 j hj))
          have := g2 j hj
          rw [e] at this
          exact A.expands W hctx hvk (h2 j hj) this
        rw [hn1, hqr] at g5
        obtain ⟨qq, rfl, hq⟩ := flat_surj g5.1
        refine ⟨qq, fun i => ?_, g5⟩
        rw [← Pass_congr hmp]
        exact g6 i i.2 _ (hq i))
    have h8 := pass_ncard W hC hg h3 (ps := ps) jq
    have hQ : (0 : ℚ) < Fintype.card (Fin P.proofs → Fin P.flp.queryRandLen → F) := by exact_mod_cast Fintype.card_pos
    refine le_of_mul_le_mul_right ?_ hQ
    refine h7.trans ?_
    refine (mul_le_mul_of_nonneg_right h8 (Nat.cast_nonneg _)).trans (le_of_eq ?_)
    ring
  · rintro d ⟨O, hO⟩
    have hF := (hc _ _).1 hO
    obtain ⟨meas, hm, hl, hv⟩ := hF.bad
    have hd : 0 < d.shares.length := by
      rw [commitment_length hF.commit]
      have := W.shares_ge
      omega
    have h1 := sum_passBound (vk := vk) (ctx := ctx) hd hm (hε meas hl hv)
    have h2 := sum_valueAt (F := F) (fuel := fuel) hN (prims.turboShake (d.jr P vk ctx) 1) (passBound_nonneg (P := P) d)
    have hJ : (0 : ℚ) < Fintype.card (Fin P.proofs → Fin P.flp.jointRandLen → F) := by exact_mod_cast Fintype.card_pos
    refine le_of_mul_le_mul_right ?_ hJ
    refine h2.trans ?_
    refine (mul_le_mul_of_nonneg_right h1 (Nat.cast_nonneg _)).trans (le_of_eq ?_)
    ring

/-- A Client that wins without a collision is committed to an invalid measurement in one of its moves. -/
theorem wins_hit (hP : 0 < P.proofs) {T : Bytes → ℕ → UInt8} {σ : Spec.ClientStrategy F} {valid : List F → Prop} {q : ℕ}
    (hw : Spec.ClientWins (runWith P T) ctx valid (clientRun (runWith P T) vk ctx σ q))
    (hc : ¬ Spec.Collides (runWith P T) ctx (clientRun (runWith P T) vk ctx σ q)) :
    ∃ t < q, HitAt P vk ctx σ valid q t T := by
  classical
  obtain ⟨r, hr, ms, seed, h1, meas, hm, hv⟩ := hw
  obtain ⟨t, ht, h2, h3, h4, h5⟩ := submit_accepted.1 hr
  have hs := commitment_seed hctx h1
  have hl := accepted_len W hctx hvk hP hs h5 h1 hm
  let d : Committed F := ⟨r.nonce, ms, seed, h3, hs⟩
  by_cases hj : 0 < P.flp.jointRandLen
  · have hex : ∃ k, k < q ∧ ∃ ms', commitment (runWith P T) ctx (σ ((clientRun (runWith P T) vk ctx σ k).map Prod.snd)).nonce
        (σ ((clientRun (runWith P T) vk ctx σ k).map Prod.snd)).inputShares = .ok (ms', seed) := by
      refine ⟨t, ht, ms, ?_⟩
      rw [h2]
      exact h1
    obtain ⟨hk, ms', hk'⟩ := Nat.find_spec hex
    have hmin := fun k (h : k < Nat.find hex) => Nat.find_min hex h
    set k := Nat.find hex with hkdef
    have hkt : k ≤ t := Nat.find_min' hex ⟨ht, ms, by rw [h2]; exact h1⟩
    have heq : (r.nonce, ms) = ((σ ((clientRun (runWith P T) vk ctx σ k).map Prod.snd)).nonce, ms') := by
      by_contra hne
      exact hc ⟨hj, _, hr, _, mem_clientRun.2 ⟨k, hk, rfl⟩, ms, ms', seed, h1, hk', hne⟩
    simp only [Prod.mk.injEq] at heq
    obtain ⟨e1, rfl⟩ := heq
    refine ⟨k, hk, d, ⟨e1.symm, by rw [← e1] at hk'; exact hk', ?_, ?_, meas, hm, hl, hv⟩, r, hr, rfl, h1⟩
    · intro hc'
      obtain ⟨r', v, h6, h7⟩ := mem_submittedNonces.1 hc'
      exact h4 (mem_submittedNonces.2 ⟨r', v, clientRun_mono hkt _ h6, h7⟩)
    · intro _ x hx ms' hx'
      obtain ⟨k', hk'', rfl⟩ := mem_clientRun.1 hx
      exact hmin k' hk'' ⟨by omega, ms', hx'⟩
  · exact ⟨t, ht, d, ⟨by rw [h2]; rfl, by rw [h2]; exact h1, h4, fun h => absurd h hj, meas, hm, hl, hv⟩, r, hr, rfl, h1⟩

theorem client_bound (hP : 0 < P.proofs) (hC : Spec.Circuit P.flp) (hg : P.flp.gadgets ≠ []) {N : ℕ}
    (hN : fuel * PyField.encSize F ≤ N) {σ : Spec.ClientStrategy F} {valid : List F → Prop} {ε : ℚ} (h0 : 0 ≤ ε)
    (hε : ∀ meas : List F, meas.length = P.flp.measLen → ¬ valid meas →
      (Set.ncard {jr : Fin P.flp.jointRandLen → F | Spec.Accepts P.flp meas (List.ofFn jr)} : ℚ) ≤
        ε * (PyField.modulus F : ℚ) ^ P.flp.jointRandLen) (q : ℕ) :
    (Set.ncard {T ∈ oracles prims (clientInputs P vk ctx) N |
      Spec.ClientWins (runWith P T) ctx valid (clientRun (runWith P T) vk ctx σ q) ∧
        ¬ Spec.Collides (runWith P T) ctx (clientRun (runWith P T) vk ctx σ q)} : ℚ) ≤
      q * (ε + Spec.paddedSoundness P.flp) ^ P.proofs * Set.ncard (oracles prims (clientInputs P vk ctx) N) := by
  classical
  have : Fintype (clientInputs P vk ctx) := (clientInputs_finite P vk ctx).fintype
  rw [ncard_glue]
  have hcard : Set.ncard (oracles prims (clientInputs P vk ctx) N) = Nat.card (clientInputs P vk ctx → Fin N → UInt8) := by
    have := ncard_glue prims (clientInputs P vk ctx) (N := N) fun _ => True
    simp only [and_true, Set.ofPred_mem_eq] at this
    rw [this, ← Set.ncard_univ]
    congr 1
  rw [hcard]
  have hsub : {f : clientInputs P vk ctx → Fin N → UInt8 |
      Spec.ClientWins (runWith P (glue prims _ f)) ctx valid (clientRun (runWith P (glue prims _ f)) vk ctx σ q) ∧
        ¬ Spec.Collides (runWith P (glue prims _ f)) ctx (clientRun (runWith P (glue prims _ f)) vk ctx σ q)} ⊆
      ⋃ t ∈ Finset.range q, {f : clientInputs P vk ctx → Fin N → UInt8 | HitAt P vk ctx σ valid q t (glue prims _ f)} := by
    rintro f ⟨h1, h2⟩
    obtain ⟨t, ht, h⟩ := wins_hit W hctx hvk hP h1 h2
    simp only [Set.mem_iUnion, Finset.mem_range]
    exact ⟨t, ht, h⟩
  have h1 := (Set.ncard_le_ncard hsub (Set.toFinite _)).trans (Finset.set_ncard_biUnion_le _ _)
  have h2 : (∑ t ∈ Finset.range q, (Set.ncard {f : clientInputs P vk ctx → Fin N → UInt8 |
      HitAt P vk ctx σ valid q t (glue prims _ f)} : ℚ)) ≤ ∑ t ∈ Finset.range q,
      (ε + Spec.paddedSoundness P.flp) ^ P.proofs * Nat.card (clientInputs P vk ctx → Fin N → UInt8) :=
    sum_le_sum fun t _ => hit_bound W hctx hvk hC hg hN h0 hε q t
  refine le_trans (by exact_mod_cast h1) (h2.trans (le_of_eq ?_))
  rw [sum_const, Finset.card_range, nsmul_eq_mul]
  ring

end
end Prio3
end Vdaf
