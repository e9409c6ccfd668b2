import Verif.Proofs.RomBad

/-! The probability that a Client that evaluates the oracle wins. -/

set_option linter.unusedSectionVars false

namespace Vdaf.Prio3
open Finset
open Spec (tag runWith withOracle OracleMove OracleReply OracleStrategy EncodedReport oracleRun oracleRespond sentNonces
  decodeReport acceptsEncoded accepts measShares oracleInputs commitment oracles)
attribute [local instance] bytesFintype
variable {F : Type} [NttField F] {Meas Agg : Type} {prims : Prims} {fuel : ℕ}
  {P : Prio3 (XofTurboShake128 prims fuel) F Meas Agg} {T T' : Bytes → ℕ → UInt8}

theorem oracleInputs_finite (P : Prio3 (XofTurboShake128 prims fuel) F Meas Agg) (vk ctx : Bytes) :
    (oracleInputs P vk ctx).Finite := by
  have h1 : ∀ n, {l : Bytes | l.length = n}.Finite := fun n => List.finite_length_eq UInt8 n
  refine (((h1 16).image fun nonce => qrPos P vk ctx nonce).union (((h1 32).image fun s => jrPos P ctx s).union
    (((h1 (32 * P.shares)).image fun b => turboInput (List.replicate 32 0) (tag P.id 6 ctx) b).union
      ((h1 32).image2 (fun b c => turboInput b (tag P.id 7 ctx) c)
        (h1 (1 + 16 + PyField.encSize F * P.flp.measLen)))))).subset ?_
  rintro m (⟨nonce, h, rfl⟩ | ⟨s, h, rfl⟩ | ⟨b, h, rfl⟩ | ⟨b, c, h, h', rfl⟩)
  · exact .inl ⟨nonce, h, rfl⟩
  · exact .inr (.inl ⟨s, h, rfl⟩)
  · exact .inr (.inr (.inl ⟨b, h, rfl⟩))
  · exact .inr (.inr (.inr ⟨b, h, c, h', rfl⟩))

theorem opened_commitment {ctx : Bytes} (hctx : ctx.length + 8 < 2 ^ 16) {e : EncodedReport} {r : Spec.Report F}
    {xs : List (List F × Option Bytes)} (ho : opened P T ctx e = some (r, xs)) :
    commitment (runWith P T) ctx e.nonce r.inputShares = .ok (xs.map Prod.fst, trueSeed P T ctx e.nonce xs) := by
  have wf := opened_wf ho
  obtain ⟨⟨h1, h2⟩, h3, h4⟩ := opened_iff.1 ho
  unfold Spec.commitment Spec.seedOf
  rw [h4, Except.ok_bind', if_pos (show 0 < (runWith P T).flp.jointRandLen from h2)]
  have h5 : mapRes (fun j => do
      let x ← getI xs j
      match x.2 with
      | none => .error (.value "no blind")
      | some blind => Spec.jointRandPart (runWith P T) ctx j blind x.1 e.nonce) (List.range P.shares) =
        .ok (trueParts P T ctx e.nonce xs) := by
    apply mapRes_range_tab
    intro j hj
    rw [getI_of_some (wf.blind j hj).1, Except.ok_bind']
    exact jointRandPart_head hctx (by rw [(wf.blind j hj).2]; norm_num)
  refine Except.bind_eq_ok.2 ⟨_, Except.bind_eq_ok.2 ⟨_, h5, jointRandSeed_head hctx⟩, rfl⟩

section
variable (P) (ctx : Bytes)

/-- The parts and the seed were computed by evaluating the oracle at inputs in `H`. -/
def Extracts (T : Bytes → ℕ → UInt8) (H : Set Bytes) (d : Committed F) : Prop :=
  ∃ (b : ℕ → Bytes) (parts : List Bytes), d.shares.length = P.shares ∧ parts.length = P.shares ∧
    (∀ p ∈ parts, p.length = 32) ∧
    (∀ j (hj : j < d.shares.length), d.shares[j].length = P.flp.measLen ∧ (b j).length = 32 ∧
      partPos P ctx j (b j) d.shares[j] d.nonce ∈ H ∧
      parts[j]? = some (headOf T (partPos P ctx j (b j) d.shares[j] d.nonce))) ∧
    seedPos P ctx parts ∈ H ∧ headOf T (seedPos P ctx parts) = d.seed

/-- The parts and the seeds are different at different inputs in `H`. -/
def NoColl (T : Bytes → ℕ → UInt8) (H : Set Bytes) : Prop :=
  ∀ u ∈ H, ∀ v ∈ H, ((u ∈ R7 P ctx ∧ v ∈ R7 P ctx) ∨ (u ∈ R6 P ctx ∧ v ∈ R6 P ctx)) → headOf T u = headOf T v → u = v

end

/-- In move `t` the Client is committed to `d`, whose measurement is invalid: the joint randomness has not been used before,
and neither has the query randomness. -/
structure Begins (P : Prio3 (XofTurboShake128 prims fuel) F Meas Agg) (vk ctx : Bytes) (σ : OracleStrategy)
    (valid : List F → Prop) (t : ℕ) (T : Bytes → ℕ → UInt8) (d : Committed F) : Prop where
  commit : (∃ e r, moveAt P T vk ctx σ t = .submit e ∧ e.nonce = d.nonce ∧ decodeReport P e = .ok r ∧
      commitment (runWith P T) ctx d.nonce r.inputShares = .ok (d.shares, d.seed)) ∨
    (0 < P.flp.jointRandLen ∧ moveAt P T vk ctx σ t = .query (jrPos P ctx d.seed) ∧
      Extracts P ctx T (Seen P T vk ctx σ t) d ∧ NoColl P ctx T (Seen P T vk ctx σ t))
  fresh : d.nonce ∉ sentNonces (oracleRun (runWith P T) vk ctx σ t)
  first : 0 < P.flp.jointRandLen → jrPos P ctx d.seed ∉ Seen P T vk ctx σ t
  bad : ∃ meas, Spec.IsSum (fun j : Fin d.shares.length => d.shares[j]) meas ∧ meas.length = P.flp.measLen ∧ ¬ valid meas
  length : d.shares.length = P.shares

section
variable (W : P.WF) {vk ctx : Bytes} (hctx : ctx.length + 8 < 2 ^ 16) (hvk : vk.length = 32)
include W hctx hvk

theorem Extracts.unique {H : Set Bytes} {d d' : Committed F} (hs : d.seed = d'.seed) (h : Extracts P ctx T H d)
    (h' : Extracts P ctx T H d') (hc : NoColl P ctx T H) : d = d' := by
  obtain ⟨n, ms, s, hn, hsl⟩ := d
  obtain ⟨n', ms', s', hn', hsl'⟩ := d'
  obtain ⟨b, ps, a1, a2, a3, a4, a5, a6⟩ := h
  obtain ⟨b', ps', b1, b2, b3, b4, b5, b6⟩ := h'
  simp only at hs a1 a2 a3 a4 a5 a6 b1 b2 b3 b4 b5 b6
  subst hs
  have e1 : ps = ps' := seedPos_inj W hctx hvk a2 a3 b2 b3
    (hc _ a5 _ b5 (.inr ⟨⟨_, a2, a3, rfl⟩, ⟨_, b2, b3, rfl⟩⟩) (a6.trans b6.symm))
  subst e1
  have e2 : ∀ j (hj : j < ms.length) (hj' : j < ms'.length), ms[j] = ms'[j] ∧ n = n' := by
    intro j hj hj'
    obtain ⟨c1, c2, c3, c4⟩ := a4 j hj
    obtain ⟨d1, d2, d3, d4⟩ := b4 j hj'
    have hjs : j < P.shares := a1 ▸ hj
    have := hc _ c3 _ d3 (.inl ⟨⟨j, _, _, _, hjs, c2, c1, hn, rfl⟩, ⟨j, _, _, _, hjs, d2, d1, hn', rfl⟩⟩)
      (Option.some.inj (c4.symm.trans d4))
    exact (partPos_inj W hctx hvk hjs hjs c2 d2 hn hn' this).2.2
  have hpos : 0 < P.shares := by have := W.shares_ge; omega
  have e3 := (e2 0 (by omega) (by omega)).2
  subst e3
  have e4 : ms = ms' := List.ext_getElem (by rw [a1, b1]) fun j h1 h2 => (e2 j h1 h2).1
  subst e4
  rfl

theorem Begins.unique {σ : OracleStrategy} {valid : List F → Prop} {t : ℕ} {d d' : Committed F}
    (h : Begins P vk ctx σ valid t T d) (h' : Begins P vk ctx σ valid t T d') : d = d' := by
  rcases h.commit with ⟨e, r, h1, h2, h3, h4⟩ | ⟨-, h1, h2, h3⟩
  · rcases h'.commit with ⟨e', r', k1, k2, k3, k4⟩ | ⟨-, k1, -⟩
    · rw [h1] at k1
      cases k1
      rw [h3] at k3
      cases k3
      obtain ⟨n, ms, s, hn, hs⟩ := d
      obtain ⟨n', ms', s', hn', hs'⟩ := d'
      simp only at h2 h4 k2 k4
      subst h2
      subst k2
      rw [h4] at k4
      simp only [Except.ok.injEq, Prod.mk.injEq] at k4
      obtain ⟨rfl, rfl⟩ := k4
      rfl
    · rw [h1] at k1
      cases k1
  · rcases h'.commit with ⟨e', r', k1, -⟩ | ⟨-, k1, k2, k3⟩
    · rw [h1] at k1
      cases k1
    · rw [h1] at k1
      have := jr_inj W hctx hvk (by rw [d.seed_length]; norm_num) (by rw [d'.seed_length]; norm_num) (OracleMove.query.inj k1)
      exact Extracts.unique W hctx hvk this h2 k2 h3

theorem Near.agreeOn {m0 : Bytes} (A : Near P vk ctx T T' m0) {B : Set Bytes} (hB : m0 ∉ B) : AgreeOn P ctx T T' B := by
  refine ⟨fun m hm => A.agree m fun h => ?_, fun m hm => A.agree m fun h => hB (h ▸ hm)⟩
  rcases A.pos with ⟨s, hs, h'⟩ | ⟨nonce, h'⟩
  · exact hm 3 s _ (by omega) hs (h.trans h')
  · exact hm 5 vk _ (by omega) (by rw [hvk]; norm_num) (h.trans h')

theorem Begins.of_near {σ : OracleStrategy} {valid : List F → Prop} {t : ℕ} {d : Committed F} {m0 : Bytes}
    (A : Near P vk ctx T T' m0) (h : Begins P vk ctx σ valid t T d) (hm : m0 ∉ Seen P T vk ctx σ t) :
    Begins P vk ctx σ valid t T' d := by
  have B := A.agreeOn W hctx hvk hm
  obtain ⟨h1, h2, h3, h4⟩ := B.seen W hctx hvk
  refine ⟨?_, by rw [h1]; exact h.fresh, by rw [h4 t le_rfl]; exact h.first, h.bad, h.length⟩
  rw [h2 t le_rfl, h4 t le_rfl]
  rcases h.commit with ⟨e, r, k1, k2, k3, k4⟩ | ⟨k0, k1, ⟨b, ps, a1, a2, a3, a4, a5, a6⟩, k3⟩
  · exact .inl ⟨e, r, k1, k2, k3, by rw [A.commitment W hctx hvk]; exact k4⟩
  · refine .inr ⟨k0, k1, ⟨b, ps, a1, a2, a3, fun j hj => ?_, a5, ?_⟩, ?_⟩
    · obtain ⟨c1, c2, c3, c4⟩ := a4 j hj
      exact ⟨c1, c2, c3, by rw [headOf_congr (B.on _ c3)]; exact c4⟩
    · rw [headOf_congr (B.on _ a5)]
      exact a6
    · intro u hu v hv
      rw [headOf_congr (B.on _ hu), headOf_congr (B.on _ hv)]
      exact k3 u hu v hv

theorem qr_not_seen {σ : OracleStrategy} (hσ : Spec.IgnoresKey P vk ctx σ) {t : ℕ} {nonce : Bytes}
    (hn : nonce.length = 16) (h : nonce ∉ sentNonces (oracleRun (runWith P T) vk ctx σ t)) : qrPos P vk ctx nonce ∉ Seen P T vk ctx σ t := by
  rintro ⟨k, hk, hm⟩
  rcases touched_qr W hctx hvk hm with h1 | ⟨e, h1, h2⟩
  · exact hσ _ _ hn h1
  · exact h (mem_sentNonces_run.2 ⟨k, hk, e, h1, h2⟩)

/-- Which report with a given nonce is accepted does not depend on the query randomness. -/
theorem same_sent {σ : OracleStrategy} (hσ : Spec.IgnoresKey P vk ctx σ) {q : ℕ} {nonce : Bytes}
    (A : Near P vk ctx T T' (qrPos P vk ctx nonce)) {e e' : EncodedReport} (hl : nonce.length = 16)
    (h : (.submit e, .verdict true) ∈ oracleRun (runWith P T) vk ctx σ q) (hn : e.nonce = nonce)
    (h' : (.submit e', .verdict true) ∈ oracleRun (runWith P T') vk ctx σ q) (hn' : e'.nonce = nonce) : e = e' := by
  have key : ∀ {T T' : Bytes → ℕ → UInt8} {e e' : EncodedReport} {t t' : ℕ}, Near P vk ctx T T' (qrPos P vk ctx nonce) →
      e.nonce = nonce → e'.nonce = nonce → t ≤ t' → moveAt P T vk ctx σ t = .submit e →
      e.nonce ∉ sentNonces (oracleRun (runWith P T) vk ctx σ t) →
      moveAt P T' vk ctx σ t' = .submit e' →
      e'.nonce ∉ sentNonces (oracleRun (runWith P T') vk ctx σ t') → e = e' := by
    intro T T' e e' t t' A hn hn' ht h1 h2 h3 h4
    rw [hn] at h2
    have B := A.agreeOn W hctx hvk (qr_not_seen W hctx hvk hσ hl h2)
    rw [← (B.seen W hctx hvk).2.1 t le_rfl] at h1
    rcases ht.lt_or_eq with ht | rfl
    · exact absurd (mem_sentNonces_run.2 ⟨t, ht, e, h1, hn.trans hn'.symm⟩) h4
    · rw [h1] at h3
      exact OracleMove.submit.inj h3
  obtain ⟨t, -, h1, -, h2, -⟩ := sent_accepted.1 h
  obtain ⟨t', -, h3, -, h4, -⟩ := sent_accepted.1 h'
  rcases Nat.le_total t t' with ht | ht
  · exact key A hn hn' ht h1 h2 h3 h4
  · exact (key A.symm hn' hn ht h3 h4 h1 h2).symm

/-- The Client is committed to an invalid measurement in move `t`, and a report for it is accepted. -/
def HitsAt (P : Prio3 (XofTurboShake128 prims fuel) F Meas Agg) (vk ctx : Bytes) (σ : OracleStrategy)
    (valid : List F → Prop) (q t : ℕ) (T : Bytes → ℕ → UInt8) : Prop :=
  ∃ d : Committed F, Begins P vk ctx σ valid t T d ∧ ∃ e r, (.submit e, .verdict true) ∈ oracleRun (runWith P T) vk ctx σ q ∧
    e.nonce = d.nonce ∧ decodeReport P e = .ok r ∧
    commitment (runWith P T) ctx e.nonce r.inputShares = .ok (d.shares, d.seed)

theorem near_glue' {S : Set Bytes} [DecidableEq S] {N : ℕ} (f : S → Fin N → UInt8) {m0 : S}
    (hm : (m0 : Bytes) ∈ Spec.clientInputs P vk ctx) (y : Fin N → UInt8) :
    Near P vk ctx (glue prims S f) (glue prims S (Function.update f m0 y)) m0 := by
  refine ⟨fun m h => glue_upd f m0 y h, ?_⟩
  rcases hm with ⟨nonce, h1, h2⟩ | ⟨s, h1, h2⟩
  · exact .inr ⟨nonce, h2⟩
  · exact .inl ⟨s, by rw [h1]; norm_num, h2⟩

theorem hits_bound (hC : Spec.Circuit P.flp) (hg : P.flp.gadgets ≠ []) {S : Set Bytes} [Fintype S]
    (hS : oracleInputs P vk ctx ⊆ S) {N : ℕ} (hN : fuel * PyField.encSize F ≤ N)
    {σ : OracleStrategy} (hσ : Spec.IgnoresKey P vk ctx σ) {valid : List F → Prop} {ε : ℚ} (h0 : 0 ≤ ε)
    (hε : ∀ meas : List F, meas.length = P.flp.measLen → ¬ valid meas →
      (Set.ncard {jr : Fin P.flp.jointRandLen → F | Spec.Accepts P.flp meas (List.ofFn jr)} : ℚ) ≤
        ε * (PyField.modulus F : ℚ) ^ P.flp.jointRandLen) (q t : ℕ) :
    (Set.ncard {f : S → Fin N → UInt8 | HitsAt P vk ctx σ valid q t (glue prims S f)} : ℚ) ≤
      (ε + Spec.paddedSoundness P.flp) ^ P.proofs * Fintype.card (S → Fin N → UInt8) := by
  classical
  have hp := modulus_pos_rat F
  have hps : (0 : ℚ) ≤ Spec.paddedSoundness P.flp := by
    rw [padded_eq]
    positivity
  have hSq : ∀ d : Committed F, qrPos P vk ctx d.nonce ∈ S := fun d => hS (.inl ⟨d.nonce, d.nonce_length, rfl⟩)
  have hSj : ∀ d : Committed F, jrPos P ctx d.seed ∈ S := fun d => hS (.inr (.inl ⟨d.seed, d.seed_length, rfl⟩))
  let qr : Committed F → S := fun d => ⟨_, hSq d⟩
  let jr : Committed F → S := fun d => if 0 < P.flp.jointRandLen then ⟨_, hSj d⟩ else qr d
  have hqc : ∀ d : Committed F, ((qr d : S) : Bytes) ∈ Spec.clientInputs P vk ctx := fun d =>
    .inl ⟨d.nonce, d.nonce_length, rfl⟩
  let c : (S → Fin N → UInt8) → Option (Committed F) := fun f =>
    if h : ∃ d, Begins P vk ctx σ valid t (glue prims S f) d then some h.choose else none
  have hc : ∀ f d, c f = some d ↔ Begins P vk ctx σ valid t (glue prims S f) d := by
    intro f d
    constructor
    · intro h
      simp only [c] at h
      split at h
      · next h' =>
        rw [← Option.some.inj h]
        exact h'.choose_spec
      · cases h
    · intro h
      have h' : ∃ d, Begins P vk ctx σ valid t (glue prims S f) d := ⟨d, h⟩
      simp only [c]
      rw [dif_pos h', h'.choose_spec.unique W hctx hvk h]
  have hb : ∀ O d x, c O = some d → c (Function.update O (qr d) x) = some d := by
    intro O d x h
    rw [hc] at h ⊢
    exact h.of_near W hctx hvk (near_glue' W hctx hvk O (hqc d) x) (qr_not_seen W hctx hvk hσ d.nonce_length h.fresh)
  have ha : ∀ O d x, c O = some d → c (Function.update O (jr d) x) = some d := by
    intro O d x h
    by_cases hj : 0 < P.flp.jointRandLen
    · have e : jr d = ⟨_, hSj d⟩ := if_pos hj
      rw [e]
      rw [hc] at h ⊢
      exact h.of_near W hctx hvk (near_glue' W hctx hvk (m0 := ⟨_, hSj d⟩) O (.inr ⟨d.seed, d.seed_length, rfl⟩) x)
        (h.first hj)
    · have e : jr d = qr d := if_neg hj
      rw [e]
      exact hb O d x h
  refine deferred c jr qr ha hb _ ?_
    (fun d x => valueAt fuel (passBound P d) (withHead (prims.turboShake (jr d) 1) x)) (by positivity) ?_ ?_
  · rintro O ⟨d, hd, -⟩ h
    rw [(hc O d).2 hd] at h
    cases h
  · intro O d hd
    rcases Set.eq_empty_or_nonempty {y | Function.update O (qr d) y ∈
      {f | HitsAt P vk ctx σ valid q t (glue prims S f)}} with he | ⟨y0, hy0⟩
    · rw [he, Set.ncard_empty, Nat.cast_zero]
      exact mul_nonneg (valueAt_nonneg (passBound_nonneg d) _) (Nat.cast_nonneg _)
    have step : ∀ y, HitsAt P vk ctx σ valid q t (glue prims S (Function.update O (qr d) y)) → ∃ e r,
        (.submit e, .verdict true) ∈ oracleRun (runWith P (glue prims S (Function.update O (qr d) y))) vk ctx σ q ∧
        e.nonce = d.nonce ∧ decodeReport P e = .ok r ∧ commitment (runWith P (glue prims S (Function.update O (qr d) y))) ctx
          e.nonce r.inputShares = .ok (d.shares, d.seed) := by
      rintro y ⟨d', h1, e, r, h2⟩
      have := ((hc _ _).1 (hb O d y hd)).unique W hctx hvk h1
      subst this
      exact ⟨e, r, h2⟩
    have hjr : ∀ y jrs, Ev F fuel (P.flp.jointRandLen * P.proofs)
        (glue prims S (Function.update O (qr d) y) (jrPos P ctx d.seed)) jrs →
        Ev F fuel (P.flp.jointRandLen * P.proofs) (withHead (prims.turboShake (jr d) 1) (O (jr d))) jrs := by
      intro y jrs h
      by_cases hj : 0 < P.flp.jointRandLen
      · have e : jr d = ⟨_, hSj d⟩ := if_pos hj
        rw [e]
        rw [glue_upd O (qr d) y (jr_ne_qr W hctx hvk _ _ (by rw [d.seed_length]; norm_num))] at h
        rw [← glue_mem prims S O ⟨_, hSj d⟩]
        exact h
      · have h0 : P.flp.jointRandLen = 0 := by omega
        rw [h0, Nat.zero_mul] at h ⊢
        have := List.length_eq_zero_iff.1 h.1
        subst this
        exact ⟨rfl, _, (List.nil_append _).symm⟩
    have hqr : ∀ y, glue prims S (Function.update O (qr d) y) (qrPos P vk ctx d.nonce) =
        withHead (prims.turboShake (qr d) 1) y := by
      intro y
      have := glue_mem prims S (Function.update O (qr d) y) (qr d)
      rw [Function.update_self] at this
      exact this
    obtain ⟨e0, r0, hr0, hn0, hd0, hc0⟩ := step y0 hy0
    have hrn : ∀ {e : EncodedReport} {r : Spec.Report F}, decodeReport P e = .ok r → r.nonce = e.nonce := fun h =>
      (decodeReport_ok h).1
    obtain ⟨-, -, -, -, -, ha0⟩ := sent_accepted.1 hr0
    obtain ⟨r0', hd0', ha0⟩ := acceptsEncoded_iff.1 ha0
    rw [decodeReport_runWith, hd0] at hd0'
    cases hd0'
    rw [← hrn hd0] at hc0
    obtain ⟨ish, ms, ps, bl, jrs, qrs, h1, h2, h3, h4, h5, h6⟩ := accepted_pass W hctx hvk d.seed_length ha0 hc0
    have h4 := hjr _ _ h4
    obtain ⟨jq, rfl, -⟩ := flat_surj h4.1
    show _ ≤ valueAt fuel (passBound P d) (withHead (prims.turboShake (jr d) 1) (O (jr d))) * _
    rw [valueAt_eq (passBound P d) h4]
    have h7 := ncard_streams (F := F) (fuel := fuel) hN (prims.turboShake (qr d) 1)
      {q : Fin P.proofs → Fin P.flp.queryRandLen → F | ∀ i : Fin P.proofs, q i ∈ P.Pass ms ps (flat jq) i}
      {y | Function.update O (qr d) y ∈ {f | HitsAt P vk ctx σ valid q t (glue prims S f)}} (by
        intro y hy
        obtain ⟨e1, r1, hr1, hn1, hd1, hc1⟩ := step y hy
        have A : Near P vk ctx (glue prims S (Function.update O (qr d) y0))
            (glue prims S (Function.update O (qr d) y)) (qrPos P vk ctx d.nonce) := by
          refine ⟨fun m hm => ?_, .inr ⟨_, rfl⟩⟩
          rw [glue_upd O (qr d) y hm, glue_upd O (qr d) y0 hm]
        have := same_sent W hctx hvk hσ A d.nonce_length hr0 hn0 hr1 hn1
        subst this
        rw [hd0] at hd1
        cases hd1
        obtain ⟨-, -, -, -, -, ha1⟩ := sent_accepted.1 hr1
        obtain ⟨r1', hd1', ha1⟩ := acceptsEncoded_iff.1 ha1
        rw [decodeReport_runWith, hd0] at hd1'
        cases hd1'
        rw [← hrn hd0] at hc1
        obtain ⟨ish', ms', ps', bl', jrs', qrs', g1, g2, g3, g4, g5, g6⟩ := accepted_pass W hctx hvk d.seed_length ha1 hc1
        have := (hjr _ _ g4).unique h4
        subst this
        have hmp : ∀ j < P.shares, ms' j = ms j ∧ ps' j = ps j := by
          intro j hj
          have e : ish' j = ish j := Option.some.inj ((g1 j hj).symm.trans (h1 j hj))
          have := g2 j hj
          rw [e] at this
          exact A.expands W hctx hvk (h2 j hj) this
        rw [hrn hd0, hn1, hqr] at g5
        obtain ⟨qq, rfl, hq⟩ := flat_surj g5.1
        refine ⟨qq, fun i => ?_, g5⟩
        rw [← Pass_congr hmp]
        exact g6 i i.2 _ (hq i))
    have h8 := pass_ncard W hC hg h3 (ps := ps) jq
    have hQ : (0 : ℚ) < Fintype.card (Fin P.proofs → Fin P.flp.queryRandLen → F) := by exact_mod_cast Fintype.card_pos
    refine le_of_mul_le_mul_right ?_ hQ
    refine h7.trans ?_
    refine (mul_le_mul_of_nonneg_right h8 (Nat.cast_nonneg _)).trans (le_of_eq ?_)
    ring
  · rintro d ⟨O, hO⟩
    have hF := (hc _ _).1 hO
    obtain ⟨meas, hm, hl, hv⟩ := hF.bad
    have hd : 0 < d.shares.length := by
      rw [hF.length]
      have := W.shares_ge
      omega
    have h1 := sum_passBound (vk := vk) (ctx := ctx) hd hm (hε meas hl hv)
    have h2 := sum_valueAt (F := F) (fuel := fuel) hN (prims.turboShake (jr d) 1) (passBound_nonneg (P := P) d)
    have hJ : (0 : ℚ) < Fintype.card (Fin P.proofs → Fin P.flp.jointRandLen → F) := by exact_mod_cast Fintype.card_pos
    refine le_of_mul_le_mul_right ?_ hJ
    refine h2.trans ?_
    refine (mul_le_mul_of_nonneg_right h1 (Nat.cast_nonneg _)).trans (le_of_eq ?_)
    ring

theorem index7 {mv : OracleMove} {m : Bytes} (h : m ∈ inp7 P T ctx mv) : ∃ i < P.shares, (inp7 P T ctx mv)[i]? = some m := by
  obtain ⟨i, hi, h1⟩ := List.getElem_of_mem h
  refine ⟨i, lt_of_lt_of_le hi ?_, by rw [List.getElem?_eq_getElem hi, h1]⟩
  have := W.shares_ge
  cases mv with
  | query => simp only [inp7, List.length_singleton]; omega
  | submit e =>
    simp only [inp7]
    split
    · simp
    · simp

theorem index6 {mv : OracleMove} {m : Bytes} (h : m ∈ inp6 P T ctx mv) :
    ∃ i < P.shares + 1, (inp6 P T ctx mv)[i]? = some m := by
  obtain ⟨i, hi, h1⟩ := List.getElem_of_mem h
  refine ⟨i, lt_of_lt_of_le hi ?_, by rw [List.getElem?_eq_getElem hi, h1]⟩
  cases mv with
  | query => simp only [inp6, List.length_singleton]; omega
  | submit e =>
    simp only [inp6]
    split
    · simp
    · simp

theorem noColl {σ : OracleStrategy} {q : ℕ} (hb : ¬ Bad P vk ctx σ T q) : NoColl P ctx T (Seen P T vk ctx σ q) := by
  have key : ∀ {u v : Bytes} {k k' : ℕ}, k < q → k' ≤ k → u ∈ touched P T vk ctx (moveAt P T vk ctx σ k) →
      u ∉ Seen P T vk ctx σ k → v ∈ touched P T vk ctx (moveAt P T vk ctx σ k') →
      ((u ∈ R7 P ctx ∧ v ∈ R7 P ctx) ∨ (u ∈ R6 P ctx ∧ v ∈ R6 P ctx)) → headOf T u = headOf T v → u = v := by
    intro u v k k' hk hkk hu hus hv hc he
    by_contra hne
    rcases hc with ⟨c1, c2⟩ | ⟨c1, c2⟩
    · obtain ⟨i, hi, h1⟩ := index7 W hctx hvk (touched_R7 W hctx hvk c1 hu)
      obtain ⟨i', hi', h2⟩ := index7 W hctx hvk (touched_R7 W hctx hvk c2 hv)
      exact hb ⟨k, hk, k', by omega, .inl ⟨i, hi, i', hi', u, v, ⟨h1, c1, hus⟩, hkk, h2, Ne.symm hne, he⟩⟩
    · obtain ⟨i, hi, h1⟩ := index6 W hctx hvk (touched_R6 W hctx hvk c1 hu)
      obtain ⟨i', hi', h2⟩ := index6 W hctx hvk (touched_R6 W hctx hvk c2 hv)
      exact hb ⟨k, hk, k', by omega, .inr (.inl ⟨i, hi, i', hi', u, v, ⟨h1, c1, hus⟩, hkk, h2, Ne.symm hne, he⟩)⟩
  intro u hu v hv hc he
  obtain ⟨k, hk, hu1, hu2⟩ := first_seen hu
  obtain ⟨k', hk', hv1, hv2⟩ := first_seen hv
  rcases Nat.le_total k' k with h | h
  · exact key hk h hu1 hu2 hv1 hc he
  · exact (key hk' h hv1 hv2 hu1 (hc.imp And.symm And.symm) he.symm).symm

theorem wins_hits (hP : 0 < P.proofs) {σ : OracleStrategy} {valid : List F → Prop} {q : ℕ}
    (hw : Spec.OracleWins (runWith P T) ctx valid (oracleRun (runWith P T) vk ctx σ q)) :
    (∃ t < q, HitsAt P vk ctx σ valid q t T) ∨ (0 < P.flp.jointRandLen ∧ Bad P vk ctx σ T q) := by
  obtain ⟨e, he, r, xs, hd, hx, meas, hm, hv⟩ := hw
  rw [decodeReport_runWith] at hd
  obtain ⟨t, ht, h1, h2, h3, h4⟩ := sent_accepted.1 he
  obtain ⟨r', hd', ha⟩ := acceptsEncoded_iff.1 h4
  rw [decodeReport_runWith, hd] at hd'
  cases hd'
  have hrn := (decodeReport_ok hd).1
  by_cases hj : 0 < P.flp.jointRandLen
  · have ho : opened P T ctx e = some (r, xs) := opened_iff.2 ⟨⟨h2, hj⟩, hd, hx⟩
    have hcm := opened_commitment hctx ho
    have hlen := accepted_len W hctx hvk hP (trueSeed_length e.nonce xs) ha (by rw [hrn]; exact hcm) hm
    have hwf := opened_wf ho
    have hpos : 0 < P.shares := by have := W.shares_ge; omega
    have hms : (xs.map Prod.fst).length = P.shares := by rw [List.length_map, hwf.length]
    have hel : ∀ j (h : j < (xs.map Prod.fst).length), (xs.map Prod.fst)[j] = shareAt xs j := by
      intro j h
      rw [hms] at h
      have := (hwf.blind j h).1
      have hj' : j < xs.length := by rw [hwf.length]; exact h
      rw [List.getElem?_eq_getElem hj'] at this
      rw [List.getElem_map, Option.some.inj this]
    by_cases hb : Bad P vk ctx σ T q
    · exact .inr ⟨hj, hb⟩
    left
    have hnc := noColl W hctx hvk hb
    let s := trueSeed P T ctx e.nonce xs
    have hsl : s.length = 32 := trueSeed_length _ _
    let d : Committed F := ⟨e.nonce, xs.map Prod.fst, s, h2, hsl⟩
    have ht3 : jrPos P ctx s ∈ touched P T vk ctx (moveAt P T vk ctx σ t) := by
      refine .inr (.inr (.inl ?_))
      rw [h1]
      simp only [inp3, ho]
      exact List.mem_singleton.2 rfl
    have ht6 : seedPos P ctx (trueParts P T ctx e.nonce xs) ∈ touched P T vk ctx (moveAt P T vk ctx σ t) := by
      refine .inr (.inl ?_)
      rw [h1]
      simp only [inp6, ho]
      exact List.mem_cons_self
    have ht7 : ∀ {t : ℕ} {e : EncodedReport} {r : Spec.Report F} {xs : List (List F × Option Bytes)},
        moveAt P T vk ctx σ t = .submit e → opened P T ctx e = some (r, xs) → ∀ j < P.shares,
        partIn P ctx e.nonce xs j ∈ touched P T vk ctx (moveAt P T vk ctx σ t) := by
      intro t e r xs h1 ho j hj
      refine .inl ?_
      rw [h1]
      simp only [inp7, ho]
      exact List.mem_map.2 ⟨j, List.mem_range.2 hj, rfl⟩
    have hR6 : ∀ (nonce : Bytes) (xs : List (List F × Option Bytes)),
        seedPos P ctx (trueParts P T ctx nonce xs) ∈ R6 P ctx := fun nonce xs =>
      ⟨_, (trueParts_spec nonce xs).1, (trueParts_spec nonce xs).2, rfl⟩
    have hbad : ∃ meas, Spec.IsSum (fun j : Fin d.shares.length => d.shares[j]) meas ∧ meas.length = P.flp.measLen ∧
        ¬ valid meas := ⟨meas, hm, hlen, hv⟩
    obtain ⟨k, hk, hk1, hk2⟩ := first_seen (t := t + 1) ⟨t, by omega, ht3⟩
    have hk3 := touched_jr W hctx hvk hsl hk1
    have hfresh : e.nonce ∉ sentNonces (oracleRun (runWith P T) vk ctx σ k) := by
      intro hc
      obtain ⟨i, hi, hi'⟩ := mem_sentNonces_run.1 hc
      exact h3 (mem_sentNonces_run.2 ⟨i, by omega, hi'⟩)
    have hhit : ∀ h : (∃ e' r, moveAt P T vk ctx σ k = .submit e' ∧ e'.nonce = d.nonce ∧ decodeReport P e' = .ok r ∧
        commitment (runWith P T) ctx d.nonce r.inputShares = .ok (d.shares, d.seed)) ∨
      (0 < P.flp.jointRandLen ∧ moveAt P T vk ctx σ k = .query (jrPos P ctx d.seed) ∧
        Extracts P ctx T (Seen P T vk ctx σ k) d ∧ NoColl P ctx T (Seen P T vk ctx σ k)),
        ∃ t < q, HitsAt P vk ctx σ valid q t T := fun h =>
      ⟨k, by omega, d, ⟨h, hfresh, fun _ => hk2, hbad, hms⟩, e, r, he, rfl, hd, hcm⟩
    cases hmv : moveAt P T vk ctx σ k with
    | submit e' =>
      rw [hmv] at hk3
      obtain ⟨r', xs', ho', hs'⟩ := submit_in3 hk3
      have hs' : s = trueSeed P T ctx e'.nonce xs' :=
        jr_inj W hctx hvk (by rw [hsl]; norm_num) (by rw [trueSeed_length]; norm_num) hs'
      have hk6 : seedPos P ctx (trueParts P T ctx e'.nonce xs') ∈ touched P T vk ctx (moveAt P T vk ctx σ k) := by
        refine .inr (.inl ?_)
        rw [hmv]
        simp only [inp6, ho']
        exact List.mem_cons_self
      have e6 := hnc _ ⟨t, ht, ht6⟩ _ ⟨k, by omega, hk6⟩ (.inr ⟨hR6 _ _, hR6 _ _⟩) hs'
      have ep := seedPos_inj W hctx hvk (trueParts_spec _ _).1 (trueParts_spec _ _).2 (trueParts_spec _ _).1
        (trueParts_spec _ _).2 e6
      have e0 : headOf T (partIn P ctx e.nonce xs 0) = headOf T (partIn P ctx e'.nonce xs' 0) := by
        have := congrArg (fun l => l[0]?) ep
        simp only [trueParts, tab, List.getElem?_map, List.getElem?_range hpos, Option.map_some, Option.some.injEq] at this
        exact this
      have e7 := hnc _ ⟨t, ht, ht7 h1 ho 0 hpos⟩ _ ⟨k, by omega, ht7 hmv ho' 0 hpos⟩
        (.inl ⟨partIn_R7 ho hpos, partIn_R7 ho' hpos⟩) e0
      have hn' := (opened_iff.1 ho').1.1
      have wf' := opened_wf ho'
      have en := (partPos_inj W hctx hvk hpos hpos (hwf.blind 0 hpos).2 (wf'.blind 0 hpos).2 h2 hn' e7).2.2.2
      have hkt : k = t := by
        by_contra hne
        exact h3 (mem_sentNonces_run.2 ⟨k, by omega, e', hmv, en.symm⟩)
      subst hkt
      exact hhit (.inl ⟨e, r, h1, rfl, hd, hcm⟩)
    | query m =>
      rw [hmv] at hk3
      have hm' := List.mem_singleton.1 hk3
      subst hm'
      have hkt : k < t := by
        rcases Nat.lt_or_ge k t with h | h
        · exact h
        · have : k = t := by omega
          subst this
          rw [h1] at hmv
          cases hmv
      obtain ⟨k6, hk6, g1, g2⟩ := first_seen (t := t + 1) ⟨t, by omega, ht6⟩
      obtain ⟨i6, hi6, g3⟩ := index6 W hctx hvk (touched_R6 W hctx hvk (hR6 _ _) g1)
      have hk6k : k6 < k := by
        rcases Nat.lt_trichotomy k6 k with h | h | h
        · exact h
        · subst h
          rw [hmv] at g1
          have := touched_query.1 g1
          exact absurd (this ▸ hR6 _ _) (jr_not_R6 W hctx hvk hsl)
        · exact absurd ⟨k6, by omega, k, by omega, .inr (.inr (.inl ⟨i6, hi6, _, ⟨g3, hR6 _ _, g2⟩, h, hmv⟩))⟩ hb
      refine hhit (.inr ⟨hj, hmv, ⟨fun j => blindAt xs j, trueParts P T ctx e.nonce xs, hms, (trueParts_spec _ _).1,
        (trueParts_spec _ _).2, fun j hj' => ?_, ⟨k6, hk6k, g1⟩, rfl⟩, ?_⟩)
      · have hjs : j < P.shares := by rw [← hms]; exact hj'
        have hpj : (trueParts P T ctx e.nonce xs)[j]? = some (headOf T (partIn P ctx e.nonce xs j)) := by
          simp only [trueParts, tab, List.getElem?_map, List.getElem?_range hjs, Option.map_some]
        have hd7 : d.shares[j] = shareAt xs j := hel j hj'
        rw [hd7]
        refine ⟨hwf.share j hjs, (hwf.blind j hjs).2, ?_, hpj⟩
        obtain ⟨k7, hk7, f1, f2⟩ := first_seen (t := t + 1) ⟨t, by omega, ht7 h1 ho j hjs⟩
        rcases Nat.lt_or_ge k6 k7 with h | h
        · obtain ⟨i7, hi7, f3⟩ := index7 W hctx hvk (touched_R7 W hctx hvk (partIn_R7 ho hjs) f1)
          exact absurd ⟨k7, by omega, k6, by omega, .inr (.inr (.inr ⟨i7, hi7, i6, hi6, _,
            ⟨f3, partIn_R7 ho hjs, f2⟩, h, _, j, _, _, _, hjs, (hwf.blind j hjs).2, h2, rfl, (trueParts_spec _ _).1,
            (trueParts_spec _ _).2, g3, hpj⟩))⟩ hb
        · exact ⟨k7, by omega, f1⟩
      · intro u hu v hv
        exact hnc u (seen_mono (by omega) hu) v (seen_mono (by omega) hv)
  · left
    have hcm : commitment (runWith P T) ctx e.nonce r.inputShares = .ok (xs.map Prod.fst, List.replicate 32 0) := by
      unfold Spec.commitment Spec.seedOf
      rw [hx, Except.ok_bind', if_neg (show ¬ 0 < (runWith P T).flp.jointRandLen from hj)]
      rfl
    have hsl : (List.replicate 32 (0 : UInt8)).length = 32 := by simp
    have hlen := accepted_len W hctx hvk hP hsl ha (by rw [hrn]; exact hcm) hm
    exact ⟨t, ht, ⟨e.nonce, xs.map Prod.fst, List.replicate 32 0, h2, hsl⟩, ⟨.inl ⟨e, r, h1, rfl, hd, hcm⟩, h3,
      fun h => absurd h hj, ⟨meas, hm, hlen, hv⟩, commitment_length hcm⟩, e, r, he, rfl, hd, hcm⟩

theorem oracle_bound (hP : 0 < P.proofs) (hC : Spec.Circuit P.flp) (hg : P.flp.gadgets ≠ []) {S : Set Bytes}
    (hfin : S.Finite) (hS : oracleInputs P vk ctx ⊆ S) {N : ℕ} (hN : fuel * PyField.encSize F ≤ N) (hN' : 32 ≤ N)
    {σ : OracleStrategy} (hσ : Spec.IgnoresKey P vk ctx σ) {valid : List F → Prop} {ε : ℚ} (h0 : 0 ≤ ε)
    (hε : ∀ meas : List F, meas.length = P.flp.measLen → ¬ valid meas →
      (Set.ncard {jr : Fin P.flp.jointRandLen → F | Spec.Accepts P.flp meas (List.ofFn jr)} : ℚ) ≤
        ε * (PyField.modulus F : ℚ) ^ P.flp.jointRandLen) (q : ℕ) :
    (Set.ncard {T ∈ oracles prims S N |
      Spec.OracleWins (runWith P T) ctx valid (oracleRun (runWith P T) vk ctx σ q)} : ℚ) ≤
      (q * (ε + Spec.paddedSoundness P.flp) ^ P.proofs + Spec.luckBound P q) * Set.ncard (oracles prims S N) := by
  classical
  have : Fintype S := hfin.fintype
  rw [ncard_glue]
  have hcard : Set.ncard (oracles prims S N) = Fintype.card (S → Fin N → UInt8) := by
    have := ncard_glue prims S (N := N) fun _ => True
    simp only [and_true, Set.ofPred_mem_eq] at this
    rw [this, ← Nat.card_eq_fintype_card, ← Set.ncard_univ]
    congr 1
  rw [hcard]
  have h1 : (Set.ncard {f : S → Fin N → UInt8 | ∃ t < q, f ∈ {f | HitsAt P vk ctx σ valid q t (glue prims S f)}} : ℚ) ≤ _ :=
    ncard_exists_le q _ fun t _ => hits_bound W hctx hvk hC hg hS hN hσ h0 hε q t
  have h2 : (Set.ncard {f : S → Fin N → UInt8 | 0 < P.flp.jointRandLen ∧ Bad P vk ctx σ (glue prims S f) q} : ℚ) ≤
      Spec.luckBound P q * Fintype.card (S → Fin N → UInt8) := by
    unfold Spec.luckBound
    split
    · next hj =>
      simp only [hj, true_and]
      exact bad_bound W hctx hvk hS hN' q
    · next hj => simp [hj]
  have h3 := ncard_or_le _ _ h1 h2
  rw [add_mul, mul_assoc]
  refine le_trans ?_ h3
  refine Nat.cast_le.2 (Set.ncard_le_ncard ?_ (Set.toFinite _))
  intro f hf
  rcases wins_hits W hctx hvk hP hf with h | h
  · exact .inl h
  · exact .inr h

end
end Vdaf.Prio3
