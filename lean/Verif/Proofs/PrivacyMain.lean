import Verif.Proofs.PrivacySigma
import Verif.Proofs.CustomInst
import Mathlib.SetTheory.Cardinal.NatCard

/-! Counting the oracles under which the coalition has a given view. -/

set_option linter.unusedSectionVars false

namespace Vdaf
open Finset Spec

/-- The numbers of failures agree if the numbers of all the other outcomes do. -/
theorem ncard_fail {α β : Type} {O : Set α} (hO : O.Finite) {f g : α → Res β}
    (h : ∀ v, {T ∈ O | f T = .ok v}.ncard = {T ∈ O | g T = .ok v}.ncard) :
    {T ∈ O | ∀ v, f T ≠ .ok v}.ncard = {T ∈ O | ∀ v, g T ≠ .ok v}.ncard := by
  have key : ∀ f : α → Res β, {T ∈ O | ∀ v, f T ≠ .ok v} = O \ {T ∈ O | ∃ v, f T = .ok v} := by
    intro f
    ext T
    simp only [Set.mem_setOf_eq, Set.mem_diff, not_and, not_exists]
    constructor
    · rintro ⟨h1, h2⟩; exact ⟨h1, fun _ => h2⟩
    · rintro ⟨h1, h2⟩; exact ⟨h1, h2 h1⟩
  have hfin : ∀ p : α → Prop, {T ∈ O | p T}.Finite := fun p => hO.subset (Set.sep_subset _ _)
  have hok : {T ∈ O | ∃ v, f T = .ok v}.ncard = {T ∈ O | ∃ v, g T = .ok v}.ncard := by
    have hs : ∀ f : α → Res β, Nonempty ((Σ v, {T ∈ O | f T = .ok v}) ≃ {T ∈ O | ∃ v, f T = .ok v}) := by
      intro f
      refine ⟨Equiv.ofBijective (fun x => ⟨x.2.1, x.2.2.1, x.1, x.2.2.2⟩) ⟨?_, ?_⟩⟩
      · rintro ⟨v, T, hT, hv⟩ ⟨v', T', hT', hv'⟩ e
        obtain rfl : T = T' := congrArg Subtype.val e
        obtain rfl : v = v' := Except.ok.inj (hv.symm.trans hv')
        rfl
      · rintro ⟨T, hT, v, hv⟩
        exact ⟨⟨v, T, hT, hv⟩, rfl⟩
    have hc : ∀ v, Nonempty ({T ∈ O | f T = .ok v} ≃ {T ∈ O | g T = .ok v}) := fun v => by
      have : Finite {T ∈ O | f T = .ok v} := hfin _
      have : Finite {T ∈ O | g T = .ok v} := hfin _
      exact Finite.card_eq.1 (by simpa only [Nat.card_coe_set_eq] using h v)
    rw [← Nat.card_coe_set_eq, ← Nat.card_coe_set_eq]
    exact Nat.card_congr ((hs f).some.symm.trans ((Equiv.sigmaCongrRight fun v => (hc v).some).trans (hs g).some))
  rw [key f, key g, Set.ncard_sdiff (Set.sep_subset _ _) (hfin _), Set.ncard_sdiff (Set.sep_subset _ _) (hfin _), hok]

theorem oracles_finite {prims : Prims} {S : Set Bytes} (hS : S.Finite) (N : ℕ) : (oracles prims S N).Finite := by
  have : Finite S := hS
  apply Set.Finite.of_finite_image (f := fun T => fun p : S × Fin N => T p.1.1 p.2) (Set.toFinite _)
  intro T hT T' hT' he
  funext m i
  by_cases hm : m ∈ S ∧ i < N
  · exact congrFun he (⟨m, hm.1⟩, ⟨i, hm.2⟩)
  · have h1 : T m i = prims.turboShake m 1 i := not_not.1 fun hc => hm (hT m i hc)
    have h2 : T' m i = prims.turboShake m 1 i := not_not.1 fun hc => hm (hT' m i hc)
    rw [h1, h2]

namespace Prio3
variable {F : Type} [NttField F] {Meas Agg : Type} {prims : Prims} {fuel : ℕ}
  {P : Prio3 (XofTurboShake128 prims fuel) F Meas Agg} {ctx : Bytes} {h n : ℕ} {rs : ℕ → Coins}

instance {jrl ml : ℕ} : Finite (Site F h n jrl ml) := by
  have : Finite {v : List F | v.length ≤ ml} := List.finite_length_le F ml
  refine Finite.of_injective (β := Fin 4 × Fin n × {v : List F | v.length ≤ ml}) (fun s => match s with
    | .meas _ k => (0, k, ⟨[], by simp⟩)
    | .proofs _ k => (1, k, ⟨[], by simp⟩)
    | .prove k => (2, k, ⟨[], by simp⟩)
    | .part _ k v hv => (3, k, ⟨v, hv.le⟩)) ?_
  intro s s' e
  cases s <;> cases s' <;> simp_all

theorem batchSecrets_finite : (batchSecrets P ctx h n rs).Finite := by
  have : batchSecrets P ctx h n rs = Set.range (pos P ctx h n rs) := by
    ext m; rw [mem_batchSecrets]; rfl
  rw [this]
  exact Set.finite_range _

/-- Each report is processed, the coalition's view is `vs k` and the honest Aggregator's output share is `os k`; if
`chk`, the honest Aggregator accepts the message. -/
def Sees (chk : Prop) (P : Prio3 (XofTurboShake128 prims fuel) F Meas Agg) (vk ctx : Bytes) (h n : ℕ) (m : ℕ → Meas)
    (rs : ℕ → Coins) (vs : ℕ → Transcript F) (os : ℕ → List F) (T : Bytes → ℕ → UInt8) : Prop :=
  ∀ k < n, ∃ t, Spec.transcript (runWith P T) vk ctx (m k) (rs k).nonce (rs k).rand = .ok t ∧ t.view h = vs k ∧
    ∃ seed, t.states[h]? = some (os k, seed) ∧ (chk → seed = t.message)

section
variable (W : P.WF) (hctx : ctx.length + 8 < 2 ^ 16) (hf : FreshCoins P h n rs)
include W hctx hf

/-- The data on which the map of oracles depends. -/
theorem exists_bijections {vk : Bytes} {T : Bytes → ℕ → UInt8} {k : ℕ} {a0 a1 : List F}
    (ha0 : a0.length = P.flp.measLen) (ha1 : a1.length = P.flp.measLen)
    (hacc0 : ∀ jr : List F, jr.length = P.flp.jointRandLen → Spec.Accepts P.flp a0 jr)
    (hacc1 : ∀ jr : List F, jr.length = P.flp.jointRandLen → Spec.Accepts P.flp a1 jr)
    {t : Spec.Transcript F} {ms ps : ℕ → List F} {bl : ℕ → Option Bytes} {prs qrs jrs : List F}
    {π os w : ℕ → List F} {seed : Option Bytes} {part : ℕ → Option Bytes}
    (W0 : World (runWith P T) vk ctx (rs k).nonce (rs k).rand a0 t ms ps bl prs jrs qrs π os w seed part) :
    ∃ e : ℕ → (Fin P.flp.proveRandLen → F) ≃ (Fin P.flp.proveRandLen → F), ∀ i < P.proofs, ∀ pr, ∃ π π' v,
      P.flp.prove a0 (List.ofFn pr) (blk P.flp.jointRandLen jrs i) = .ok π ∧
      P.flp.prove a1 (List.ofFn (e i pr)) (blk P.flp.jointRandLen jrs i) = .ok π' ∧
      P.flp.query a0 π (blk P.flp.queryRandLen qrs i) (blk P.flp.jointRandLen jrs i) 1 = .ok v ∧
      P.flp.query a1 π' (blk P.flp.queryRandLen qrs i) (blk P.flp.jointRandLen jrs i) 1 = .ok v := by
  have hge := W.shares_ge
  have hqrsl : qrs.length = P.flp.queryRandLen * P.proofs := expandIntoVec_length (queryRands_ok.1 W0.qrsOk).2.2
  have key : ∀ i, ∃ e : (Fin P.flp.proveRandLen → F) ≃ (Fin P.flp.proveRandLen → F), i < P.proofs → ∀ pr, ∃ π π' v,
      P.flp.prove a0 (List.ofFn pr) (blk P.flp.jointRandLen jrs i) = .ok π ∧
      P.flp.prove a1 (List.ofFn (e pr)) (blk P.flp.jointRandLen jrs i) = .ok π' ∧
      P.flp.query a0 π (blk P.flp.queryRandLen qrs i) (blk P.flp.jointRandLen jrs i) 1 = .ok v ∧
      P.flp.query a1 π' (blk P.flp.queryRandLen qrs i) (blk P.flp.jointRandLen jrs i) 1 = .ok v := by
    intro i
    by_cases hi : i < P.proofs
    swap
    · exact ⟨Equiv.refl _, fun hc => absurd hc hi⟩
    have hjl := blk_length' W0.S.jrsLen hi
    have hql := blk_length' hqrsl hi
    have hgood : ¬ Spec.BadTestPoint P.flp (blk P.flp.queryRandLen qrs i) := by
      obtain ⟨v, -, hv⟩ := queryLoop_ok (W0.wOk 0 (by show 0 < P.shares; omega))
      have hpl : ((blk P.proofLen (ps 0) i) : List F).length = P.proofLen := by
        refine blk_length' (n := P.proofs) ?_ hi
        rw [W0.S.proofSum.1 ⟨0, by show 0 < P.shares; omega⟩]
        exact flatMap_range_length fun i hi => (W0.S.prove i hi).2
      rcases W.lawful.query_total (meas := ms 0) (π := blk P.proofLen (ps 0) i) (N := P.shares)
          ((W0.S.measSum.1 ⟨0, by show 0 < P.shares; omega⟩).trans ha0) (by rw [hpl]; exact W.proofLen) hql hjl
          (by omega) W.modulus with ⟨-, h2⟩ | ⟨h1, -⟩
      · exact absurd (h2.symm.trans (hv i hi)) (by simp)
      · exact h1
    obtain ⟨o0, z0, z0'⟩ := hacc0 _ hjl
    obtain ⟨o1, z1, z1'⟩ := hacc1 _ hjl
    obtain ⟨f, hf⟩ := W.lawful.zk ha0 hjl z0 z0' hql hgood
    obtain ⟨f', hf'⟩ := W.lawful.zk ha1 hjl z1 z1' hql hgood
    refine ⟨f.trans f'.symm, fun _ pr => ?_⟩
    obtain ⟨π, s, h1, h2, h3⟩ := hf pr
    obtain ⟨π', s', h1', h2', h3'⟩ := hf' (f'.symm (f pr))
    rw [Equiv.apply_symm_apply] at h2'
    have : s = s' := by rw [h2] at h2'; simpa using h2'
    subst this
    exact ⟨π, π', _, h1, h1', h3, h3'⟩
  choose e he using key
  exact ⟨e, fun i hi => he i hi⟩

theorem sees_le {chk : Prop} {vk : Bytes} (hh : h < P.shares) (hvk : vk.length = 32) {N : ℕ} (hN : 32 ≤ N)
    (hN' : fuel * PyField.encSize F ≤ N) {m0 m1 : ℕ → Meas} {a0 a1 b0 b1 : ℕ → List F}
    (he0 : ∀ k < n, P.flp.encode (m0 k) = .ok (a0 k)) (he1 : ∀ k < n, P.flp.encode (m1 k) = .ok (a1 k))
    (ha0 : ∀ k < n, (a0 k).length = P.flp.measLen) (ha1 : ∀ k < n, (a1 k).length = P.flp.measLen)
    (hacc0 : ∀ k < n, ∀ jr : List F, jr.length = P.flp.jointRandLen → Spec.Accepts P.flp (a0 k) jr)
    (hacc1 : ∀ k < n, ∀ jr : List F, jr.length = P.flp.jointRandLen → Spec.Accepts P.flp (a1 k) jr)
    (htr : ∀ v : List F, v.length = P.flp.measLen → ∃ o, P.flp.truncate v = .ok o)
    (hlin : ∀ k < n, ∀ u o, u.length = P.flp.measLen → P.flp.truncate u = .ok o →
      P.flp.truncate (shift u (a0 k) (a1 k)) = .ok (shift o (b0 k) (b1 k)))
    (vs : ℕ → Transcript F) {R0 R1 : (ℕ → List F) → Prop}
    (hR : ∀ os, R0 os → R1 fun k => if k < n then shift (os k) (b0 k) (b1 k) else os k) :
    {T ∈ oracles prims (batchSecrets P ctx h n rs) N | ∃ os, Sees chk P vk ctx h n m0 rs vs os T ∧ R0 os}.ncard ≤
    {T ∈ oracles prims (batchSecrets P ctx h n rs) N | ∃ os, Sees chk P vk ctx h n m1 rs vs os T ∧ R1 os}.ncard := by
  have hfin := oracles_finite (prims := prims) (batchSecrets_finite (P := P) (ctx := ctx) (h := h) (n := n) (rs := rs)) N
  rcases Set.eq_empty_or_nonempty
    {T ∈ oracles prims (batchSecrets P ctx h n rs) N | ∃ os, Sees chk P vk ctx h n m0 rs vs os T ∧ R0 os} with h0 | ⟨T0, hT0⟩
  · rw [h0]; simp
  obtain ⟨hO, os0, hsee, -⟩ := hT0
  -- the data for the first oracle determine the map
  have hdata : ∀ k, ∃ (jrs qrs : List F)
      (e : ℕ → (Fin P.flp.proveRandLen → F) ≃ (Fin P.flp.proveRandLen → F)), k < n →
      (∃ seed part, JointOf (runWith P T0) ctx (vs k).publicShare seed part jrs) ∧
      (runWith P T0).queryRands vk ctx (rs k).nonce = .ok qrs ∧ ∀ i < P.proofs, ∀ pr, ∃ π π' v,
        P.flp.prove (a0 k) (List.ofFn pr) (blk P.flp.jointRandLen jrs i) = .ok π ∧
        P.flp.prove (a1 k) (List.ofFn (e i pr)) (blk P.flp.jointRandLen jrs i) = .ok π' ∧
        P.flp.query (a0 k) π (blk P.flp.queryRandLen qrs i) (blk P.flp.jointRandLen jrs i) 1 = .ok v ∧
        P.flp.query (a1 k) π' (blk P.flp.queryRandLen qrs i) (blk P.flp.jointRandLen jrs i) 1 = .ok v := by
    intro k
    by_cases hk : k < n
    swap
    · exact ⟨[], [], fun _ => Equiv.refl _, fun hc => absurd hc hk⟩
    obtain ⟨t, h1, h2, -⟩ := hsee k hk
    obtain ⟨ms, ps, bl, prs, jrs, qrs, π, os, w, seed, part, W0⟩ :=
      world_of (W.runWith T0) hctx (he0 k hk) (ha0 k hk) h1
    obtain ⟨e, he⟩ := exists_bijections W hctx hf (ha0 k hk) (ha1 k hk) (hacc0 k hk) (hacc1 k hk) W0
    refine ⟨jrs, qrs, e, fun _ => ⟨⟨seed, part, ?_⟩, W0.qrsOk, he⟩⟩
    rw [← h2]
    exact W0.joint
  choose jrs qrs e hdata using hdata
  -- the values for the other oracles
  have hworld : ∀ T ∈ oracles prims (batchSecrets P ctx h n rs) N, ∀ os, Sees chk P vk ctx h n m0 rs vs os T →
      ∀ k < n, ∃ t ms ps bl prs π os' w seed part,
        World (runWith P T) vk ctx (rs k).nonce (rs k).rand (a0 k) t ms ps bl prs (jrs k) (qrs k) π os' w seed part ∧
        t.view h = vs k ∧ os k = os' h ∧ (chk → seed = t.message) := by
    intro T hT os hS k hk
    obtain ⟨t, h1, h2, seed', h3, h3'⟩ := hS k hk
    obtain ⟨ms, ps, bl, prs, jrs', qrs', π, os', w, seed, part, W0⟩ :=
      world_of (W.runWith T) hctx (he0 k hk) (ha0 k hk) h1
    have A : AgreeOff P ctx h T0 T := by
      intro m hm
      have hms : m ∉ batchSecrets P ctx h n rs := fun ⟨_, _, hx⟩ => hm _ _ hx
      funext i
      have e1 : T0 m i = prims.turboShake m 1 i := not_not.1 fun hc => hms (hO m i hc).1
      have e2 : T m i = prims.turboShake m 1 i := not_not.1 fun hc => hms (hT m i hc).1
      rw [e1, e2]
    obtain ⟨⟨seed0, part0, d1⟩, d2, -⟩ := hdata k hk
    have hj := A.jointOf W hctx W0.joint
    have hpub : t.publicShare = (vs k).publicShare := by rw [← h2]; rfl
    rw [hpub] at hj
    obtain ⟨-, -, rfl⟩ := hj.unique d1
    have hq : qrs' = qrs k := by
      have := W0.qrsOk
      rw [queryRands_ev W hctx (by omega)] at this d2
      rw [A.usage W hctx (.inr (.inl rfl)) (by omega)] at this
      exact this.unique d2
    subst hq
    have h4 := W0.states
    rw [h4] at h3
    have h5 := Option.some.inj ((tab_getElem? (f := fun j => (os' j, seed)) hh).symm.trans h3)
    exact ⟨t, ms, ps, bl, prs, π, os', w, seed, part, W0, h2, (Prod.mk.inj h5).1.symm, (Prod.mk.inj h5).2 ▸ h3'⟩
  refine Set.ncard_le_ncard_of_injOn (sigma P ctx h n rs a0 a1 jrs e) ?_ ?_ (hfin.subset (Set.sep_subset _ _))
  · rintro T ⟨hT, os, hS, hRo⟩
    refine ⟨sigma_oracles W hctx hf hN hN' hT, _, ?_, hR os hRo⟩
    intro k hk
    obtain ⟨t, ms, ps, bl, prs, π, os', w, seed, part, W0, h2, h3, h4⟩ := hworld T hT os hS k hk
    obtain ⟨-, -, d3⟩ := hdata k hk
    obtain ⟨t1, k1, k2, o, k3, k4⟩ := sigma_step W hctx hf (T := T) (a0 := a0) (a1 := a1) (jrs := jrs) (e := e) hh hvk hk
      (he1 k hk) (ha0 k hk) (ha1 k hk) htr W0 d3
    refine ⟨t1, k1, k2.trans h2, seed, ?_, ?_⟩
    swap
    · intro hc
      rw [h4 hc]
      show (t.view h).message = (t1.view h).message
      rw [k2]
    have hmsl : (ms h).length = P.flp.measLen := (W0.S.measSum.1 ⟨h, hh⟩).trans (ha0 k hk)
    have k5 := hlin k hk _ _ hmsl (W0.osOk h hh)
    have k7 : o = shift (os' h) (b0 k) (b1 k) := Except.ok.inj (k3.symm.trans k5)
    simp only [k4, if_pos hk, h3, k7]
  · rintro T ⟨hT, os, hS, -⟩ T' ⟨hT', os', hS', -⟩ he
    refine sigma_inj (vk := vk) W hctx hf hh ?_ ?_ he
    · intro k hk
      obtain ⟨t, ms, ps, bl, prs, π, os', w, seed, part, W0, -⟩ := hworld T hT os hS k hk
      exact ⟨t, ms, ps, bl, prs, _, _, π, os', w, seed, part, W0⟩
    · intro k hk
      obtain ⟨t, ms, ps, bl, prs, π, os', w, seed, part, W0, -⟩ := hworld T' hT' os' hS' k hk
      exact ⟨t, ms, ps, bl, prs, _, _, π, os', w, seed, part, W0⟩

end

theorem aggregate_runWith (T : Bytes → ℕ → UInt8) (outs : List (List F)) :
    Spec.aggregate (runWith P T).vdaf () outs = Spec.aggregate P.vdaf () outs := by
  rw [aggregate_eq, aggregate_eq]
  rfl

theorem outShareOf_ok {X : Xof} {P : Prio3 X F Meas Agg} {t : Transcript F} {o : List F} :
    outShareOf P ctx h t = .ok o ↔ t.states[h]? = some (o, t.message) := by
  unfold outShareOf
  constructor
  · intro h4
    obtain ⟨st, h5, h4⟩ := Except.bind_eq_ok.1 h4
    obtain ⟨nx, h6, h4⟩ := Except.bind_eq_ok.1 h4
    have h6' : Prio3.verifyNext ctx st t.message = .ok nx := h6
    unfold verifyNext at h6'
    obtain ⟨o', c⟩ := st
    dsimp only at h6'
    obtain ⟨_, h7, h6'⟩ := Except.bind_eq_ok.1 h6'
    cases h6'
    cases h4
    have h8 := of_decide_eq_false (raiseIf_eq_ok.1 h7)
    rw [getI_eq_ok.1 h5, not_not.1 h8]
  · intro hs
    rw [getI_of_some hs]
    simp only [Except.ok_bind']
    have : P.vdaf.verifyNext ctx (o, t.message) t.message = .ok (.out o) := by
      show Prio3.verifyNext ctx (o, t.message) t.message = _
      unfold verifyNext
      dsimp only
      rw [raiseIf_of_not (by simp)]
      rfl
    rw [this]
    rfl

/-- The coalition's view of a batch. -/
theorem batchView_ok {vk : Bytes} {m : ℕ → Meas} {T : Bytes → ℕ → UInt8} {v : List (Transcript F) × List F} :
    Spec.batchView (runWith P T) vk ctx h n m rs = .ok v ↔
      ∃ os vs, Sees True P vk ctx h n m rs vs os T ∧ v.1 = tab n vs ∧
        Spec.aggregate P.vdaf () (tab n os) = .ok v.2 := by
  obtain ⟨v1, v2⟩ := v
  unfold Spec.batchView
  constructor
  · intro hv
    obtain ⟨ts, h1, hv⟩ := Except.bind_eq_ok.1 hv
    obtain ⟨outs, h2, hv⟩ := Except.bind_eq_ok.1 hv
    obtain ⟨agg, h3, hv⟩ := Except.bind_eq_ok.1 hv
    cases hv
    have : Inhabited (Transcript F) := ⟨⟨none, [], [], [], none⟩⟩
    obtain ⟨t, rfl, ht⟩ := mapRes_range_ok h1
    unfold tab at h2
    rw [mapRes_ok_iff, List.forall₂_map_left_iff] at h2
    obtain ⟨os, rfl, hos⟩ := forall₂_range_tab h2
    refine ⟨os, fun k => (t k).view h, fun k hk => ⟨t k, ht k hk, rfl, ?_⟩, by simp [tab], (aggregate_runWith T _).symm.trans h3⟩
    exact ⟨_, outShareOf_ok.1 (hos k hk), fun _ => rfl⟩
  · rintro ⟨os, vs, hS, rfl, h3⟩
    have h1 : ∃ t : ℕ → Transcript F, ∀ k < n,
        Spec.transcript (runWith P T) vk ctx (m k) (rs k).nonce (rs k).rand = .ok (t k) ∧
        (t k).view h = vs k ∧ (t k).states[h]? = some (os k, (t k).message) := by
      have : ∀ k, ∃ t, k < n → Spec.transcript (runWith P T) vk ctx (m k) (rs k).nonce (rs k).rand = .ok t ∧
          t.view h = vs k ∧ t.states[h]? = some (os k, t.message) := fun k => by
        by_cases hk : k < n
        · obtain ⟨t, h1, h2, seed, h3, h4⟩ := hS k hk
          exact ⟨t, fun _ => ⟨h1, h2, by rw [h3, h4 trivial]⟩⟩
        · exact ⟨⟨none, [], [], [], none⟩, fun hc => absurd hc hk⟩
      choose t ht using this
      exact ⟨t, ht⟩
    obtain ⟨t, ht⟩ := h1
    rw [mapRes_range_tab fun k hk => (ht k hk).1]
    simp only [Except.ok_bind']
    have h2 : mapRes (outShareOf (runWith P T) ctx h) (tab n t) = .ok (tab n os) := by
      rw [mapRes_ok_iff]
      unfold tab
      rw [List.forall₂_map_left_iff, List.forall₂_map_right_iff, List.forall₂_same]
      intro k hk
      exact outShareOf_ok.2 (ht k (List.mem_range.1 hk)).2.2
    rw [h2]
    simp only [Except.ok_bind']
    rw [aggregate_runWith, h3]
    simp only [Except.ok_bind', Except.pure_eq', Except.ok.injEq, Prod.mk.injEq, and_true]
    unfold tab
    rw [List.map_map]
    exact List.map_congr_left fun k hk => (ht k (List.mem_range.1 hk)).2.1

theorem reportViews_ok {vk : Bytes} {m : ℕ → Meas} {T : Bytes → ℕ → UInt8} {v : List (Transcript F)} :
    Spec.reportViews (runWith P T) vk ctx h n m rs = .ok v ↔
      v.length = n ∧ ∀ k < n, ∃ t, Spec.transcript (runWith P T) vk ctx (m k) (rs k).nonce (rs k).rand = .ok t ∧
        v[k]? = some (t.view h) := by
  unfold Spec.reportViews
  constructor
  · intro hv
    obtain ⟨ts, h1, hv⟩ := Except.bind_eq_ok.1 hv
    cases hv
    obtain ⟨h2, h3⟩ := mapRes_range_iff.1 h1
    refine ⟨by simpa using h2, fun k hk => ?_⟩
    obtain ⟨t, h4, h5⟩ := h3 k hk
    exact ⟨t, h4, by simp [h5]⟩
  · rintro ⟨hl, hv⟩
    have : ∀ k, ∃ t, k < n → Spec.transcript (runWith P T) vk ctx (m k) (rs k).nonce (rs k).rand = .ok t ∧
        v[k]? = some (t.view h) := fun k => by
      by_cases hk : k < n
      · obtain ⟨t, ht⟩ := hv k hk
        exact ⟨t, fun _ => ht⟩
      · exact ⟨⟨none, [], [], [], none⟩, fun hc => absurd hc hk⟩
    choose t ht using this
    rw [mapRes_range_tab fun k hk => (ht k hk).1]
    simp only [Except.ok_bind', Except.pure_eq', Except.ok.injEq]
    apply List.ext_getElem?
    intro k
    by_cases hk : k < n
    · rw [(ht k hk).2]
      simp [tab_getElem? hk]
    · rw [List.getElem?_eq_none (by simpa using not_lt.1 hk), List.getElem?_eq_none (by omega)]

/-- The values derived from valid measurements. -/
theorem encodings {T : Spec.Task Meas Agg} (I : Spec.CustomInstance P T) (n : ℕ) {m : ℕ → Meas}
    (hm : ∀ k < n, T.valid (m k)) :
    ∃ a b : ℕ → List F, (∀ k < n, P.flp.encode (m k) = .ok (a k)) ∧ (∀ k < n, (a k).length = P.flp.measLen) ∧
      (∀ k < n, P.flp.truncate (a k) = .ok (b k)) ∧
      ∀ k < n, ∀ jr : List F, jr.length = P.flp.jointRandLen → Spec.Accepts P.flp (a k) jr := by
  have : ∀ k, ∃ a b, k < n → P.flp.encode (m k) = .ok a ∧ a.length = P.flp.measLen ∧ P.flp.truncate a = .ok b ∧
      ∀ jr : List F, jr.length = P.flp.jointRandLen → Spec.Accepts P.flp a jr := by
    intro k
    by_cases hk : k < n
    · obtain ⟨e, h1, h2, h3⟩ := I.computes.encode _ (hm k hk)
      obtain ⟨-, o, h4, -⟩ := I.computes.truncate 1 (fun _ => e) e (isSum_iff.2 ⟨fun _ => rfl, by simp⟩) h2
      exact ⟨e, o, fun _ => ⟨h1, h2, h4, h3⟩⟩
    · exact ⟨[], [], fun hc => absurd hc hk⟩
  choose a b h using this
  exact ⟨a, b, fun k hk => (h k hk).1, fun k hk => (h k hk).2.1, fun k hk => (h k hk).2.2.1,
    fun k hk => (h k hk).2.2.2⟩

theorem truncate_shift {T : Spec.Task Meas Agg} (I : Spec.CustomInstance P T) {u o a b oa ob : List F}
    (hu : u.length = P.flp.measLen) (ha : a.length = P.flp.measLen) (hb : b.length = P.flp.measLen)
    (h : P.flp.truncate u = .ok o) (h1 : P.flp.truncate a = .ok oa) (h2 : P.flp.truncate b = .ok ob) :
    P.flp.truncate (shift u a b) = .ok (shift o oa ob) := by
  set e : List F := tab P.flp.measLen fun k => coef u k + coef b k with he
  have hce : ∀ k, coef e k = coef u k + coef b k := by
    intro k
    rw [he, coef_tab]
    split
    · rfl
    · next hk => rw [coef_of_le (by omega), coef_of_le (by omega), add_zero]
  obtain ⟨os, o1, k1, k2, k3, k4⟩ := I.computes.truncate 2 ![u, b] e
    (isSum_iff.2 ⟨fun i => by fin_cases i <;> simp [he, hu, hb], fun k => by rw [hce]; simp [Fin.sum_univ_two]⟩)
    (by simp [he])
  obtain ⟨os', o2, l1, l2, l3, l4⟩ := I.computes.truncate 2 ![shift u a b, a] e
    (isSum_iff.2 ⟨fun i => by fin_cases i <;> simp [he, hu, ha], fun k => by
      rw [hce]
      simp only [Fin.sum_univ_two, Matrix.cons_val_zero, Matrix.cons_val_one]
      rw [coef_shift (by omega) (by omega)]
      ring⟩)
    (by simp [he])
  obtain rfl : o1 = o2 := Except.ok.inj (k1.symm.trans l1)
  have e0 : os 0 = o := Except.ok.inj ((k2 0).symm.trans h)
  have e1 : os 1 = ob := Except.ok.inj ((k2 1).symm.trans h2)
  have e2 : os' 1 = oa := Except.ok.inj ((l2 1).symm.trans h1)
  have e3 := l2 0
  simp only [Matrix.cons_val_zero] at e3
  rw [e3]
  congr 1
  rw [isSum_iff] at k3 l3
  have hol : o.length = o1.length := e0 ▸ k3.1 0
  refine list_eq_of_coef (by rw [shift_length, hol]; exact l3.1 0) fun k _ => ?_
  have f1 := k3.2 k
  have f2 := l3.2 k
  rw [Fin.sum_univ_two, e0, e1] at f1
  rw [Fin.sum_univ_two, e2] at f2
  rw [coef_shift (by rw [hol, ← e2]; exact (l3.1 1)) (by rw [hol, ← e1]; exact k3.1 1)]
  linear_combination f1 - f2

end Prio3
end Vdaf
