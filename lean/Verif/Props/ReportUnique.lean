import Verif.Proofs.ReportUnique
import Verif.Proofs.ReportUniqueTree
import Verif.Proofs.Poplar1Shard
import Verif.Props.Reject
import Verif.Props.ShardArgs
import Verif.Props.Prio3

/-!
# Property C93: the report of an honest Client determines the measurement
-/

namespace Vdaf

section
variable {F : Type} [NttField F] {Meas Agg : Type} {prims : Prims} {fuel : ℕ}

/-- C93: the encodings of two measurements are different. -/
theorem C93_encode_injective {V : Valid F Meas Agg} {fn : Spec.Fun Meas Agg} (hV : Spec.Library F V fn) {m m' : Meas}
    (hm : fn.valid m) (hm' : fn.valid m') (h : V.encode m = V.encode m') : m = m' := by
  obtain ⟨es, os, h1, h2⟩ := C13_encode_truncate_decode hV (fun _ : Fin 1 => m) (fun _ => hm)
  obtain ⟨es', os', h1', h2'⟩ := C13_encode_truncate_decode hV (fun _ : Fin 1 => m') (fun _ => hm')
  obtain ⟨a, -, b, c⟩ := h1 0
  obtain ⟨a', -, b', -⟩ := h1' 0
  rw [h, a'] at a
  injection a with a
  rw [← a, b'] at b
  injection b with b
  have s : ∀ os : Fin 1 → List F, Spec.IsSum os (os 0) := fun os => ⟨fun i => by rw [Subsingleton.elim i 0], by simp⟩
  have d := h2 (os 0) (s os) c (Library.totals_single hV hm)
  have d' := h2' (os' 0) (s os') (by rw [b, c]) (Library.totals_single hV hm')
  rw [b, d] at d'
  injection d' with d'
  exact Library.agg_single hV hm hm' d'

/-- C93: if two runs of `shard` for an application, with any nonces and any random bytes, return the same input shares, then
the measurements are the same. -/
theorem C93_report_unique {P : Prio3 (XofTurboShake128 prims fuel) F Meas Agg} {fn : Spec.Fun Meas Agg}
    (I : Spec.Instance P fn) (ctx : Bytes) (hctx : ctx.length + 8 < 2 ^ 16) {m m' : Meas} (hm : fn.valid m)
    (hm' : fn.valid m') {nonce nonce' rand rand' : Bytes} {pub pub' : Option (List Bytes)}
    {ish : List (Prio3InputShare F)} (h : P.shard ctx m nonce rand = .ok (pub, ish))
    (h' : P.shard ctx m' nonce' rand' = .ok (pub', ish)) : m = m' := by
  have hpos : 0 < P.shares := by have := I.wf.shares_ge; omega
  have key : ∀ {m nonce rand pub}, fn.valid m → P.shard ctx m nonce rand = .ok (pub, ish) →
      ∃ (meas : List F) (ms : ℕ → List F), P.flp.encode m = .ok meas ∧
        (∀ j < P.shares, ∃ s ps bl, ish[j]? = some s ∧ Spec.Expands P ctx j s (ms j) ps bl) ∧
        Spec.IsSum (fun j : Fin P.shares => ms j) meas := by
    intro m nonce rand pub hm h
    obtain ⟨hn, hr, -⟩ := C92_prio3_accepts_only P ctx m nonce rand _ h
    rcases C30_shard I ctx hctx m hm nonce rand hn
        (by rw [hr]; unfold Spec.numSeeds; split_ifs <;> omega) with
      ⟨pub', ish', hs, -, meas, ms, ps, bl, -, -, -, -, he, hx, hsum, -⟩ | ⟨hs, -⟩
    · rw [h] at hs
      injection hs with hs
      injection hs with _ hs
      subst hs
      exact ⟨meas, ms, he, fun j hj => (hx j hj).imp fun s hs => ⟨_, _, hs.1, hs.2⟩, hsum⟩
    · rw [h] at hs
      cases hs
  obtain ⟨meas, ms, he, hx, hs⟩ := key hm h
  obtain ⟨meas', ms', he', hx', hs'⟩ := key hm' h'
  apply C93_encode_injective I.library hm hm'
  rw [he, he', Spec.IsSum.unique hpos hs hs']
  intro i
  obtain ⟨s, _, _, h1, h2⟩ := hx i i.2
  obtain ⟨s', _, _, h1', h2'⟩ := hx' i i.2
  rw [h1] at h1'
  injection h1' with h1'
  subst h1'
  exact Spec.Expands.unique h2 h2'

end

/-- C93 for the IDPF: if two runs of `gen` with the same context and nonce, with any random bytes, return the same public share
and keys, then the points and the values are the same. -/
theorem C93_idpf_unique (prims : Prims) {fuel : ℕ} (hf : fuel < 2 ^ 120) {valueLen bits : ℕ} {I : Idpf}
    (hI : Idpf.init valueLen bits = .ok I) {alpha alpha' : List Bool} {betaInner betaInner' : List (List Field64)}
    {betaLeaf betaLeaf' : List Field255} {ctx nonce rand rand' : Bytes} (hctx : ctx.length + 8 < 2 ^ 16)
    {r : List CorrectionWord × List Bytes}
    (h : I.gen prims fuel alpha betaInner betaLeaf ctx nonce rand = .ok r)
    (h' : I.gen prims fuel alpha' betaInner' betaLeaf' ctx nonce rand' = .ok r) :
    alpha = alpha' ∧ betaInner = betaInner' ∧ betaLeaf = betaLeaf' := by
  obtain ⟨a, b, c, d, e, f⟩ := (C60_gen_accepts_only prims hf hI _ _ _ _ _ _ hctx).2 ⟨r, h⟩
  obtain ⟨a', b', c', d', -, f'⟩ := (C60_gen_accepts_only prims hf hI _ _ _ _ _ _ hctx).2 ⟨r, h'⟩
  obtain ⟨rfl, -, hb⟩ := Idpf.init_ok hI
  have g := Idpf.gen_good (I := ⟨valueLen, bits⟩) (prims := prims) hf hctx a b c d f e
  have g' := Idpf.gen_good (I := ⟨valueLen, bits⟩) (prims := prims) hf hctx a' b' c' d' f' e
  rw [h] at g
  rw [h'] at g'
  obtain ⟨hk, N, hN⟩ := g
  obtain ⟨hk', N', hN'⟩ := g'
  rw [hk] at hk'
  simp only [List.cons.injEq, and_true] at hk'
  rw [← hk'.1, ← hk'.2] at hN'
  have hbeta := fun k hk => ((hN.unique hN' bits le_rfl).2.2 k hk).2
  refine ⟨hN.alpha_eq hN' a a', List.ext_getElem (by omega) fun i hi hi' => ?_, ?_⟩
  · have := hbeta i (by omega)
    rw [Idpf.currentField_inner (show i < bits - 1 by omega)] at this
    have this : betaInner.getD i [] = betaInner'.getD i [] := this
    rwa [getD_of_lt' hi, getD_of_lt' hi'] at this
  · have := hbeta (bits - 1) (by omega)
    rw [Idpf.currentField_leaf (show ¬ bits - 1 < bits - 1 by omega)] at this
    exact this

/-- C93 for Poplar1: if two runs of `shard` with the same context and nonce, with any random bytes, return the same report, then
the measurements are the same. -/
theorem C93_poplar1_report_unique (prims : Prims) {fuel : ℕ} (hf : fuel < 2 ^ 120) {bits : ℕ} {P : Poplar1}
    (hP : Poplar1.init bits = .ok P) {ctx nonce rand rand' : Bytes} (hctx : ctx.length + 8 < 2 ^ 16)
    {alpha alpha' : List Bool} {r : List CorrectionWord × List Poplar1InputShare}
    (h : P.shard prims fuel ctx alpha nonce rand = .ok r) (h' : P.shard prims fuel ctx alpha' nonce rand' = .ok r) :
    alpha = alpha' := by
  obtain ⟨a, b, c⟩ := C92_poplar1_accepts_only P prims fuel ctx alpha nonce rand r h
  obtain ⟨-, b', c'⟩ := C92_poplar1_accepts_only P prims fuel ctx alpha' nonce rand' r h'
  obtain ⟨rfl, hb⟩ := Poplar1.init_ok hP
  have g := Poplar1.shard_good (P := ⟨⟨2, bits⟩⟩) (prims := prims) hf hb rfl hctx c a b
  have g' := Poplar1.shard_good (P := ⟨⟨2, bits⟩⟩) (prims := prims) hf hb rfl hctx c' a b'
  rw [h] at g
  rw [h'] at g'
  obtain ⟨s0, s1, beta, e, H⟩ := g
  obtain ⟨s0', s1', beta', e', H'⟩ := g'
  rw [e] at e'
  simp only [List.cons.injEq, and_true] at e'
  obtain ⟨rfl, rfl⟩ := e'
  obtain ⟨N, hN⟩ := H.gen
  obtain ⟨N', hN'⟩ := H'.gen
  exact hN.alpha_eq hN' c c'

/-! ## Examples -/

-- the input shares of one measurement for two nonces are the same; those of another measurement are different
example : Spec.Instance shardExample Spec.countFun ∧ (do
    let (_, a) ← shardExample.shard [1] 1 (List.replicate 16 3) (List.replicate 64 7)
    let (_, b) ← shardExample.shard [1] 1 (List.replicate 16 4) (List.replicate 64 7)
    let (_, c) ← shardExample.shard [1] 0 (List.replicate 16 3) (List.replicate 64 7)
    return decide (a = b ∧ a ≠ c)) = .ok true := by
  refine ⟨(instance_count (prims := toyPrims) (fuel := 40) (shares := 2) rfl).1, ?_⟩
  decide +kernel

-- encodings of integers up to 10, where the last bit does not have the weight of a power of two
example : ∃ V, Sum Field64 10 = .ok V ∧ Spec.Library Field64 V (Spec.sumFun 10) ∧
    (List.range 11).all (fun i => (List.range 11).all fun j =>
      decide (i = j) || !decide (V.encode i = V.encode j)) = true := by
  refine ⟨_, rfl, .sum (by decide) rfl, ?_⟩
  decide +kernel

-- Poplar1: two runs with the same random bytes; with the other measurement, already the public share is different
example : Poplar1.init 2 = .ok ⟨⟨2, 2⟩⟩ ∧ (do
    let (p, a) ← (⟨⟨2, 2⟩⟩ : Poplar1).shard toyPrims 40 [1] [true, false] (List.replicate 16 3) (List.replicate 128 7)
    let (q, b) ← (⟨⟨2, 2⟩⟩ : Poplar1).shard toyPrims 40 [1] [true, true] (List.replicate 16 3) (List.replicate 128 7)
    return decide (p ≠ q ∧ a = b)) = .ok true := by
  refine ⟨rfl, ?_⟩
  decide +kernel

end Vdaf
