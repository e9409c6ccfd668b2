import Verif.Proofs.Poplar1Sound
import Verif.Props.Poplar1

/-! # Poplar1: properties C33 and C34 -/

namespace Vdaf
open Poplar1 Finset

/-! ## C33 -/

theorem Poplar1.init_ok {bits : ℕ} {P : Poplar1} (h : Poplar1.init bits = .ok P) :
    P = ⟨⟨2, bits⟩⟩ ∧ 0 < bits := by
  unfold Poplar1.init at h
  rw [Except.bind_eq_ok] at h
  obtain ⟨I, h1, h2⟩ := h
  obtain ⟨rfl, -, hb⟩ := Idpf.init_ok h1
  cases h2
  exact ⟨rfl, hb⟩

theorem Poplar1.levelModulus_eq (bits level : ℕ) : Spec.levelModulus bits level =
    PyField.modulus (Fk (Idpf.currentField ⟨2, bits⟩ level)) := by
  unfold Spec.levelModulus
  by_cases h : level + 1 < bits
  · rw [if_pos h, Idpf.currentField_inner (I := ⟨2, bits⟩) (show level < bits - 1 by omega)]
    rfl
  · rw [if_neg h, Idpf.currentField_leaf (I := ⟨2, bits⟩) (show ¬ level < bits - 1 by omega)]
    rfl

/-- C33: `run_vdaf` with Poplar1 returns, for each of the prefixes, the number of measurements that start with it
(modulo the modulus of the field of the level).  The only other outcome is that the sampler of `next_vec` runs
out of fuel. -/
theorem C33_end_to_end (prims : Prims) {fuel : ℕ} (hf : fuel < 2 ^ 120) {bits : ℕ} {P : Poplar1}
    (hP : Poplar1.init bits = .ok P) {level : ℕ} {prefixes : List (List Bool)} (hl : level < bits)
    (hl16 : level < 2 ^ 16) (hnd : prefixes.Nodup) (hpl : ∀ p ∈ prefixes, p.length = level + 1)
    {verifyKey ctx : Bytes} (hk : verifyKey.length = 32) (hctx : ctx.length + 8 < 2 ^ 16)
    (batch : List (List Bool × Bytes × Bytes))
    (hbatch : ∀ m ∈ batch, m.1.length = bits ∧ m.2.1.length = 16 ∧ m.2.2.length = 128) :
    runVdaf (P.vdaf prims fuel) verifyKey (level, prefixes) ctx batch = .error .fuel ∨
    runVdaf (P.vdaf prims fuel) verifyKey (level, prefixes) ctx batch =
      .ok (prefixes.map fun p => Spec.countPrefix (batch.map Prod.fst) p % Spec.levelModulus bits level) := by
  obtain ⟨rfl, hb⟩ := Poplar1.init_ok hP
  rcases (Poplar1.runVdaf_good (P := ⟨⟨2, bits⟩⟩) (prims := prims) hf hb rfl hctx hk hl hl16 hnd hpl
    hbatch).cases with ⟨R, h, rfl⟩ | ⟨e, h, rfl⟩
  · right
    rw [h, Poplar1.levelModulus_eq]
  · exact .inl h

/-- C33 for batches with fewer reports than the modulus of `Field64`: the counts are exact. -/
theorem C33_exact (prims : Prims) {fuel : ℕ} (hf : fuel < 2 ^ 120) {bits : ℕ} {P : Poplar1}
    (hP : Poplar1.init bits = .ok P) {level : ℕ} {prefixes : List (List Bool)} (hl : level < bits)
    (hl16 : level < 2 ^ 16) (hnd : prefixes.Nodup) (hpl : ∀ p ∈ prefixes, p.length = level + 1)
    {verifyKey ctx : Bytes} (hk : verifyKey.length = 32) (hctx : ctx.length + 8 < 2 ^ 16)
    (batch : List (List Bool × Bytes × Bytes))
    (hbatch : ∀ m ∈ batch, m.1.length = bits ∧ m.2.1.length = 16 ∧ m.2.2.length = 128)
    (hsmall : batch.length < PyField.modulus Field64) :
    runVdaf (P.vdaf prims fuel) verifyKey (level, prefixes) ctx batch = .error .fuel ∨
    runVdaf (P.vdaf prims fuel) verifyKey (level, prefixes) ctx batch =
      .ok (prefixes.map fun p => Spec.countPrefix (batch.map Prod.fst) p) := by
  rcases C33_end_to_end prims hf hP hl hl16 hnd hpl hk hctx batch hbatch with h | h
  · exact .inl h
  · right
    rw [h]
    congr 1
    refine List.map_congr_left fun p _ => Nat.mod_eq_of_lt ?_
    have h1 : Spec.countPrefix (batch.map Prod.fst) p ≤ batch.length := by
      unfold Spec.countPrefix
      exact (List.length_filter_le _ _).trans (List.length_map _).le
    have h2 : PyField.modulus Field64 ≤ Spec.levelModulus bits level := by
      unfold Spec.levelModulus
      split
      · exact le_rfl
      · decide +kernel
    omega

-- a batch with three measurements, at an inner level and at the last level
example : (do
    let P ← Poplar1.init 2
    let batch := [([true, false], List.replicate 16 3, List.replicate 128 7),
      ([true, true], List.replicate 16 4, List.replicate 128 9), ([false, true], List.replicate 16 5, List.replicate 128 2)]
    let inner ← runVdaf (P.vdaf toyPrims 40) (List.replicate 32 1) (0, [[false], [true]]) [1] batch
    let leaf ← runVdaf (P.vdaf toyPrims 40) (List.replicate 32 1) (1, [[false, false], [true, false], [true, true]]) [1] batch
    return (inner, leaf)) = .ok ([1, 2], [0, 1, 1]) := by decide +kernel

/-! ## C34 -/

/-- C34: for every public share and every two input shares, however they were generated, there is a set
`Bad` of at most `2 * |F|^(n-1)` of the `|F|^n` possible verification randomness vectors (`n` is the number of
prefixes, `F` the field of the level) such that, whatever the verification key, if both rounds of verification
succeed and the verification randomness is not in `Bad`, then the output shares sum to zero or to a
unit vector.  `Bad` does not depend on the verification key. -/
theorem C34_sketch_soundness (prims : Prims) (fuel : ℕ) (P : Poplar1) (level : ℕ) (prefixes : List (List Bool))
    (ctx nonce : Bytes) (pub : List CorrectionWord) (s0 s1 : Poplar1InputShare) :
    ∃ Bad : Set (Fin prefixes.length → Fk (P.idpf.currentField level)),
      Bad.ncard ≤ 2 * PyField.modulus (Fk (P.idpf.currentField level)) ^ (prefixes.length - 1) ∧
      ∀ verifyKey out0 out1,
        Spec.Poplar1Succeeds P prims fuel verifyKey ctx (level, prefixes) nonce pub s0 s1 out0 out1 →
        ∃ (u0 u1 u : List (Fk (P.idpf.currentField level)))
          (r : Fin prefixes.length → Fk (P.idpf.currentField level)),
          out0 = ⟨_, u0⟩ ∧ out1 = ⟨_, u1⟩ ∧ Spec.IsSum ![u0, u1] u ∧ u.length = prefixes.length ∧
          Spec.poplar1VerifyRand P prims fuel verifyKey ctx nonce level prefixes.length = .ok (List.ofFn r) ∧
          (Spec.ZeroOrUnit u ∨ r ∈ Bad) := by
  refine ⟨badRand P prims fuel ctx level prefixes nonce pub s0 s1, badRand_card .., fun vk out0 out1 h => ?_⟩
  obtain ⟨u0, u1, u, r, h1, h2, h3, h4, h5, h6⟩ := good_or_badRand h
  exact ⟨u0, u1, u, r, h1, h2, h3, h4, verifyRand_eq h5, h6⟩

-- an honest report passes; if the client shifts the programmed value of the last level, so that
-- the output shares sum to [0, 2], it is rejected
example : ((do
    let P ← Poplar1.init 1
    let nonce := List.replicate 16 3
    let (pub, ish) ← P.shard toyPrims 40 [1] [true] nonce (List.replicate 128 7)
    let s0 ← getI ish 0
    let s1 ← getI ish 1
    let (out0, out1) ← Spec.poplar1Verify P toyPrims 40 (List.replicate 32 1) [1] (0, [[false], [true]]) nonce pub s0 s1
    let sum ← vecAddF out0 out1
    let cw ← getI pub 0
    let shift ← vecAddF cw.wCw ⟨.leaf, ([-1, 0] : List Field255)⟩
    let pub' := [{ cw with wCw := shift }]
    let v0 ← P.idpf.eval toyPrims 40 0 pub' s0.key (0 : ℕ) [[false], [true]] [1] nonce
    let v1 ← P.idpf.eval toyPrims 40 1 pub' s1.key (0 : ℕ) [[false], [true]] [1] nonce
    let sums ← mapRes (fun (x, y) => vecAdd x y) (v0.zip v1)
    return (sum.2.map PyField.toNat, sums.map (fun v => PyField.toNat (v.getD 0 0)),
      match Spec.poplar1Verify P toyPrims 40 (List.replicate 32 1) [1] (0, [[false], [true]]) nonce pub' s0 s1 with
      | .ok _ => "accepted"
      | .error (.value m) => m
      | .error _ => "")) : Res (List ℕ × List ℕ × String)) = .ok ([0, 1], [0, 2], "sketch verification failed") := by decide +kernel

end Vdaf
