import Verif.Proofs.Sizes
import Verif.Props.Flp
import Verif.Props.Poplar1

/-!
# Property C86: the sizes of the messages are public

The number of bytes of every message is determined by the parameters of the VDAF and, for Poplar1, by the aggregation
parameter: it depends neither on the measurement nor on any secret, and no party can make another party send a message of
another size.
-/

namespace Vdaf
open Spec

section
variable {prims : Prims} {fuel : ℕ}

theorem lens_of_init {F : Type} [NttField F] {Meas Agg : Type} {id shares n : ℕ} {V : Valid F Meas Agg}
    {P : Prio3 (XofTurboShake128 prims fuel) F Meas Agg} (h : Prio3.init id _ shares V n = .ok P) :
    P.shares = shares ∧ P.proofs = n ∧ P.lens = ⟨V.measLen,
      ((List.zip V.gadgets V.gadgetCalls).map fun gc => gc.1.arity + (gc.1.degree * (2 ^ Nat.size gc.2 - 1) + 1)).sum,
      1 + (V.gadgets.map fun g => g.arity + 1).sum, V.outputLen, decide (0 < V.jointRandLen)⟩ := by
  obtain ⟨pl, h1, h2, h3, rfl⟩ := Prio3.init_ok.1 h
  refine ⟨rfl, rfl, ?_⟩
  rw [(C21_length_formulas V).1] at h1
  cases h1
  simp only [Prio3.lens]
  rw [(C21_length_formulas V).2]

/-- C86 for `Prio3Count` -/
theorem C86_count {shares : ℕ} {P : Prio3 (XofTurboShake128 prims fuel) Field64 Int Nat}
    (hP : Prio3Count prims fuel shares = .ok P) :
    HasSizes P.vdaf (Prio3.shareCodec Field64) (fun m => m = 0 ∨ m = 1) () (prio3Sizes 8 shares 1 countLens) := by
  obtain ⟨h1, h2, h3⟩ := lens_of_init hP
  have := Prio3.hasSizes (instance_count hP).1 (by omega)
  rw [h1, h2, h3] at this
  exact this

/-- C86 for `Prio3Sum` -/
theorem C86_sum {shares max : ℕ} (hmax : 0 < max) {P : Prio3 (XofTurboShake128 prims fuel) Field64 Int Nat}
    (hP : Prio3Sum prims fuel shares max = .ok P) :
    HasSizes P.vdaf (Prio3.shareCodec Field64) (fun m => 0 ≤ m ∧ m ≤ max) ()
      (prio3Sizes 8 shares 1 (sumLens (Nat.size max))) := by
  have hI := (instance_sum hmax hP).1
  unfold Prio3Sum at hP
  obtain ⟨V, hV, hP⟩ := Except.bind_eq_ok.1 hP
  obtain ⟨h1, h2, h3⟩ := lens_of_init hP
  have := Prio3.hasSizes hI (by omega)
  rw [h1, h2, h3] at this
  obtain ⟨-, G, hG, rfl⟩ := Sum_ok hV
  have hd : G.arity = 1 ∧ G.degree = 2 := by
    obtain ⟨p, h3, h2⟩ := Except.bind_eq_ok.1 hG
    have : p = [0, -1, 1] := by
      have : polyEvalStrip [0, -1, 1] ([0, -1, 1] : List Int).length = .ok [0, -1, 1] := by decide
      rw [this] at h3
      cases h3; rfl
    subst this
    obtain ⟨_, h4, h2⟩ := Except.bind_eq_ok.1 h2
    obtain ⟨w, h5, h2⟩ := Except.bind_eq_ok.1 h2
    obtain ⟨n, h6, h2⟩ := Except.bind_eq_ok.1 h2
    cases h2
    exact ⟨rfl, rfl⟩
  have hl : (⟨Nat.size max, ((List.zip [G] [Nat.size max]).map fun gc =>
      gc.1.arity + (gc.1.degree * (2 ^ Nat.size gc.2 - 1) + 1)).sum, 1 + ([G].map fun g => g.arity + 1).sum, 1, false⟩ : Lens) =
      sumLens (Nat.size max) := by
    have := Nat.two_pow_pos (Nat.size (Nat.size max))
    simp only [sumLens, List.zip_cons_cons, List.zip_nil_right, List.map_cons, List.map_nil, List.sum_cons, List.sum_nil,
      hd.1, hd.2, Lens.mk.injEq, true_and, and_true]
    omega
  rw [← hl]
  exact this

theorem chunk_lens {F : Type} [NttField F] {n chunk output : ℕ} :
    (⟨n, ((List.zip [ParallelSum (Mul F) chunk] [numCalls n chunk]).map fun gc =>
      gc.1.arity + (gc.1.degree * (2 ^ Nat.size gc.2 - 1) + 1)).sum,
      1 + ([ParallelSum (Mul F) chunk].map fun g => g.arity + 1).sum, output, true⟩ : Lens) = chunkLens n chunk output := by
  simp only [chunkLens, List.zip_cons_cons, List.zip_nil_right, List.map_cons, List.map_nil, List.sum_cons, List.sum_nil,
    ParallelSum, Mul, numCalls, Lens.mk.injEq, true_and, and_true]
  omega

/-- C86 for `Prio3SumVecWithMultiproof`, over any field -/
theorem C86_multiproof {F : Type} [NttField F] {shares numProofs length max chunk k : ℕ} (hn : numProofs < 256)
    (hp : 0 < numProofs) (hsh : shares < PyField.modulus F) (hl : length * Nat.size max < 2 ^ k)
    (hF : 2 ^ (k + 1) ≤ NttField.genOrder F) {P : Prio3 (XofTurboShake128 prims fuel) F (List Int) (List Nat)}
    (hP : Prio3SumVecWithMultiproof prims fuel shares F numProofs length max chunk = .ok P) :
    HasSizes P.vdaf (Prio3.shareCodec F) (fun m => m.length = length ∧ ∀ x ∈ m, 0 ≤ x ∧ x ≤ (max : Int)) ()
      (prio3Sizes (PyField.encSize F) shares numProofs (chunkLens (length * Nat.size max) chunk length)) := by
  have hI := (instance_multiproof hn hsh hl hF hP).1
  unfold Prio3SumVecWithMultiproof at hP
  obtain ⟨V, hV, hP⟩ := Except.bind_eq_ok.1 hP
  obtain ⟨h1, h2, h3⟩ := lens_of_init hP
  have := Prio3.hasSizes hI (by omega)
  rw [h1, h2, h3] at this
  obtain ⟨hlen, hc, hmax, -, rfl⟩ := SumVec_ok hV
  rw [← chunk_lens (F := F)]
  have hj : decide (0 < (SumVec.circuit F length max chunk).jointRandLen) = true :=
    decide_eq_true (numCalls_pos (Nat.mul_pos hlen (Nat.size_pos.2 hmax)) hc)
  rw [hj] at this
  exact this

/-- C86 for `Prio3SumVec` -/
theorem C86_sumvec {shares length max chunk : ℕ} (hl : length * Nat.size max < 2 ^ 65)
    {P : Prio3 (XofTurboShake128 prims fuel) Field128 (List Int) (List Nat)}
    (hP : Prio3SumVec prims fuel shares length max chunk = .ok P) :
    HasSizes P.vdaf (Prio3.shareCodec Field128) (fun m => m.length = length ∧ ∀ x ∈ m, 0 ≤ x ∧ x ≤ (max : Int)) ()
      (prio3Sizes 16 shares 1 (chunkLens (length * Nat.size max) chunk length)) := by
  have hI := (instance_sumVec hl hP).1
  unfold Prio3SumVec at hP
  obtain ⟨V, hV, hP⟩ := Except.bind_eq_ok.1 hP
  obtain ⟨h1, h2, h3⟩ := lens_of_init hP
  have := Prio3.hasSizes hI (by omega)
  rw [h1, h2, h3] at this
  obtain ⟨hlen, hc, hmax, -, rfl⟩ := SumVec_ok hV
  rw [← chunk_lens (F := Field128)]
  have hj : decide (0 < (SumVec.circuit Field128 length max chunk).jointRandLen) = true :=
    decide_eq_true (numCalls_pos (Nat.mul_pos hlen (Nat.size_pos.2 hmax)) hc)
  rw [hj] at this
  exact this

/-- C86 for `Prio3Histogram` -/
theorem C86_histogram {shares length chunk : ℕ} (hl : length < 2 ^ 65)
    {P : Prio3 (XofTurboShake128 prims fuel) Field128 Int (List Nat)}
    (hP : Prio3Histogram prims fuel shares length chunk = .ok P) :
    HasSizes P.vdaf (Prio3.shareCodec Field128) (fun m => 0 ≤ m ∧ m < length) ()
      (prio3Sizes 16 shares 1 (chunkLens length chunk length)) := by
  have hI := (instance_histogram hl hP).1
  unfold Prio3Histogram at hP
  obtain ⟨V, hV, hP⟩ := Except.bind_eq_ok.1 hP
  obtain ⟨h1, h2, h3⟩ := lens_of_init hP
  have := Prio3.hasSizes hI (by omega)
  rw [h1, h2, h3] at this
  obtain ⟨hlen, hc, rfl⟩ := Histogram_ok hV
  rw [← chunk_lens (F := Field128)]
  have hj : decide (0 < (Histogram.circuit Field128 length chunk).jointRandLen) = true :=
    decide_eq_true (numCalls_pos hlen hc)
  rw [hj] at this
  exact this

/-- C86 for `Prio3MultihotCountVec` -/
theorem C86_multihot {shares length maxWeight chunk : ℕ} (hl : length + Nat.size maxWeight < 2 ^ 65)
    {P : Prio3 (XofTurboShake128 prims fuel) Field128 (List Bool) (List Nat)}
    (hP : Prio3MultihotCountVec prims fuel shares length maxWeight chunk = .ok P) :
    HasSizes P.vdaf (Prio3.shareCodec Field128) (fun m => m.length = length ∧ m.count true ≤ maxWeight) ()
      (prio3Sizes 16 shares 1 (chunkLens (length + Nat.size maxWeight) chunk length)) := by
  have hI := (instance_multihot hl hP).1
  unfold Prio3MultihotCountVec at hP
  obtain ⟨V, hV, hP⟩ := Except.bind_eq_ok.1 hP
  obtain ⟨h1, h2, h3⟩ := lens_of_init hP
  have := Prio3.hasSizes hI (by omega)
  rw [h1, h2, h3] at this
  obtain ⟨hlen, hc, -, -, -, rfl⟩ := MultihotCountVec_ok hV
  rw [← chunk_lens (F := Field128)]
  have hj : decide (0 < (MultihotCountVec.circuit Field128 length maxWeight chunk).jointRandLen) = true :=
    decide_eq_true (numCalls_pos (by omega) hc)
  rw [hj] at this
  exact this

/-- C86 for Poplar1 -/
theorem C86_poplar1 (hf : fuel < 2 ^ 120) {bits : ℕ} {P : Poplar1} (hP : Poplar1.init bits = .ok P)
    {a : Poplar1AggParam} (hl : a.1 < bits) :
    HasSizes (P.vdaf prims fuel) P.shareCodec (fun m => m.length = bits) a (poplar1Sizes bits a.1 a.2.length) := by
  unfold Poplar1.init at hP
  obtain ⟨I, hI, hP⟩ := Except.bind_eq_ok.1 hP
  cases hP
  obtain ⟨rfl, -, -⟩ := Idpf.init_ok hI
  exact Poplar1.hasSizes hf rfl hl

end

/-! ## Examples -/

/-- Public share, input shares, verifier share and verifier message of each of `rounds` rounds, aggregate share -/
def Spec.Sizes.numbers (S : Sizes) (rounds : ℕ) : ℕ × (ℕ × ℕ) × List (ℕ × ℕ) × ℕ :=
  (S.publicShare, (S.inputShare 0, S.inputShare 1),
    (List.range rounds).map fun r => (S.verifierShare r, S.verifierMessage r), S.aggShare)

-- the formulas give the sizes in the test vectors of the repository (test_vec/vdaf/*_0.json)
example : (prio3Sizes 8 2 1 countLens).numbers 1 = (0, (48, 32), [(32, 0)], 8) := by decide +kernel
example : (prio3Sizes 8 2 1 (sumLens (Nat.size 255))).numbers 1 = (0, (320, 32), [(24, 0)], 8) := by decide +kernel
example : (prio3Sizes 16 2 1 (chunkLens 4 2 4)).numbers 1 = (64, (272, 64), [(128, 32)], 64) := by decide +kernel
example : (prio3Sizes 16 2 1 (chunkLens (4 + Nat.size 2) 2 4)).numbers 1 = (64, (304, 64), [(128, 32)], 64) := by
  decide +kernel
example : (prio3Sizes 16 2 1 (chunkLens (10 * Nat.size 255) 9 10)).numbers 1 = (64, (2096, 64), [(352, 32)], 160) := by
  decide +kernel
example : (prio3Sizes 8 2 3 (chunkLens (10 * Nat.size 255) 9 10)).numbers 1 = (64, (1848, 64), [(512, 32)], 80) := by
  decide +kernel
example : (poplar1Sizes 4 0 2).numbers 2 = (177, (160, 160), [(24, 24), (8, 0)], 16) := by decide +kernel

-- executions in which messages of these sizes are sent
example : (do
    let P ← Prio3Histogram toyPrims 40 2 2 1
    let (pub, ish) ← P.shard [1] 1 (List.replicate 16 3) (List.replicate 128 7)
    let i0 ← getI ish 0
    let i1 ← getI ish 1
    let p ← Prio3.encodePublicShare pub
    let b0 ← P.encodeInputShare i0
    let b1 ← P.encodeInputShare i1
    let (_, sh) ← P.verifyInit (List.replicate 32 5) [1] 0 () (List.replicate 16 3) pub i0
    let v ← P.encodeVerifierShare sh
    return (p.length, b0.length, b1.length, v.length)) = .ok
      (let S := prio3Sizes 16 2 1 (chunkLens 2 1 2)
       (S.publicShare, S.inputShare 0, S.inputShare 1, S.verifierShare 0)) := by decide +kernel
example : (do
    let P ← Poplar1.init 3
    let (pub, ish) ← P.shard toyPrims 40 [1] [true, false, true] (List.replicate 16 3) (List.replicate 128 7)
    let i0 ← getI ish 0
    let p ← Poplar1.encodePublicShare pub
    let b0 ← Poplar1.encodeInputShare i0
    let (_, sh) ← P.verifyInit toyPrims 40 (List.replicate 32 5) [1] 0 (1, [[true, false]]) (List.replicate 16 3) pub i0
    let v ← Poplar1.encodeVerifierShare sh
    return (p.length, b0.length, v.length)) = .ok
      (let S := poplar1Sizes 3 1 1
       (S.publicShare, S.inputShare 0, S.verifierShare 0)) := by decide +kernel

end Vdaf
