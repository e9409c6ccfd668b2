import Verif.Proofs.HeavyOracle
import Verif.Proofs.PrivacyMain

/-!
# Property C85: the heavy hitters protocol in the random oracle model

C83 bounds the influence of malicious Clients under the condition that the verification randomness is not in a small set that
depends on the reports and on the aggregation parameters, which depend on each other and on the verification randomness of
the previous levels.  Here the batch is chosen by someone who evaluates TurboSHAKE128 before, and the probability that the
result is wrong, over the verification key and the random oracle, is bounded.
-/

namespace Vdaf
open Spec
section
variable {prims : Prims} {fuel : ℕ}

/-- C85: the batch has at most `M` reports, all with different nonces, and is chosen after `q` evaluations of TurboSHAKE128.  Then
the heavy hitters protocol does what it should (`HeavyRight`), except with a probability of at most
`(q + bits * M) * (2 / modulus + 1 / 2 ^ 256)`, where the modulus is that of the field of the first level. -/
theorem C85_heavy_hitters {bits : ℕ} {P : Poplar1} (hP : Poplar1.init bits = .ok P) (h16 : bits ≤ 2 ^ 16) (hf : fuel < 2 ^ 120)
    {ctx : Bytes} (hctx : ctx.length + 8 < 2 ^ 16) {N : ℕ} (hN : fuel * 32 ≤ N) {M : ℕ} (hM : M < PyField.modulus Field64)
    {A : BatchChooser} (hA : ∀ answers, (A.batch answers).length ≤ M ∧ ((A.batch answers).map EncodedReport.nonce).Nodup ∧
      ∀ e ∈ A.batch answers, e.nonce.length = 16) (T q : ℕ) :
    heavyWrongProbability P prims fuel bits ctx T A q N ≤ (q + bits * M) * (2 / levelModulus bits 0 + 1 / 2 ^ 256) := by
  have hfin := Poplar1.allInputs_finite ctx
  have hf' : {x : Bytes × (Bytes → ℕ → UInt8) | x.1.length = 32 ∧ x.2 ∈ oracles prims (allVerifyRandInputs ctx) N}.Finite :=
    ((List.finite_length_eq UInt8 32).prod (oracles_finite hfin N)).subset fun x hx => ⟨hx.1, hx.2⟩
  have hb := C69_robustness hP (prims := prims) hctx hfin (fun vk hvk m hm => ⟨vk, hvk, hm⟩) hN
    (Poplar1.heavyStrategy P prims fuel ctx T A q N) (q + bits * M)
  refine le_trans ?_ (hb.trans (le_of_eq ?_))
  · unfold heavyWrongProbability poplar1KeyedWinProbability
    refine div_le_div_of_nonneg_right (Nat.cast_le.2 (Set.ncard_le_ncard ?_ (hf'.subset fun x hx => ⟨hx.1, hx.2.1⟩)))
      (Nat.cast_nonneg _)
    rintro ⟨vk, O⟩ ⟨k1, k2, k3⟩
    exact ⟨k1, k2, Poplar1.wins_of_wrong hP h16 hf hctx hM hA k2 k1 k3⟩
  · push_cast
    ring

end

/-! Non-vacuity: two honest Clients hold a string, a third one another string.  The fourth report, with its own nonce, combines
the shares of two of them. -/

/-- The batch -/
def heavyBatch : Res (List EncodedReport) := do
  let P ← Poplar1.init 2
  let report := fun (m : List Bool) (n : UInt8) => do
    let nonce := List.replicate 16 n
    let (pub, ish) ← P.shard toyPrims 40 [1] m nonce (List.replicate 128 (n + 7))
    let p ← Poplar1.encodePublicShare pub
    let shares ← mapRes Poplar1.encodeInputShare ish
    return (⟨nonce, p, shares⟩ : EncodedReport)
  let r1 ← report [true, false] 1
  let r2 ← report [true, false] 2
  let r3 ← report [false, true] 3
  return [r1, r2, r3, ⟨List.replicate 16 4, r3.publicShare, r1.inputShares.take 1 ++ r3.inputShares.drop 1⟩]

/-- Who chooses this batch after evaluations of TurboSHAKE128 -/
def heavyChooser : BatchChooser where
  ask answers := [UInt8.ofNat answers.length]
  batch _ := match heavyBatch with
    | .ok b => b
    | .error _ => []

-- the conditions on the batch
example : ∀ answers, (heavyChooser.batch answers).length ≤ 4 ∧ ((heavyChooser.batch answers).map EncodedReport.nonce).Nodup ∧
    ∀ e ∈ heavyChooser.batch answers, e.nonce.length = 16 := by
  intro answers
  have h : (heavyChooser.batch answers).map EncodedReport.nonce =
      [List.replicate 16 1, List.replicate 16 2, List.replicate 16 3, List.replicate 16 4] := by
    have h0 : heavyChooser.batch answers = heavyChooser.batch [] := by simp only [heavyChooser]
    rw [h0]
    decide +kernel
  have hl := congrArg List.length h
  rw [List.length_map] at hl
  refine ⟨hl.le, by rw [h]; decide, fun e he => ?_⟩
  have := List.mem_map_of_mem (f := EncodedReport.nonce) he
  rw [h] at this
  simp only [List.mem_cons, List.not_mem_nil, or_false] at this
  rcases this with h | h | h | h <;> rw [h] <;> rfl

-- all four reports can be decoded; with the threshold 2 the result is the string of the first two; at both levels the reports of
-- the honest Clients are accepted and the other one is rejected
example : (do
    let P ← Poplar1.init 2
    let reports := poplar1Received P toyPrims 40 (heavyChooser.batch [])
    let (hist, hh) ← heavyHitters 2 (P.vdaf toyPrims 40).isValid
      (poplar1Counts P toyPrims 40 (List.replicate 32 1) [1] reports) 2
    return (hh, hist.map fun a => reports.map fun (r : Poplar1Report) =>
      (poplar1Verify P toyPrims 40 (List.replicate 32 1) [1] a r.nonce r.pub r.share0 r.share1).toOption.isSome)) =
    .ok ([[true, false]], [[true, true, true, false], [true, true, true, false]]) := by decide +kernel

-- the bound is small: 2 ^ 20 reports of 256 bits and 2 ^ 20 evaluations
example : ((2 ^ 20 + 256 * 2 ^ 20 : ℕ) : ℚ) * (2 / levelModulus 256 0 + 1 / 2 ^ 256) < 1 / 2 ^ 34 := by
  rw [show levelModulus 256 0 = 18446744069414584321 by decide +kernel]
  norm_num

end Vdaf
