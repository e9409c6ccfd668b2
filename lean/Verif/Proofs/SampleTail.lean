import Verif.Proofs.Completeness
import Mathlib.Analysis.SpecificLimits.Normed

/-! The law of the sampler in terms of the API, and the tail of the binomial distribution. -/

set_option linter.unusedSectionVars false

namespace Vdaf
open Finset
open Spec (withOracle rejectRate shortfall oracles xofInput)
attribute [local instance] bytesFintype

section
variable {F : Type} [PyField F]

theorem shortfall_le_one (k n : ℕ) : shortfall F k n ≤ 1 := by
  have h := ncard_yield (F := F) (N := k * PyField.encSize F) k n le_rfl fun _ => 0
  have hc : (0 : ℚ) < Fintype.card (Fin (k * PyField.encSize F) → UInt8) := by exact_mod_cast Fintype.card_pos
  refine le_of_mul_le_mul_right ?_ hc
  rw [← h, one_mul, ← Nat.card_eq_fintype_card, ← Set.ncard_univ]
  exact_mod_cast Set.ncard_le_ncard (Set.subset_univ _) (Set.toFinite _)

theorem yield_law {prims : Prims} {fuel : ℕ} {S : Set Bytes} [Fintype S] {N : ℕ} {m : Bytes} (hm : m ∈ S)
    (hN : fuel * PyField.encSize F ≤ N) (n : ℕ) :
    (Set.ncard {f : S → Fin N → UInt8 | yield F fuel (glue prims S f m) < n} : ℚ) =
      shortfall F fuel n * Fintype.card (S → Fin N → UInt8) := by
  refine le_antisymm (fixed_bound hm (fun s => yield F fuel s < n) (shortfall_nonneg _ _) fun base =>
    (ncard_yield fuel n hN base).le) ?_
  have h1 : ∀ {α : Type} [Fintype α] (p : α → Prop), (Set.ncard {x | ¬ p x} : ℚ) = Fintype.card α - Set.ncard {x | p x} := by
    intro α _ p
    have := Set.ncard_add_ncard_compl {x | p x}
    rw [Nat.card_eq_fintype_card] at this
    rw [eq_sub_iff_add_eq, add_comm]
    exact_mod_cast this
  have h2 := fixed_bound (prims := prims) (N := N) hm (fun s => ¬ yield F fuel s < n) (ε := 1 - shortfall F fuel n)
    (by linarith [shortfall_le_one (F := F) fuel n]) fun base => by
      rw [h1, ncard_yield fuel n hN base]
      linarith
  rw [h1] at h2
  linarith

theorem expand_stuck {prims : Prims} {fuel n : ℕ} {seed dst binder : Bytes} (hs : seed.length = 32) (hd : dst.length < 2 ^ 16) :
    (XofTurboShake128 prims fuel).expandIntoVec F seed dst binder n = .error .fuel ↔
      yield F fuel (prims.turboShake (turboInput seed dst binder) 1) < n := by
  obtain ⟨B, hB1, hB2, -⟩ := Xof.Ok.turbo prims fuel F
  have hg := expandIntoVec_good (F := F) (binder := binder) hB1 hB2 hs hd n
  have h := fun v => expandIntoVec_ev (F := F) (prims := prims) (fuel := fuel) (n := n) (binder := binder) (v := v) hd
    (show seed.length < 2 ^ 8 by omega)
  rcases hg.cases with ⟨v, hv, -⟩ | ⟨e, he, rfl⟩
  · have := ev_exists.1 ⟨v, (h v).1 hv⟩
    rw [hv]
    simp only [reduceCtorEq, false_iff]
    omega
  · rw [he]
    simp only [true_iff]
    by_contra hc
    obtain ⟨v, hv⟩ := ev_exists.2 (Nat.le_of_not_lt hc)
    have := (h v).2 hv
    rw [he] at this
    cases this

theorem sampler_law {prims : Prims} {fuel n : ℕ} {seed dst binder : Bytes} (hs : seed.length = 32) (hd : dst.length < 2 ^ 16)
    {S : Set Bytes} (hfin : S.Finite) (hS : xofInput seed dst binder ∈ S) {N : ℕ} (hN : fuel * PyField.encSize F ≤ N) :
    (Set.ncard {T ∈ oracles prims S N |
      (XofTurboShake128 (withOracle prims T) fuel).expandIntoVec F seed dst binder n = .error .fuel} : ℚ) =
      shortfall F fuel n * Set.ncard (oracles prims S N) := by
  classical
  have : Fintype S := hfin.fintype
  have hcard : Set.ncard (oracles prims S N) = Fintype.card (S → Fin N → UInt8) := by
    have := ncard_glue prims S (N := N) fun _ => True
    simp only [and_true, Set.ofPred_mem_eq] at this
    rw [this, ← Nat.card_eq_fintype_card, ← Set.ncard_univ]
    congr 1
  rw [hcard, ncard_glue]
  simp only [expand_stuck hs hd]
  exact yield_law (m := xofInput seed dst binder) hS hN n

/-- A bound on the tail: some `k - n` of the chunks are all rejected -/
theorem shortfall_le {k n : ℕ} (h : n ≤ k) : shortfall F k (n + 1) ≤ k.choose n * rejectRate F ^ (k - n) := by
  have h0 := rejectRate_nonneg (F := F)
  have h1 := rejectRate_le_one (F := F)
  induction k generalizing n with
  | zero =>
    obtain rfl : n = 0 := by omega
    rw [shortfall_zero_left]
    simp
  | succ k ih =>
    rw [shortfall_succ]
    rcases Nat.eq_zero_or_pos n with rfl | hn
    · have := ih (Nat.zero_le k)
      rw [shortfall_zero_right]
      simp only [Nat.choose_zero_right, Nat.cast_one, one_mul, Nat.sub_zero, mul_zero, add_zero] at this ⊢
      rw [pow_succ']
      exact mul_le_mul_of_nonneg_left this h0
    · obtain ⟨n, rfl⟩ : ∃ j, n = j + 1 := ⟨n - 1, by omega⟩
      have h2 := ih (n := n) (by omega)
      have h3 : (1 - rejectRate F) * shortfall F k (n + 1) ≤ k.choose n * rejectRate F ^ (k - n) :=
        (mul_le_of_le_one_left (shortfall_nonneg _ _) (by linarith)).trans h2
      rw [Nat.choose_succ_succ, Nat.cast_add, add_mul, show k + 1 - (n + 1) = k - n by omega]
      rcases Nat.lt_or_ge n k with hk | hk
      · have h4 := mul_le_mul_of_nonneg_left (ih (n := n + 1) (by omega)) h0
        have h5 : rejectRate F * (k.choose (n + 1) * rejectRate F ^ (k - (n + 1))) =
            k.choose (n + 1) * rejectRate F ^ (k - n) := by
          rw [show k - n = (k - (n + 1)) + 1 by omega, pow_succ]
          ring
        linarith
      · obtain rfl : k = n := by omega
        have h6 := shortfall_le_one (F := F) k (k + 2)
        have h7 := shortfall_le_one (F := F) k (k + 1)
        simp only [Nat.choose_self, Nat.choose_succ_self, Nat.cast_zero, Nat.cast_one, Nat.sub_self, pow_zero, zero_mul,
          one_mul]
        nlinarith

theorem rejectRate_lt_one : rejectRate F < 1 := by
  unfold rejectRate
  have : (0 : ℚ) < PyField.modulus F / 2 ^ Nat.size (PyField.modulus F - 1) := by
    have : (0 : ℚ) < PyField.modulus F := by exact_mod_cast (Nat.zero_le _).trans_lt (PyField.toNat_lt (0 : F))
    positivity
  linarith

theorem shortfall_tendsto (n : ℕ) : Filter.Tendsto (fun k => (shortfall F k n : ℝ)) Filter.atTop (nhds 0) := by
  have h0 : (0 : ℝ) ≤ rejectRate F := by exact_mod_cast rejectRate_nonneg (F := F)
  have h1 : ((rejectRate F : ℚ) : ℝ) < 1 := by exact_mod_cast rejectRate_lt_one (F := F)
  induction n with
  | zero => simp [shortfall_zero_right]
  | succ n _ =>
    rw [← Filter.tendsto_add_atTop_iff_nat n]
    have hb : Filter.Tendsto (fun k : ℕ => ((k + n : ℕ) : ℝ) ^ n * (rejectRate F : ℝ) ^ k) Filter.atTop (nhds 0) := by
      have hr : |(rejectRate F : ℝ)| < 1 := by rw [abs_of_nonneg h0]; exact h1
      have t1 := (tendsto_pow_const_mul_const_pow_of_abs_lt_one n hr).const_mul (((n + 1) ^ n : ℕ) : ℝ)
      have t2 := (tendsto_pow_atTop_nhds_zero_of_abs_lt_one hr).const_mul ((n ^ n : ℕ) : ℝ)
      have t3 := t1.add t2
      rw [mul_zero, mul_zero, add_zero] at t3
      refine squeeze_zero (fun k => mul_nonneg (by positivity) (pow_nonneg h0 _)) (fun k => ?_) t3
      rw [← mul_assoc, ← add_mul]
      refine mul_le_mul_of_nonneg_right ?_ (pow_nonneg h0 _)
      have : (k + n) ^ n ≤ (n + 1) ^ n * k ^ n + n ^ n := by
        rcases Nat.eq_zero_or_pos k with rfl | hk
        · rw [Nat.zero_add]
          exact Nat.le_add_left _ _
        · rw [← Nat.mul_pow]
          exact (Nat.pow_le_pow_left (by nlinarith) n).trans (Nat.le_add_right _ _)
      exact_mod_cast this
    refine squeeze_zero (fun k => by exact_mod_cast shortfall_nonneg _ _) (fun k => ?_) hb
    have h := shortfall_le (F := F) (k := k + n) (n := n) (by omega)
    rw [Nat.add_sub_cancel] at h
    have h' : (shortfall F (k + n) (n + 1) : ℝ) ≤ (k + n).choose n * (rejectRate F : ℝ) ^ k := by exact_mod_cast h
    refine h'.trans (mul_le_mul_of_nonneg_right ?_ (pow_nonneg h0 _))
    exact_mod_cast Nat.choose_le_pow (k + n) n

end
end Vdaf
