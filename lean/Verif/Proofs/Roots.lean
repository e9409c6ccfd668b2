import Verif.Proofs.Field
import Mathlib.FieldTheory.Finite.Basic

/-! Roots of unity of an NTT field. -/

namespace Vdaf
variable {F : Type} [NttField F]

theorem nthRoot_order {k : Nat} (h : k ≤ NttField.logOrder F) :
    orderOf (nthRoot F k) = 2 ^ k := by
  unfold nthRoot
  rw [Nat.shiftRight_eq_div_pow, NttField.genOrder_eq (F := F), Nat.pow_div h (by norm_num),
    orderOf_pow_of_dvd (by positivity), NttField.orderOf_gen, NttField.genOrder_eq (F := F),
    Nat.pow_div (Nat.sub_le _ _) (by norm_num), Nat.sub_sub_self h]
  rw [NttField.orderOf_gen, NttField.genOrder_eq (F := F)]
  exact Nat.pow_dvd_pow _ (Nat.sub_le _ _)

theorem nthRoot_pow_eq_one {k : Nat} (h : k ≤ NttField.logOrder F) :
    nthRoot F k ^ 2 ^ k = 1 := by
  rw [← nthRoot_order h]; exact pow_orderOf_eq_one _

theorem nthRoot_zero : nthRoot F 0 = 1 := by
  have := nthRoot_pow_eq_one (F := F) (Nat.zero_le _)
  simpa using this

theorem nthRoot_succ_sq {k : Nat} (h : k + 1 ≤ NttField.logOrder F) :
    nthRoot F (k + 1) ^ 2 = nthRoot F k := by
  unfold nthRoot
  rw [← pow_mul]
  congr 1
  rw [Nat.shiftRight_eq_div_pow, Nat.shiftRight_eq_div_pow, NttField.genOrder_eq (F := F),
    Nat.pow_div h (by norm_num), Nat.pow_div (by omega) (by norm_num), ← pow_succ]
  congr 1; omega

theorem nthRoot_half {k : Nat} (h : k + 1 ≤ NttField.logOrder F) :
    nthRoot F (k + 1) ^ 2 ^ k = -1 := by
  have hsq : (nthRoot F (k + 1) ^ 2 ^ k) ^ 2 = 1 := by
    rw [← pow_mul, ← pow_succ]; exact nthRoot_pow_eq_one h
  have hne : nthRoot F (k + 1) ^ 2 ^ k ≠ 1 := by
    intro h1
    have := orderOf_dvd_of_pow_eq_one h1
    rw [nthRoot_order h] at this
    have := Nat.le_of_dvd (by positivity) this
    have : 2 ^ k < 2 ^ (k + 1) := Nat.pow_lt_pow_right (by norm_num) (by omega)
    omega
  rcases sq_eq_one_iff.1 hsq with h1 | h1
  · exact absurd h1 hne
  · exact h1

theorem nthRoot_pow_inj {k i j : Nat} (h : k ≤ NttField.logOrder F) (hi : i < 2 ^ k)
    (hj : j < 2 ^ k) (hij : nthRoot F k ^ i = nthRoot F k ^ j) : i = j := by
  apply pow_injOn_Iio_orderOf (x := nthRoot F k) _ _ hij
  · rw [nthRoot_order h]; exact hi
  · rw [nthRoot_order h]; exact hj

theorem nthRoot_ne_zero {k : Nat} : nthRoot F k ≠ 0 := by
  unfold nthRoot
  apply pow_ne_zero
  intro h0
  have := NttField.orderOf_gen (F := F)
  have h1 := pow_orderOf_eq_one (NttField.gen : F)
  rw [this, h0, NttField.genOrder_eq (F := F), zero_pow (by positivity)] at h1
  exact zero_ne_one h1

theorem genOrder_dvd (F : Type) [NttField F] : NttField.genOrder F ∣ PyField.modulus F - 1 := by
  have h0 : (NttField.gen : F) ≠ 0 := by
    intro h0
    have := nthRoot_ne_zero (F := F) (k := 0)
    unfold nthRoot at this
    rw [h0, Nat.shiftRight_zero, NttField.genOrder_eq (F := F), zero_pow (by positivity)] at this
    exact this rfl
  rw [← NttField.orderOf_gen, ← card_eq]
  exact orderOf_dvd_of_pow_eq_one (FiniteField.pow_card_sub_one_eq_one _ h0)

theorem two_pow_lt_modulus {k : Nat} (h : k ≤ NttField.logOrder F) : 2 ^ k < PyField.modulus F := by
  have h1 := genOrder_dvd F
  have h2 := one_lt_modulus F
  have h3 := Nat.le_of_dvd (by omega) h1
  rw [NttField.genOrder_eq] at h3
  have := Nat.pow_le_pow_right (n := 2) (by norm_num) h
  omega

theorem two_pow_ne_zero' {k : Nat} (h : k ≤ NttField.logOrder F) : ((2 ^ k : Nat) : F) ≠ 0 := by
  intro h0
  have := natCast_inj_of_lt (F := F) (two_pow_lt_modulus h) (modulus_pos F) (by simpa using h0)
  have : 0 < 2 ^ k := by positivity
  omega

theorem nthRootPowers_eq (k : Nat) :
    nthRootPowers F (2 ^ k) = .ok ((List.range (2 ^ k)).map fun i => nthRoot F k ^ i) := by
  unfold nthRootPowers
  rw [assertPowerOf2_pow]; rfl

end Vdaf
