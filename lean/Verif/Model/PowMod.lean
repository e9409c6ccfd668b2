import Mathlib.Data.Nat.ModEq
import Mathlib.Data.Nat.Log
import Mathlib.Tactic.Ring

/-!
# Modular exponentiation

`powMod b e m` models Python's three-argument `pow(b, e, m)` for `e ≥ 0`; `powMod_eq`
shows that it is `b ^ e % m`.
-/

namespace Vdaf

/-- Square-and-multiply; the first argument bounds the number of bits of `e`. -/
def powModGo : Nat → Nat → Nat → Nat → Nat
  | 0, _, _, m => 1 % m
  | fuel + 1, b, e, m =>
    if e = 0 then 1 % m
    else
      if e % 2 = 1 then b * powModGo fuel (b * b % m) (e / 2) m % m
      else powModGo fuel (b * b % m) (e / 2) m

/-- Python `pow(b, e, m)` -/
def powMod (b e m : Nat) : Nat := powModGo (Nat.log2 e + 1) b e m

theorem powModGo_eq (fuel b e m : Nat) (h : e < 2 ^ fuel) :
    powModGo fuel b e m = b ^ e % m := by
  induction fuel generalizing b e with
  | zero =>
    have : e = 0 := by simpa using h
    subst this; simp [powModGo]
  | succ fuel ih =>
    unfold powModGo
    by_cases he : e = 0
    · subst he; simp
    · have hlt : e / 2 < 2 ^ fuel := by
        rw [Nat.div_lt_iff_lt_mul (by norm_num)]; rw [pow_succ] at h; exact h
      rw [ih _ _ hlt]
      have hd := Nat.div_add_mod e 2
      simp only [he, if_false]
      have hsq : (b * b % m) ^ (e / 2) % m = b ^ (2 * (e / 2)) % m := by
        rw [← Nat.pow_mod, pow_mul, pow_two]
      by_cases ho : e % 2 = 1
      · simp only [ho, if_true]
        rw [ho] at hd
        rw [hsq, Nat.mul_mod_mod]
        congr 1
        conv_rhs => rw [← hd, pow_succ]
        ring
      · simp only [ho, if_false]
        rw [hsq]
        have : e % 2 = 0 := by omega
        rw [this] at hd
        simp only [add_zero] at hd
        rw [hd]

theorem powMod_eq (b e m : Nat) : powMod b e m = b ^ e % m :=
  powModGo_eq _ _ _ _ Nat.lt_log2_self

end Vdaf
