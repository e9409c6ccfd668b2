import Verif.Model.Field
import Verif.Proofs.Primes
import Mathlib.Data.ZMod.Basic
import Mathlib.FieldTheory.Finite.Basic
import Mathlib.Algebra.Field.ZMod

/-!
# Model of the concrete field classes of `poc/vdaf_poc/field.py`

`Fe p` is an instance of a Python field class with `MODULUS = p`: a natural number `val`
below `p`, with the operations written exactly as in Python.  The `Field` instance then
*proves* that these formulas satisfy the field axioms when `p` is prime.
-/

namespace Vdaf

/-- field.py:23-27: the attribute `val`, already reduced. -/
structure Fe (p : Nat) where
  val : Nat
  lt : val < p
deriving DecidableEq

/-- `p` is an odd prime (for `p = 2` the formula `pow(0, MODULUS - 2, MODULUS)` would not
map `0` to `0`). -/
class PrimeMod (p : Nat) : Prop where
  prime : p.Prime
  two_lt : 2 < p

instance {p : Nat} [h : PrimeMod p] : Fact p.Prime := ⟨h.prime⟩

namespace Fe
variable {p : Nat}

@[ext] theorem ext {a b : Fe p} (h : a.val = b.val) : a = b := by
  cases a; cases b; simp_all

instance : Repr (Fe p) := ⟨fun a _ => repr a.val⟩

section ops
variable [PrimeMod p]

theorem p_pos : 0 < p := (Fact.out : p.Prime).pos

/-- `cls(z % MODULUS)`; Python's `%` with positive modulus is `Int.emod`. -/
def ofIntMod (z : Int) : Fe p :=
  ⟨(z % (p : Int)).toNat, by
    have hp : (0 : Int) < p := by exact_mod_cast (p_pos (p := p))
    have h1 := Int.emod_nonneg z (ne_of_gt hp)
    have h2 := Int.emod_lt_of_pos z hp
    omega⟩

/-- `cls(n % MODULUS)` for a non-negative integer -/
def ofNatMod (n : Nat) : Fe p := ⟨n % p, Nat.mod_lt _ p_pos⟩

instance : Zero (Fe p) := ⟨ofNatMod 0⟩
instance : One (Fe p) := ⟨ofNatMod 1⟩
/-- field.py:76-77 `__add__` -/
instance : Add (Fe p) := ⟨fun a b => ofNatMod (a.val + b.val)⟩
/-- field.py:79-80 `__neg__` -/
instance : Neg (Fe p) := ⟨fun a => ofIntMod (-(a.val : Int))⟩
/-- field.py:82-83 `__mul__` -/
instance : Mul (Fe p) := ⟨fun a b => ofNatMod (a.val * b.val)⟩
/-- field.py:93-94 `__sub__` -/
instance : Sub (Fe p) := ⟨fun a b => ofIntMod ((a.val : Int) - (b.val : Int))⟩
/-- field.py:85-86 `inv` -/
instance : Inv (Fe p) := ⟨fun a => ofNatMod (powMod a.val (p - 2) p)⟩
/-- field.py:96-97 `__div__` -/
instance : Div (Fe p) := ⟨fun a b => a * b⁻¹⟩
/-- field.py:99-100 `__pow__` for a non-negative exponent -/
instance : Pow (Fe p) Nat := ⟨fun a n => ofNatMod (powMod a.val n p)⟩
/-- `cls(n)` reduced -/
instance : NatCast (Fe p) := ⟨ofNatMod⟩
/-- `cls(z)` reduced (field.py:23-27) -/
instance : IntCast (Fe p) := ⟨ofIntMod⟩

/-- The element of `ZMod p` represented by a Python field element. -/
def toZ (a : Fe p) : ZMod p := (a.val : ZMod p)

theorem toZ_inj : Function.Injective (toZ (p := p)) := by
  intro a b h
  have h' := congrArg ZMod.val h
  simp only [toZ, ZMod.val_natCast, Nat.mod_eq_of_lt a.lt, Nat.mod_eq_of_lt b.lt] at h'
  exact Fe.ext h'

theorem toZ_ofNatMod (n : Nat) : toZ (ofNatMod n : Fe p) = n := by
  simp [toZ, ofNatMod]

theorem toZ_ofIntMod (z : Int) : toZ (ofIntMod z : Fe p) = z := by
  have hp : (0 : Int) < p := by exact_mod_cast (p_pos (p := p))
  have h1 := Int.emod_nonneg z (ne_of_gt hp)
  have : ((z % (p : Int)).toNat : ZMod p) = ((z % (p : Int) : Int) : ZMod p) := by
    rw [← Int.cast_natCast, Int.toNat_of_nonneg h1]
  simp only [toZ, ofIntMod]
  rw [this, ZMod.intCast_mod]

instance : SMul Nat (Fe p) := ⟨fun n a => (n : Fe p) * a⟩
instance : SMul Int (Fe p) := ⟨fun n a => (n : Fe p) * a⟩
instance : Pow (Fe p) Int := ⟨fun a z =>
  match z with
  | .ofNat n => a ^ n
  | .negSucc n => (a ^ (n + 1))⁻¹⟩
instance : NNRatCast (Fe p) := ⟨fun q => (q.num : Fe p) * (q.den : Fe p)⁻¹⟩
instance : RatCast (Fe p) := ⟨fun q => (q.num : Fe p) * (q.den : Fe p)⁻¹⟩
instance : SMul NNRat (Fe p) := ⟨fun q a => (q : Fe p) * a⟩
instance : SMul Rat (Fe p) := ⟨fun q a => (q : Fe p) * a⟩

theorem toZ_mul (a b : Fe p) : toZ (a * b) = toZ a * toZ b := by
  change toZ (ofNatMod _) = _
  rw [toZ_ofNatMod]; simp [toZ]

theorem toZ_pow (a : Fe p) (n : Nat) : toZ (a ^ n) = toZ a ^ n := by
  change toZ (ofNatMod _) = _
  rw [toZ_ofNatMod, powMod_eq, ZMod.natCast_mod]; simp [toZ]

theorem toZ_inv (a : Fe p) : toZ a⁻¹ = (toZ a)⁻¹ := by
  have h2 : 2 < p := PrimeMod.two_lt
  change toZ (ofNatMod _) = _
  rw [toZ_ofNatMod, powMod_eq, ZMod.natCast_mod, Nat.cast_pow]
  change toZ a ^ (p - 2) = _
  by_cases h0 : toZ a = 0
  · rw [h0, inv_zero, zero_pow (by omega)]
  · have hf : toZ a ^ (p - 1) = 1 := ZMod.pow_card_sub_one_eq_one h0
    apply eq_inv_of_mul_eq_one_left
    rw [← pow_succ]
    have : p - 2 + 1 = p - 1 := by omega
    rw [this, hf]

theorem toZ_natCast (n : Nat) : toZ (n : Fe p) = n := toZ_ofNatMod n
theorem toZ_intCast (n : Int) : toZ (n : Fe p) = n := toZ_ofIntMod n
theorem toZ_zero : toZ (0 : Fe p) = 0 := by
  change toZ (ofNatMod 0) = 0; rw [toZ_ofNatMod]; simp
theorem toZ_one : toZ (1 : Fe p) = 1 := by
  change toZ (ofNatMod 1) = 1; rw [toZ_ofNatMod]; simp
theorem toZ_add (a b : Fe p) : toZ (a + b) = toZ a + toZ b := by
  change toZ (ofNatMod _) = _
  rw [toZ_ofNatMod]; simp [toZ]
theorem toZ_neg (a : Fe p) : toZ (-a) = -toZ a := by
  change toZ (ofIntMod _) = _
  rw [toZ_ofIntMod]; simp [toZ]
theorem toZ_sub (a b : Fe p) : toZ (a - b) = toZ a - toZ b := by
  change toZ (ofIntMod _) = _
  rw [toZ_ofIntMod]; simp [toZ]
theorem toZ_div (a b : Fe p) : toZ (a / b) = toZ a / toZ b := by
  change toZ (a * b⁻¹) = _
  rw [toZ_mul, toZ_inv, div_eq_mul_inv]
theorem toZ_nnrat (q : NNRat) : toZ (q : Fe p) = q := by
  change toZ ((q.num : Fe p) * (q.den : Fe p)⁻¹) = _
  rw [toZ_mul, toZ_inv, toZ_natCast, toZ_natCast, ← div_eq_mul_inv, ← NNRat.cast_def]
theorem toZ_rat (q : Rat) : toZ (q : Fe p) = q := by
  change toZ ((q.num : Fe p) * (q.den : Fe p)⁻¹) = _
  rw [toZ_mul, toZ_inv, toZ_intCast, toZ_natCast, ← div_eq_mul_inv, ← Rat.cast_def]
theorem toZ_zpow (a : Fe p) (z : Int) : toZ (a ^ z) = toZ a ^ z := by
  cases z with
  | ofNat n => change toZ (a ^ n) = _; rw [toZ_pow]; simp
  | negSucc n => change toZ (a ^ (n + 1))⁻¹ = _; rw [toZ_inv, toZ_pow, zpow_negSucc]

/-- The Python formulas satisfy the field axioms. -/
instance : Field (Fe p) :=
  toZ_inj.field toZ toZ_zero toZ_one toZ_add toZ_mul toZ_neg toZ_sub toZ_inv toZ_div
    (fun n a => by
      change toZ ((n : Fe p) * a) = _
      rw [toZ_mul, toZ_natCast, nsmul_eq_mul])
    (fun n a => by
      change toZ ((n : Fe p) * a) = _
      rw [toZ_mul, toZ_intCast, zsmul_eq_mul])
    (fun q a => by
      change toZ ((q : Fe p) * a) = _
      rw [toZ_mul, toZ_nnrat, NNRat.smul_def])
    (fun q a => by
      change toZ ((q : Fe p) * a) = _
      rw [toZ_mul, toZ_rat, Rat.smul_def])
    toZ_pow toZ_zpow toZ_natCast toZ_intCast toZ_nnrat toZ_rat

end ops
end Fe

/-- field.py:180-184 `Field64.MODULUS` -/
def p64 : Nat := 2 ^ 32 * 4294967295 + 1
/-- field.py:192-196 `Field96.MODULUS` -/
def p96 : Nat := 2 ^ 64 * 4294966555 + 1
/-- field.py:204-208 `Field128.MODULUS` -/
def p128 : Nat := 2 ^ 66 * 4611686018427387897 + 1
/-- field.py:216-219 `Field255.MODULUS` -/
def p255 : Nat := 2 ^ 255 - 19

instance : PrimeMod p64 := ⟨prime_18446744069414584321, by decide⟩
instance : PrimeMod p96 := ⟨prime_79228148845226978974766202881, by decide⟩
instance : PrimeMod p128 := ⟨prime_340282366920938462946865773367900766209, by decide⟩
instance : PrimeMod p255 :=
  ⟨prime_57896044618658097711785492504343953926634992332820282019728792003956564819949,
   by decide⟩

/-- The Python class with the given modulus and encoded size. -/
abbrev Fe.pyField (p : Nat) [PrimeMod p] (encSize : Nat) (h : p ≤ 256 ^ encSize) :
    PyField (Fe p) where
  decEq := inferInstance
  modulus := p
  encSize := encSize
  toNat x := x.val
  toNat_lt x := x.lt
  natCast_toNat x := Fe.ext (Nat.mod_eq_of_lt x.lt)
  toNat_natCast n hn := Nat.mod_eq_of_lt hn
  modulus_le := h
  encSize_pos := by
    rcases Nat.eq_zero_or_pos encSize with h0 | h0
    · subst h0
      have : 2 < p := PrimeMod.two_lt
      simp at h; omega
    · exact h0

/-- field.py:180-189 -/
abbrev Field64 := Fe p64
/-- field.py:192-201 -/
abbrev Field96 := Fe p96
/-- field.py:204-213 -/
abbrev Field128 := Fe p128
/-- field.py:216-220 -/
abbrev Field255 := Fe p255

theorem Fe.orderOf_of_pow {p : Nat} [PrimeMod p] (g : Fe p) (k : Nat)
    (h1 : (g ^ 2 ^ k).val ≠ 1) (h2 : (g ^ 2 ^ (k + 1)).val = 1) :
    orderOf g = 2 ^ (k + 1) := by
  have one_val : (1 : Fe p).val = 1 := by
    change 1 % p = 1
    exact Nat.mod_eq_of_lt (lt_trans one_lt_two PrimeMod.two_lt)
  apply orderOf_eq_prime_pow (p := 2)
  · intro h; exact h1 (by rw [h, one_val])
  · exact Fe.ext (by rw [h2, one_val])

/-- field.py:180-189 `Field64` -/
instance : NttField Field64 where
  toPyField := Fe.pyField p64 8 (by decide)
  gen := (Fe.ofNatMod 7 : Fe p64) ^ 4294967295
  genOrder := 2 ^ 32
  logOrder := 32
  genOrder_eq := rfl
  orderOf_gen := Fe.orderOf_of_pow _ 31 (by decide +kernel) (by decide +kernel)
  logOrder_pos := by decide

/-- field.py:192-201 `Field96` -/
instance : NttField Field96 where
  toPyField := Fe.pyField p96 12 (by decide)
  gen := (Fe.ofNatMod 3 : Fe p96) ^ 4294966555
  genOrder := 2 ^ 64
  logOrder := 64
  genOrder_eq := rfl
  orderOf_gen := Fe.orderOf_of_pow _ 63 (by decide +kernel) (by decide +kernel)
  logOrder_pos := by decide

/-- field.py:204-213 `Field128` -/
instance : NttField Field128 where
  toPyField := Fe.pyField p128 16 (by decide)
  gen := (Fe.ofNatMod 7 : Fe p128) ^ 4611686018427387897
  genOrder := 2 ^ 66
  logOrder := 66
  genOrder_eq := rfl
  orderOf_gen := Fe.orderOf_of_pow _ 65 (by decide +kernel) (by decide +kernel)
  logOrder_pos := by decide

/-- field.py:216-220 `Field255` -/
instance : PyField Field255 := Fe.pyField p255 32 (by decide)

end Vdaf
