import Verif.Model.PowMod
import Mathlib.NumberTheory.LucasPrimality
import Mathlib.Tactic.NormNum.Prime
import Mathlib.Algebra.BigOperators.Associated

/-!
# Primality of the four moduli

Pratt certificates, checked by evaluating modular powers in the kernel.
-/

namespace Vdaf

theorem natCast_zmod_pow (p a e : Nat) :
    ((a : ZMod p)) ^ e = ((powMod a e p : Nat) : ZMod p) := by
  rw [powMod_eq, ZMod.natCast_mod, Nat.cast_pow]

/-- A Lucas certificate: `l` lists the prime factors of `p - 1` with multiplicity. -/
theorem prime_of_cert (p a : Nat) (l : List (Nat × Nat)) (hp : 1 < p)
    (hl : ∀ q ∈ l, q.1.Prime)
    (hprod : (l.map fun q => q.1 ^ q.2).prod = p - 1)
    (h1 : powMod a (p - 1) p = 1)
    (h2 : ∀ q ∈ l, powMod a ((p - 1) / q.1) p ≠ 1) : p.Prime := by
  apply lucas_primality p (a : ZMod p)
  · rw [natCast_zmod_pow, h1, Nat.cast_one]
  · intro q hq hdvd
    rw [← hprod] at hdvd
    obtain ⟨b, hb, hqb⟩ := (Prime.dvd_prod_iff hq.prime).1 hdvd
    obtain ⟨c, hc, rfl⟩ := List.mem_map.1 hb
    have hqc : q ∣ c.1 := hq.dvd_of_dvd_pow hqb
    have heq : q = c.1 := (Nat.prime_dvd_prime_iff_eq hq (hl c hc)).1 hqc
    rw [natCast_zmod_pow, heq]
    intro hone
    apply h2 c hc
    have hlt : powMod a ((p - 1) / c.1) p < p := by
      rw [powMod_eq]; exact Nat.mod_lt _ (by omega)
    have := congrArg ZMod.val (hone.trans Nat.cast_one.symm)
    rwa [ZMod.val_natCast, ZMod.val_natCast, Nat.mod_eq_of_lt hlt, Nat.mod_eq_of_lt hp] at this

theorem prime_18446744069414584321 : Nat.Prime 18446744069414584321 := by
  refine prime_of_cert _ 7 [(2, 32), (3, 1), (5, 1), (17, 1), (257, 1), (65537, 1)] (by norm_num) ?_ (by decide +kernel) (by decide +kernel) (by decide +kernel)
  simp only [List.mem_cons, List.not_mem_nil, or_false, forall_eq_or_imp, forall_eq]
  exact ⟨by norm_num, by norm_num, by norm_num, by norm_num, by norm_num, by norm_num⟩

theorem prime_79228148845226978974766202881 : Nat.Prime 79228148845226978974766202881 := by
  refine prime_of_cert _ 3 [(2, 64), (5, 1), (11, 1), (29, 1), (83, 1), (32443, 1)] (by norm_num) ?_ (by decide +kernel) (by decide +kernel) (by decide +kernel)
  simp only [List.mem_cons, List.not_mem_nil, or_false, forall_eq_or_imp, forall_eq]
  exact ⟨by norm_num, by norm_num, by norm_num, by norm_num, by norm_num, by norm_num⟩

theorem prime_125714447 : Nat.Prime 125714447 := by
  refine prime_of_cert _ 5 [(2, 1), (11, 1), (13, 1), (41, 1), (71, 1), (151, 1)] (by norm_num) ?_ (by decide +kernel) (by decide +kernel) (by decide +kernel)
  simp only [List.mem_cons, List.not_mem_nil, or_false, forall_eq_or_imp, forall_eq]
  exact ⟨by norm_num, by norm_num, by norm_num, by norm_num, by norm_num, by norm_num⟩

theorem prime_440340496364689 : Nat.Prime 440340496364689 := by
  refine prime_of_cert _ 11 [(2, 4), (3, 1), (72973, 1), (125714447, 1)] (by norm_num) ?_ (by decide +kernel) (by decide +kernel) (by decide +kernel)
  simp only [List.mem_cons, List.not_mem_nil, or_false, forall_eq_or_imp, forall_eq]
  exact ⟨by norm_num, by norm_num, by norm_num, prime_125714447⟩

theorem prime_340282366920938462946865773367900766209 : Nat.Prime 340282366920938462946865773367900766209 := by
  refine prime_of_cert _ 7 [(2, 66), (3, 1), (3491, 1), (440340496364689, 1)] (by norm_num) ?_ (by decide +kernel) (by decide +kernel) (by decide +kernel)
  simp only [List.mem_cons, List.not_mem_nil, or_false, forall_eq_or_imp, forall_eq]
  exact ⟨by norm_num, by norm_num, by norm_num, prime_440340496364689⟩

theorem prime_1923133 : Nat.Prime 1923133 := by
  refine prime_of_cert _ 2 [(2, 2), (3, 1), (43, 1), (3727, 1)] (by norm_num) ?_ (by decide +kernel) (by decide +kernel) (by decide +kernel)
  simp only [List.mem_cons, List.not_mem_nil, or_false, forall_eq_or_imp, forall_eq]
  exact ⟨by norm_num, by norm_num, by norm_num, by norm_num⟩

theorem prime_31757755568855353 : Nat.Prime 31757755568855353 := by
  refine prime_of_cert _ 10 [(2, 3), (3, 1), (31, 1), (107, 1), (223, 1), (4153, 1), (430751, 1)] (by norm_num) ?_ (by decide +kernel) (by decide +kernel) (by decide +kernel)
  simp only [List.mem_cons, List.not_mem_nil, or_false, forall_eq_or_imp, forall_eq]
  exact ⟨by norm_num, by norm_num, by norm_num, by norm_num, by norm_num, by norm_num, by norm_num⟩

theorem prime_2773320623 : Nat.Prime 2773320623 := by
  refine prime_of_cert _ 5 [(2, 1), (2437, 1), (569003, 1)] (by norm_num) ?_ (by decide +kernel) (by decide +kernel) (by decide +kernel)
  simp only [List.mem_cons, List.not_mem_nil, or_false, forall_eq_or_imp, forall_eq]
  exact ⟨by norm_num, by norm_num, by norm_num⟩

theorem prime_72106336199 : Nat.Prime 72106336199 := by
  refine prime_of_cert _ 7 [(2, 1), (13, 1), (2773320623, 1)] (by norm_num) ?_ (by decide +kernel) (by decide +kernel) (by decide +kernel)
  simp only [List.mem_cons, List.not_mem_nil, or_false, forall_eq_or_imp, forall_eq]
  exact ⟨by norm_num, by norm_num, prime_2773320623⟩

theorem prime_8574133 : Nat.Prime 8574133 := by
  refine prime_of_cert _ 2 [(2, 2), (3, 1), (7, 1), (103, 1), (991, 1)] (by norm_num) ?_ (by decide +kernel) (by decide +kernel) (by decide +kernel)
  simp only [List.mem_cons, List.not_mem_nil, or_false, forall_eq_or_imp, forall_eq]
  exact ⟨by norm_num, by norm_num, by norm_num, by norm_num, by norm_num⟩

theorem prime_1919519569386763 : Nat.Prime 1919519569386763 := by
  refine prime_of_cert _ 2 [(2, 1), (3, 1), (7, 1), (19, 1), (47, 2), (127, 1), (8574133, 1)] (by norm_num) ?_ (by decide +kernel) (by decide +kernel) (by decide +kernel)
  simp only [List.mem_cons, List.not_mem_nil, or_false, forall_eq_or_imp, forall_eq]
  exact ⟨by norm_num, by norm_num, by norm_num, by norm_num, by norm_num, by norm_num, prime_8574133⟩

theorem prime_75445702479781427272750846543864801 : Nat.Prime 75445702479781427272750846543864801 := by
  refine prime_of_cert _ 7 [(2, 5), (3, 2), (5, 2), (75707, 1), (72106336199, 1), (1919519569386763, 1)] (by norm_num) ?_ (by decide +kernel) (by decide +kernel) (by decide +kernel)
  simp only [List.mem_cons, List.not_mem_nil, or_false, forall_eq_or_imp, forall_eq]
  exact ⟨by norm_num, by norm_num, by norm_num, by norm_num, prime_72106336199, prime_1919519569386763⟩

theorem prime_74058212732561358302231226437062788676166966415465897661863160754340907 : Nat.Prime 74058212732561358302231226437062788676166966415465897661863160754340907 := by
  refine prime_of_cert _ 2 [(2, 1), (3, 1), (353, 1), (57467, 1), (132049, 1), (1923133, 1), (31757755568855353, 1), (75445702479781427272750846543864801, 1)] (by norm_num) ?_ (by decide +kernel) (by decide +kernel) (by decide +kernel)
  simp only [List.mem_cons, List.not_mem_nil, or_false, forall_eq_or_imp, forall_eq]
  exact ⟨by norm_num, by norm_num, by norm_num, by norm_num, by norm_num, prime_1923133, prime_31757755568855353, prime_75445702479781427272750846543864801⟩

theorem prime_57896044618658097711785492504343953926634992332820282019728792003956564819949 : Nat.Prime 57896044618658097711785492504343953926634992332820282019728792003956564819949 := by
  refine prime_of_cert _ 2 [(2, 2), (3, 1), (65147, 1), (74058212732561358302231226437062788676166966415465897661863160754340907, 1)] (by norm_num) ?_ (by decide +kernel) (by decide +kernel) (by decide +kernel)
  simp only [List.mem_cons, List.not_mem_nil, or_false, forall_eq_or_imp, forall_eq]
  exact ⟨by norm_num, by norm_num, by norm_num, prime_74058212732561358302231226437062788676166966415465897661863160754340907⟩

end Vdaf
