import Verif.Model.Common
import Verif.Proofs.Py
import Mathlib.Data.Nat.Digits.Lemmas
import Mathlib.Tactic.Ring

/-! Lemmas about `Verif/Model/Common.lean`. -/

namespace Vdaf

/-! ### powers of two -/

theorem assertPowerOf2_pow (k : Nat) : assertPowerOf2 (2 ^ k) = .ok k := by
  unfold assertPowerOf2
  rw [if_neg (by positivity), Nat.log2_two_pow, if_pos rfl]

theorem assertPowerOf2_eq_ok {n k : Nat} : assertPowerOf2 n = .ok k ↔ n = 2 ^ k := by
  constructor
  · unfold assertPowerOf2
    split
    · simp
    · split
      · rename_i h; intro h'; cases h'; exact h
      · simp
  · rintro rfl; exact assertPowerOf2_pow k

theorem nextPowerOf2_of_pos {n : Nat} (h : 0 < n) :
    nextPowerOf2 n = .ok (2 ^ Nat.size (n - 1)) := by simp [nextPowerOf2, h]

/-- The value of `next_power_of_2` on positive arguments. -/
def np2 (n : Nat) : Nat := 2 ^ Nat.size (n - 1)

theorem le_np2 {n : Nat} : n ≤ np2 n := by
  have := Nat.lt_size_self (n - 1)
  unfold np2; omega

theorem np2_le {n k : Nat} (h : n ≤ 2 ^ k) : np2 n ≤ 2 ^ k := by
  unfold np2
  apply Nat.pow_le_pow_right (by norm_num)
  rw [Nat.size_le]
  have : 0 < 2 ^ k := by positivity
  omega

theorem np2_pow (k : Nat) : np2 (2 ^ k) = 2 ^ k :=
  le_antisymm (np2_le le_rfl) le_np2

/-! ### little/big endian -/

theorem natToLe_length (v len : Nat) : (natToLe v len).length = len := by
  induction len generalizing v with
  | zero => rfl
  | succ n ih => simp [natToLe, ih]

theorem natOfLe_lt (b : Bytes) : natOfLe b < 256 ^ b.length := by
  induction b with
  | nil => simp [natOfLe]
  | cons a b ih =>
    simp only [natOfLe, List.length_cons, pow_succ]
    have := a.toNat_lt
    omega

theorem natOfLe_natToLe (v len : Nat) : natOfLe (natToLe v len) = v % 256 ^ len := by
  induction len generalizing v with
  | zero => simp [natToLe, natOfLe, Nat.mod_one]
  | succ n ih =>
    simp only [natToLe, natOfLe, ih]
    rw [pow_succ', Nat.mod_mul]
    congr 1
    simp

theorem natToLe_natOfLe (b : Bytes) : natToLe (natOfLe b) b.length = b := by
  induction b with
  | nil => rfl
  | cons a b ih =>
    simp only [natOfLe, List.length_cons, natToLe]
    have ha := a.toNat_lt
    have h1 : (a.toNat + 256 * natOfLe b) % 256 = a.toNat := by omega
    have h2 : (a.toNat + 256 * natOfLe b) / 256 = natOfLe b := by omega
    rw [h1, h2, ih]
    simp

theorem two_pow_8_mul (len : Nat) : (2 : Nat) ^ (8 * len) = 256 ^ len := by
  rw [pow_mul]; norm_num

theorem toLeBytes_nat {v len : Nat} (h : v < 256 ^ len) :
    toLeBytes (v : Int) len = .ok (natToLe v len) := by
  unfold toLeBytes
  have h' : ((v : Int)) < 2 ^ (8 * len) := by
    rw [← two_pow_8_mul] at h; exact_mod_cast h
  rw [if_neg (by omega)]
  simp

theorem toBeBytes_nat {v len : Nat} (h : v < 256 ^ len) :
    toBeBytes (v : Int) len = .ok (natToLe v len).reverse := by
  unfold toBeBytes
  have h' : ((v : Int)) < 2 ^ (8 * len) := by
    rw [← two_pow_8_mul] at h; exact_mod_cast h
  rw [if_neg (by omega)]
  simp

theorem toLeBytes_eq_ok {z : Int} {len : Nat} {b : Bytes} :
    toLeBytes z len = .ok b ↔ ∃ v : Nat, z = v ∧ v < 256 ^ len ∧ b = natToLe v len := by
  constructor
  · intro h
    unfold toLeBytes at h
    split at h
    · cases h
    · rename_i hz
      push Not at hz
      refine ⟨z.toNat, by omega, ?_, by cases h; rfl⟩
      have : ((z.toNat : Nat) : Int) < ((2 ^ (8 * len) : Nat) : Int) := by
        push_cast; omega
      rw [← two_pow_8_mul]; exact_mod_cast this
  · rintro ⟨v, rfl, hv, rfl⟩
    exact toLeBytes_nat hv

theorem toBeBytes_eq_ok {z : Int} {len : Nat} {b : Bytes} :
    toBeBytes z len = .ok b ↔ ∃ v : Nat, z = v ∧ v < 256 ^ len ∧ b = (natToLe v len).reverse := by
  constructor
  · intro h
    unfold toBeBytes at h
    split at h
    · cases h
    · rename_i hz
      push Not at hz
      refine ⟨z.toNat, by omega, ?_, by cases h; rfl⟩
      have : ((z.toNat : Nat) : Int) < ((2 ^ (8 * len) : Nat) : Int) := by
        push_cast; omega
      rw [← two_pow_8_mul]; exact_mod_cast this
  · rintro ⟨v, rfl, hv, rfl⟩
    exact toBeBytes_nat hv

theorem toLeBytes_length {z : Int} {len : Nat} {b : Bytes} (h : toLeBytes z len = .ok b) :
    b.length = len := by
  obtain ⟨v, -, -, rfl⟩ := toLeBytes_eq_ok.1 h
  exact natToLe_length _ _

theorem toBeBytes_length {z : Int} {len : Nat} {b : Bytes} (h : toBeBytes z len = .ok b) :
    b.length = len := by
  obtain ⟨v, -, -, rfl⟩ := toBeBytes_eq_ok.1 h
  simp [natToLe_length]

theorem fromLe_toLe {z : Int} {len : Nat} {b : Bytes} (h : toLeBytes z len = .ok b) :
    (fromLeBytes b : Int) = z := by
  obtain ⟨v, rfl, hv, rfl⟩ := toLeBytes_eq_ok.1 h
  simp [fromLeBytes, natOfLe_natToLe, Nat.mod_eq_of_lt hv]

theorem fromBe_toBe {z : Int} {len : Nat} {b : Bytes} (h : toBeBytes z len = .ok b) :
    (fromBeBytes b : Int) = z := by
  obtain ⟨v, rfl, hv, rfl⟩ := toBeBytes_eq_ok.1 h
  simp [fromBeBytes, natOfLe_natToLe, Nat.mod_eq_of_lt hv]

theorem toLe_fromLe (b : Bytes) : toLeBytes (fromLeBytes b : Int) b.length = .ok b := by
  rw [fromLeBytes, toLeBytes_nat (natOfLe_lt b), natToLe_natOfLe]

theorem toBe_fromBe (b : Bytes) : toBeBytes (fromBeBytes b : Int) b.length = .ok b := by
  rw [fromBeBytes, ← List.length_reverse, toBeBytes_nat (natOfLe_lt _), natToLe_natOfLe,
    List.reverse_reverse]

theorem natToLe_inj {a b len : Nat} (ha : a < 256 ^ len) (hb : b < 256 ^ len)
    (h : natToLe a len = natToLe b len) : a = b := by
  have := congrArg natOfLe h
  rwa [natOfLe_natToLe, natOfLe_natToLe, Nat.mod_eq_of_lt ha, Nat.mod_eq_of_lt hb] at this

/-! ### front -/

theorem front_of_le {α : Type} {n : Nat} {l : List α} (h : n ≤ l.length) :
    front n l = .ok (l.take n, l.drop n) := by simp [front, h]

theorem front_append {α : Type} (a b : List α) : front a.length (a ++ b) = .ok (a, b) := by
  simp [front]

theorem front_append' {α : Type} {n : Nat} {a b : List α} (h : a.length = n) :
    front n (a ++ b) = .ok (a, b) := by subst h; exact front_append a b

theorem front_eq_ok {α : Type} {n : Nat} {l a b : List α} :
    front n l = .ok (a, b) ↔ l = a ++ b ∧ a.length = n := by
  constructor
  · intro h
    unfold front at h
    split at h
    · cases h; simp_all
    · cases h
  · rintro ⟨rfl, rfl⟩; exact front_append a b

/-! ### bitrev -/

/-- Bit reversal on `k` bits by structural recursion (least significant bit becomes most
significant). -/
def brev : Nat → Nat → Nat
  | 0, _ => 0
  | k + 1, n => (n % 2) * 2 ^ k + brev k (n / 2)

theorem brev_lt (k n : Nat) : brev k n < 2 ^ k := by
  induction k generalizing n with
  | zero => simp [brev]
  | succ k ih =>
    have := ih (n / 2)
    have h2 : n % 2 < 2 := Nat.mod_lt _ (by norm_num)
    simp only [brev, pow_succ]
    rcases Nat.lt_or_ge (n % 2) 1 with h | h
    · have : n % 2 = 0 := by omega
      rw [this]; omega
    · have : n % 2 = 1 := by omega
      rw [this]; omega

theorem parseBin_foldl (s : List Nat) (a : Nat) :
    s.foldl (fun acc d => acc * 2 + d) a = a * 2 ^ s.length + parseBin s := by
  induction s generalizing a with
  | nil => simp [parseBin]
  | cons d s ih =>
    simp only [List.foldl_cons, parseBin, List.length_cons]
    rw [ih, ih (0 * 2 + d)]
    simp only [pow_succ]
    ring

theorem parseBin_cons (d : Nat) (s : List Nat) :
    parseBin (d :: s) = d * 2 ^ s.length + parseBin s := by
  conv_lhs => rw [parseBin, List.foldl_cons, parseBin_foldl]
  simp

theorem brev_zero (k : Nat) : brev k 0 = 0 := by
  induction k with
  | zero => rfl
  | succ k ih => simp [brev, ih]

theorem parseBin_replicate (k : Nat) : parseBin (List.replicate k 0) = 0 := by
  induction k with
  | zero => rfl
  | succ k ih => rw [List.replicate_succ, parseBin_cons, ih]; simp

theorem parseBin_digits (k n : Nat) (h : n < 2 ^ k) :
    parseBin (Nat.digits 2 n ++ List.replicate (k - (Nat.digits 2 n).length) 0) = brev k n := by
  induction k generalizing n with
  | zero =>
    have : n = 0 := by simpa using h
    subst this; simp [parseBin, brev]
  | succ k ih =>
    by_cases hn : n = 0
    · subst hn
      rw [Nat.digits_zero, List.nil_append, parseBin_replicate, brev_zero]
    · have hlt : n / 2 < 2 ^ k := by
        rw [Nat.div_lt_iff_lt_mul (by norm_num)]; rw [pow_succ] at h; exact h
      have hd : Nat.digits 2 n = n % 2 :: Nat.digits 2 (n / 2) :=
        Nat.digits_def' (by norm_num) (Nat.pos_of_ne_zero hn)
      have hlen : (Nat.digits 2 (n / 2)).length ≤ k :=
        (Nat.digits_length_le_iff (by norm_num) _).2 hlt
      rw [hd, List.cons_append, parseBin_cons, List.length_cons]
      have : k + 1 - ((Nat.digits 2 (n / 2)).length + 1) = k - (Nat.digits 2 (n / 2)).length := by
        omega
      rw [this, ih _ hlt]
      simp only [List.length_append, List.length_replicate]
      have : (Nat.digits 2 (n / 2)).length + (k - (Nat.digits 2 (n / 2)).length) = k := by omega
      rw [this]; rfl

theorem bitrev_eq {k n : Nat} (h : n < 2 ^ k) : bitrev k n = .ok (brev k n) := by
  unfold bitrev
  simp only [h, if_true]
  congr 1
  by_cases hn : n = 0
  · subst hn
    simp only [binRev, if_true]
    rw [brev_zero]
    have : ∀ m, ([0] ++ List.replicate m 0 : List Nat) = List.replicate (m + 1) 0 := by
      intro m; rfl
    rw [this, parseBin_replicate]
  · simp only [binRev, hn, if_false]
    exact parseBin_digits k n h

/-- Splitting off the most significant input bit. -/
theorem brev_add_msb (k n b : Nat) (hn : n < 2 ^ k) :
    brev (k + 1) (b * 2 ^ k + n) = 2 * brev k n + b % 2 := by
  induction k generalizing n with
  | zero =>
    have : n = 0 := by simpa using hn
    subst this; simp [brev]
  | succ k ih =>
    have hlt : n / 2 < 2 ^ k := by
      rw [Nat.div_lt_iff_lt_mul (by norm_num)]; rw [pow_succ] at hn; exact hn
    have e1 : (b * 2 ^ (k + 1) + n) % 2 = n % 2 := by
      rw [pow_succ, ← mul_assoc]; omega
    have e2 : (b * 2 ^ (k + 1) + n) / 2 = b * 2 ^ k + n / 2 := by
      rw [pow_succ, ← mul_assoc]; omega
    rw [brev, e1, e2, ih _ hlt]
    conv_rhs => rw [brev]
    ring

theorem brev_brev (k n : Nat) (hn : n < 2 ^ k) : brev k (brev k n) = n := by
  induction k generalizing n with
  | zero => simp only [pow_zero, Nat.lt_one_iff] at hn; subst hn; rfl
  | succ k ih =>
    have hlt : n / 2 < 2 ^ k := by
      rw [Nat.div_lt_iff_lt_mul (by norm_num)]; rw [pow_succ] at hn; exact hn
    conv_lhs => rw [show brev (k + 1) n = (n % 2) * 2 ^ k + brev k (n / 2) from rfl]
    rw [brev_add_msb _ _ _ (brev_lt _ _), ih _ hlt]
    omega

theorem brev_testBit (k n i : Nat) (hi : i < k) :
    (brev k n).testBit i = n.testBit (k - 1 - i) := by
  induction k generalizing n with
  | zero => omega
  | succ k ih =>
    rw [brev]
    by_cases h : i = k
    · subst h
      rw [Nat.mul_comm, Nat.testBit_two_pow_mul_add _ (brev_lt _ _)]
      simp
    · have hik : i < k := by omega
      rw [Nat.mul_comm, Nat.testBit_two_pow_mul_add _ (brev_lt _ _), if_pos hik, ih _ hik]
      have : k + 1 - 1 - i = (k - 1 - i) + 1 := by omega
      rw [this, Nat.testBit_succ]

end Vdaf
