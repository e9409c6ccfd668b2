import Verif.Model.Circuits
import Verif.Proofs.Flp

/-! Range-checked integers. -/

set_option linter.unusedSectionVars false

namespace Vdaf
open Finset

section
variable {F : Type} [NttField F]

/-- The weight of position `l` in the encoding of integers in `[0, max]`. -/
def rcw (max l : ℕ) : ℕ := if l < Nat.size max - 1 then 2 ^ l else max - (2 ^ (Nat.size max - 1) - 1)

theorem size_facts {max : ℕ} (h : 1 ≤ max) :
    1 ≤ Nat.size max ∧ 2 ^ (Nat.size max - 1) ≤ max ∧ max < 2 ^ Nat.size max ∧
      2 ^ Nat.size max = 2 * 2 ^ (Nat.size max - 1) := by
  have h1 : 1 ≤ Nat.size max := Nat.size_pos.2 (by omega)
  refine ⟨h1, ?_, Nat.lt_size_self _, ?_⟩
  · have := Nat.lt_size.1 (show Nat.size max - 1 < Nat.size max by omega)
    exact this
  · rw [← pow_succ']; congr 1; omega

theorem zipIdx_take_sum (w : ℕ → F) (l : List F) (n : ℕ) (hl : n ≤ l.length)
    (f : F → F × ℕ → Res F) (hf : ∀ acc b i, i < n → f acc (b, i) = .ok (acc + w i * b)) :
    forFold (l.take n).zipIdx (0 : F) f = .ok (∑ i ∈ range n, w i * coef l i) := by
  obtain ⟨b, hb, hP⟩ := forFold_inv (l.take n).zipIdx (0 : F) f
    (fun i b => b = ∑ k ∈ range i, w k * coef l k) (by simp) (by
      rintro i hi _ rfl
      simp only [List.length_zipIdx, List.length_take] at hi
      rw [List.getElem_zipIdx, hf _ _ _ (by omega)]
      refine ⟨_, rfl, ?_⟩
      rw [sum_range_succ, List.getElem_take, coef_of_lt (by omega)]
      simp)
  rw [hb, hP, show (l.take n).zipIdx.length = n by simp; omega]

theorem decodeRangeCheckedInt_eq {max : ℕ} (h1 : 1 ≤ max) (hm : max < PyField.modulus F)
    (enc : List F) (he : enc.length = Nat.size max) :
    decodeRangeCheckedInt enc max =
      .ok (∑ l ∈ range (Nat.size max), (rcw max l : F) * coef enc l) := by
  obtain ⟨hb, hlo, hhi, hdbl⟩ := size_facts h1
  have hpos : 1 ≤ 2 ^ (Nat.size max - 1) := Nat.one_le_two_pow
  unfold decodeRangeCheckedInt
  rw [if_neg (by omega)]
  simp only
  rw [zipIdx_take_sum (fun l => (rcw max l : F)) enc (Nat.size max - 1) (by omega)]
  · simp only [Except.ok_bind']
    have hw : ((max : Int) - (2 ^ (Nat.size max - 1) - 1)) = ((rcw max (Nat.size max - 1) : ℕ) : Int) := by
      rw [rcw, if_neg (by omega)]
      push_cast [Nat.cast_sub (show 2 ^ (Nat.size max - 1) - 1 ≤ max by omega), Nat.cast_sub hpos]
      ring
    rw [hw, ofInt_nat (by rw [rcw, if_neg (by omega)]; omega), getI_of_lt (by omega)]
    simp only [Except.ok_bind', Except.pure_eq']
    congr 1
    conv_rhs => rw [show Nat.size max = (Nat.size max - 1) + 1 by omega, sum_range_succ]
    rw [coef_of_lt (show Nat.size max - 1 < enc.length by omega)]
  · intro acc b i hi
    have h2 : 2 ^ i < PyField.modulus F :=
      lt_of_le_of_lt ((Nat.pow_le_pow_right (by omega) hi.le).trans hlo) hm
    have : ((1 : Int) <<< i) = ((2 ^ i : ℕ) : Int) := by
      rw [Int.shiftLeft_eq]; simp
    simp only [this]
    rw [ofInt_nat h2]
    simp only [Except.ok_bind', Except.pure_eq', rcw, if_pos hi]

/-- The bits of the encoding of `v`. -/
def rcbit (max v l : ℕ) : ℕ :=
  if l < Nat.size max - 1 then
    (if v ≤ 2 ^ (Nat.size max - 1) - 1 then v else v - (max - (2 ^ (Nat.size max - 1) - 1))) / 2 ^ l % 2
  else if v ≤ 2 ^ (Nat.size max - 1) - 1 then 0 else 1

theorem rcbit_le_one (max v l : ℕ) : rcbit max v l ≤ 1 := by
  unfold rcbit
  split
  · have := Nat.mod_lt ((if v ≤ 2 ^ (Nat.size max - 1) - 1 then v else v - (max - (2 ^ (Nat.size max - 1) - 1))) / 2 ^ l) (show 2 > 0 by omega)
    omega
  · split <;> omega

theorem encodeRangeCheckedInt_eq {max v : ℕ} (h1 : 1 ≤ max) (hv : v ≤ max) :
    encodeRangeCheckedInt F (v : Int) max =
      .ok (tab (Nat.size max) fun l => (rcbit max v l : F)) := by
  obtain ⟨hb, hlo, hhi, hdbl⟩ := size_facts h1
  have hpos : 1 ≤ 2 ^ (Nat.size max - 1) := Nat.one_le_two_pow
  have h2m := one_lt_modulus F
  unfold encodeRangeCheckedInt
  rw [raiseIf_of_not (by omega)]
  simp only [Except.ok_bind']
  rw [if_neg (by omega)]
  have hrest : ((2 : Int) ^ (Nat.size max - 1) - 1) = ((2 ^ (Nat.size max - 1) - 1 : ℕ) : Int) := by
    push_cast [Nat.cast_sub hpos]; ring
  rw [hrest]
  have key : ∀ r : ℕ, mapRes (fun l => ofInt F (((r : Int) >>> l) % 2)) (List.range (Nat.size max - 1)) =
      .ok (tab (Nat.size max - 1) fun l => ((r / 2 ^ l % 2 : ℕ) : F)) := by
    intro r
    apply mapRes_pure
    intro l _
    have : (((r : Int) >>> l) % 2) = ((r / 2 ^ l % 2 : ℕ) : Int) := by
      rw [Int.shiftRight_eq_div_pow]; push_cast; rfl
    rw [this, ofInt_nat]
    have := Nat.mod_lt (r / 2 ^ l) (show 2 > 0 by omega)
    omega
  have fin : ∀ (r : ℕ) (x : F) , (∀ l < Nat.size max - 1, rcbit max v l = r / 2 ^ l % 2) →
      (rcbit max v (Nat.size max - 1) : F) = x →
      (tab (Nat.size max - 1) fun l => ((r / 2 ^ l % 2 : ℕ) : F)) ++ [x] =
        tab (Nat.size max) fun l => (rcbit max v l : F) := by
    intro r x hr hx
    conv_rhs => rw [show Nat.size max = (Nat.size max - 1) + 1 by omega, tab_succ]
    congr 1
    · apply tab_congr
      intro l hl
      rw [hr l hl]
    · rw [hx]
  by_cases hvr : v ≤ 2 ^ (Nat.size max - 1) - 1
  · rw [if_pos (by exact_mod_cast hvr)]
    simp only
    rw [key]
    simp only [Except.ok_bind', Except.pure_eq']
    rw [fin v 0]
    · intro l hl; simp [rcbit, hl, hvr]
    · simp [rcbit, hvr]
  · rw [if_neg (by exact_mod_cast hvr)]
    have : ((v : Int) - ((max : Int) - ((2 ^ (Nat.size max - 1) - 1 : ℕ) : Int))) =
        ((v - (max - (2 ^ (Nat.size max - 1) - 1)) : ℕ) : Int) := by
      omega
    simp only [this]
    rw [key]
    simp only [Except.ok_bind', Except.pure_eq']
    rw [fin _ 1]
    · intro l hl; simp [rcbit, hl, hvr]
    · simp [rcbit, hvr]

theorem sum_bits (v n : ℕ) : ∑ l ∈ range n, 2 ^ l * (v / 2 ^ l % 2) = v % 2 ^ n := by
  induction n with
  | zero => simp [Nat.mod_one]
  | succ n ih => rw [sum_range_succ, ih, Nat.mod_pow_succ]

theorem sum_rcbit {max v : ℕ} (h1 : 1 ≤ max) (hv : v ≤ max) :
    ∑ l ∈ range (Nat.size max), rcw max l * rcbit max v l = v := by
  obtain ⟨hb, hlo, hhi, hdbl⟩ := size_facts h1
  have hpos : 1 ≤ 2 ^ (Nat.size max - 1) := Nat.one_le_two_pow
  conv_lhs => rw [show Nat.size max = (Nat.size max - 1) + 1 by omega, sum_range_succ]
  have : ∑ l ∈ range (Nat.size max - 1), rcw max l * rcbit max v l =
      (if v ≤ 2 ^ (Nat.size max - 1) - 1 then v else v - (max - (2 ^ (Nat.size max - 1) - 1))) %
        2 ^ (Nat.size max - 1) := by
    rw [← sum_bits]
    apply sum_congr rfl
    intro l hl
    have hl : l < Nat.size max - 1 := by simpa using hl
    simp [rcw, rcbit, hl]
  rw [this]
  simp only [rcw, rcbit, lt_irrefl, if_false]
  split
  · rw [Nat.mod_eq_of_lt (by omega)]; omega
  · rw [Nat.mod_eq_of_lt (by omega)]; omega

theorem sum_rcw {max : ℕ} (h1 : 1 ≤ max) : ∑ l ∈ range (Nat.size max), rcw max l = max := by
  obtain ⟨hb, hlo, hhi, hdbl⟩ := size_facts h1
  have hpos : 1 ≤ 2 ^ (Nat.size max - 1) := Nat.one_le_two_pow
  conv_lhs => rw [show Nat.size max = (Nat.size max - 1) + 1 by omega, sum_range_succ]
  have : ∑ l ∈ range (Nat.size max - 1), rcw max l = 2 ^ (Nat.size max - 1) - 1 := by
    have : ∀ n ≤ Nat.size max - 1, ∑ l ∈ range n, rcw max l = 2 ^ n - 1 := by
      intro n
      induction n with
      | zero => simp
      | succ n ih =>
        intro hn
        rw [sum_range_succ, ih (by omega), rcw, if_pos (by omega), pow_succ]
        have : 1 ≤ 2 ^ n := Nat.one_le_two_pow
        omega
    exact this _ le_rfl
  rw [this, rcw, if_neg (by omega)]
  omega

/-- A vector of zeros and ones decodes to an integer in `[0, max]`. -/
theorem decode_bits {max : ℕ} (h1 : 1 ≤ max) (hm : max < PyField.modulus F) (enc : List F)
    (he : enc.length = Nat.size max) (h01 : ∀ x ∈ enc, x = 0 ∨ x = 1) :
    ∃ v ≤ max, decodeRangeCheckedInt enc max = .ok (v : F) := by
  refine ⟨∑ l ∈ range (Nat.size max), rcw max l * (if coef enc l = 0 then 0 else 1), ?_, ?_⟩
  · calc _ ≤ ∑ l ∈ range (Nat.size max), rcw max l := by
          apply sum_le_sum
          intro l _
          split <;> simp
      _ = max := sum_rcw h1
  · rw [decodeRangeCheckedInt_eq h1 hm enc he]
    congr 1
    push_cast
    apply sum_congr rfl
    intro l hl
    have hl : l < enc.length := by rw [he]; simpa using hl
    rcases h01 _ (List.getElem_mem hl) with h | h
    · rw [coef_of_lt hl, h]; simp
    · rw [coef_of_lt hl, h]; simp

theorem decode_encode {max v : ℕ} (h1 : 1 ≤ max) (hm : max < PyField.modulus F) (hv : v ≤ max) :
    decodeRangeCheckedInt (tab (Nat.size max) fun l => (rcbit max v l : F)) max = .ok (v : F) := by
  rw [decodeRangeCheckedInt_eq h1 hm _ (by simp)]
  congr 1
  conv_rhs => rw [← sum_rcbit h1 hv]
  push_cast
  apply sum_congr rfl
  intro l hl
  rw [coef_tab, if_pos (by simpa using hl)]

/-- `decode_range_checked_int` is additive. -/
theorem decode_sum {ι : Type} [Fintype ι] {max : ℕ} (h1 : 1 ≤ max) (hm : max < PyField.modulus F)
    {es : ι → List F} {e : List F} (h : Spec.IsSum es e) (he : e.length = Nat.size max) :
    ∃ (ys : ι → F) (y : F), decodeRangeCheckedInt e max = .ok y ∧ (∀ i, decodeRangeCheckedInt (es i) max = .ok (ys i)) ∧
      y = ∑ i, ys i := by
  refine ⟨_, _, decodeRangeCheckedInt_eq h1 hm e he,
    fun i => decodeRangeCheckedInt_eq h1 hm (es i) (by rw [h.1 i, he]), ?_⟩
  rw [Finset.sum_comm]
  apply sum_congr rfl
  intro l _
  rw [(isSum_iff.1 h).2 l, mul_sum]

end
end Vdaf
