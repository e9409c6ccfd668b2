import Verif.Proofs.Encode

/-! # Lemmas for C95: the range check with two chunk lengths -/

namespace Vdaf

variable {F : Type} [NttField F]

theorem coef_bits {v : List F} (hb : Spec.Bits v) (k : ℕ) : coef v k = 0 ∨ coef v k = 1 := by
  by_cases hk : k < v.length
  · rw [coef_of_lt hk]
    exact hb _ (List.getElem_mem _)
  · left
    unfold coef
    simp [List.getD_eq_getElem?_getD, List.getElem?_eq_none (not_lt.1 hk)]

/-- A vector that passes the range check with many choices of the joint randomness consists of bits. -/
theorem bits_of_count {n cl : ℕ} (hcl : 1 ≤ cl) {meas : List F} (hm : meas.length = n)
    {S : Set (Fin (numCalls n cl) → F)}
    (hS : ∀ jr ∈ S, rangeSum cl (numCalls n cl) meas (List.ofFn jr) = 0)
    (h : cl * PyField.modulus F ^ (numCalls n cl - 1) < S.ncard) : Spec.Bits meas := by
  by_contra hb
  have h1 := rangeSum_count hcl hm (exists_not_bit hb)
  rw [card_eq] at h1
  have h2 : S.ncard ≤ _ := Set.ncard_le_ncard (fun jr hjr => hS jr hjr) (Set.toFinite _)
  exact absurd (h.trans_le (h2.trans h1)) (lt_irrefl _)

/-- If all choices of the joint randomness are in the set, there are many of them. -/
theorem count_of_all {n cl : ℕ} (hn : 1 ≤ n) (hcl : cl < PyField.modulus F) {S : Set (Fin n → F)}
    (hS : ∀ jr, jr ∈ S) : cl * PyField.modulus F ^ (n - 1) < S.ncard := by
  have : S = Set.univ := Set.eq_univ_of_forall hS
  rw [this, Set.ncard_univ, Nat.card_eq_fintype_card, Fintype.card_fun, Fintype.card_fin, card_eq]
  obtain ⟨m, rfl⟩ : ∃ m, n = m + 1 := ⟨n - 1, by omega⟩
  rw [Nat.add_sub_cancel, pow_succ, mul_comm]
  exact Nat.mul_lt_mul_of_pos_left hcl (Nat.pow_pos (lt_trans Nat.zero_lt_one (one_lt_modulus F)))

end Vdaf
