import Mathlib.Data.Fintype.BigOperators
import Mathlib.Data.Set.Card
import Mathlib.Data.Fin.Tuple.Basic
import Mathlib.Algebra.Order.BigOperators.Group.Finset

/-! Counting vectors: if in one coordinate at most `B` values are good whatever the other
coordinates are, then at most `B * |F|^(n-1)` vectors are good. -/

namespace Vdaf
open Finset

theorem ncard_le_of_fibre {F : Type} [Fintype F] {n : ℕ} (P : (Fin n → F) → Prop) (i : Fin n)
    (B : ℕ) (h : ∀ f : Fin n → F, ∃ s : Finset F, s.card ≤ B ∧
      ∀ x, P (Function.update f i x) → x ∈ s) :
    Set.ncard {f : Fin n → F | P f} ≤ B * Fintype.card F ^ (n - 1) := by
  classical
  obtain ⟨m, rfl⟩ : ∃ m, n = m + 1 := ⟨n - 1, by have := i.2; omega⟩
  rw [Set.ncard_eq_toFinset_card']
  refine (Finset.card_le_mul_card_image (f := fun f : Fin (m + 1) → F => i.removeNth f) _ B ?_).trans ?_
  · intro r hr
    obtain ⟨f₀, -, -⟩ := Finset.mem_image.1 hr
    obtain ⟨s, hs, hP⟩ := h (i.insertNth (f₀ i) r)
    refine (Finset.card_le_card_of_injOn (t := s) (fun f => f i) ?_ ?_).trans hs
    · intro f hf
      simp only [Finset.coe_filter, Set.mem_toFinset, Set.mem_ofPred_eq] at hf
      apply hP
      have : Function.update (i.insertNth (f₀ i) r) i (f i) = f := by
        rw [Fin.update_insertNth, ← hf.2]
        exact Fin.insertNth_self_removeNth i f
      rw [this]; exact hf.1
    · intro f hf f' hf' hff
      simp only [Finset.coe_filter, Set.mem_toFinset, Set.mem_ofPred_eq] at hf hf'
      rw [← Fin.insertNth_self_removeNth i f, ← Fin.insertNth_self_removeNth i f', hf.2, hf'.2]
      simp only at hff
      rw [hff]
  · apply Nat.mul_le_mul_left
    refine (Finset.card_le_univ _).trans ?_
    simp

end Vdaf
