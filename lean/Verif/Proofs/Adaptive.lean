import Mathlib.Data.Set.Card
import Mathlib.Data.Fintype.BigOperators
import Mathlib.Algebra.BigOperators.Ring.Finset
import Mathlib.Algebra.Order.BigOperators.Group.Finset
import Mathlib.Algebra.Order.Field.Rat
import Mathlib.Algebra.Order.Field.Basic
import Mathlib.Tactic.Linarith
import Mathlib.Tactic.Positivity
import Mathlib.Tactic.Ring

/-! Counting arguments for random functions that are sampled lazily. -/

namespace Vdaf
open Finset

section
variable {ι A : Type} [Fintype ι] [DecidableEq ι] [Fintype A]

/-- The function with another value at the selected place, if one is selected -/
def resample (sel : (ι → A) → Option ι) (O : ι → A) (y : A) : ι → A :=
  match sel O with
  | none => O
  | some i => Function.update O i y

/-- If the place selected does not depend on the value there, then resampling that value does not change the average. -/
theorem sum_resample (sel : (ι → A) → Option ι) (hs : ∀ O i y, sel O = some i → sel (Function.update O i y) = some i)
    (f : (ι → A) → ℚ) : (Fintype.card A : ℚ) * ∑ O, f O = ∑ O, ∑ y, f (resample sel O y) := by
  classical
  let φ : (ι → A) × A → (ι → A) × A := fun x => match sel x.1 with
    | none => x
    | some i => (Function.update x.1 i x.2, x.1 i)
  have hφ : Function.Involutive φ := by
    rintro ⟨O, y⟩
    cases h : sel O with
    | none => simp [φ, h]
    | some i => simp [φ, h, hs O i y h]
  have h1 : ∀ x : (ι → A) × A, (φ x).1 = resample sel x.1 x.2 := by
    rintro ⟨O, y⟩
    cases h : sel O with
    | none => simp [φ, h, resample]
    | some i => simp [φ, h, resample]
  rw [← Fintype.sum_prod_type' fun O y => f (resample sel O y)]
  calc (Fintype.card A : ℚ) * ∑ O, f O = ∑ O, ∑ _y : A, f O := by
        simp [mul_sum]
    _ = ∑ x : (ι → A) × A, f x.1 := (Fintype.sum_prod_type' fun O _ => f O).symm
    _ = ∑ x : (ι → A) × A, f (φ x).1 := (Equiv.sum_comp hφ.toPerm fun x => f x.1).symm
    _ = _ := by simp only [h1]

open Classical in
theorem ncard_sum {α : Type} [Fintype α] (E : Set α) : (E.ncard : ℚ) = ∑ x, if x ∈ E then 1 else 0 := by
  rw [Finset.sum_boole, Set.ncard_eq_toFinset_card']
  congr 2
  ext x
  simp

/-- The principle of deferred decisions.  A pair of places `a d`, `b d` is fixed by a choice `c` that does not depend on the
values there.  If, given the value at `a d`, the event has probability at most `w` over the value at `b d`, and the average
of `w` over the values at `a d` is at most `ε`, then the event has probability at most `ε`. -/
theorem deferred {D : Type} [Nonempty A] (c : (ι → A) → Option D) (a b : D → ι)
    (ha : ∀ O d x, c O = some d → c (Function.update O (a d) x) = some d)
    (hb : ∀ O d x, c O = some d → c (Function.update O (b d) x) = some d)
    (E : Set (ι → A)) (hE : ∀ O ∈ E, c O ≠ none) (w : D → A → ℚ) {ε : ℚ} (hε : 0 ≤ ε)
    (hw : ∀ O d, c O = some d →
      (Set.ncard {y | Function.update O (b d) y ∈ E} : ℚ) ≤ w d (O (a d)) * Fintype.card A)
    (hsum : ∀ d, (∃ O, c O = some d) → ∑ x, w d x ≤ ε * Fintype.card A) :
    (E.ncard : ℚ) ≤ ε * Fintype.card (ι → A) := by
  classical
  have hA : (0 : ℚ) < Fintype.card A := by exact_mod_cast Fintype.card_pos
  let W : (ι → A) → ℚ := fun O => match c O with
    | none => 0
    | some d => w d (O (a d))
  have h1 : (E.ncard : ℚ) ≤ ∑ O, W O := by
    refine le_of_mul_le_mul_left ?_ hA
    rw [ncard_sum, sum_resample (fun O => (c O).map b) (fun O i y h => by
      obtain ⟨d, h1, rfl⟩ := Option.map_eq_some_iff.1 h
      simp [hb O d y h1]), mul_sum]
    refine sum_le_sum fun O _ => ?_
    cases h : c O with
    | none =>
      have : O ∉ E := fun hO => hE O hO h
      simp [resample, h, this, W]
    | some d =>
      have h2 := hw O d h
      rw [ncard_sum] at h2
      simp only [Set.mem_ofPred_eq] at h2
      simp only [resample, h, Option.map_some, W]
      linarith
  have h2 : ∑ O, W O ≤ ε * Fintype.card (ι → A) := by
    refine le_of_mul_le_mul_left ?_ hA
    rw [sum_resample (fun O => (c O).map a) (fun O i y h => by
      obtain ⟨d, h1, rfl⟩ := Option.map_eq_some_iff.1 h
      simp [ha O d y h1])]
    have : ∀ O : ι → A, ∑ y, W (resample (fun O => (c O).map a) O y) ≤ ε * Fintype.card A := by
      intro O
      cases h : c O with
      | none => simp [resample, h, W]; positivity
      | some d =>
        refine le_trans (le_of_eq ?_) (hsum d ⟨O, h⟩)
        refine sum_congr rfl fun y _ => ?_
        simp [resample, h, W, ha O d y h]
    refine (sum_le_sum fun O _ => this O).trans (le_of_eq ?_)
    rw [sum_const, card_univ, nsmul_eq_mul]
    ring
  exact h1.trans h2

end
end Vdaf
