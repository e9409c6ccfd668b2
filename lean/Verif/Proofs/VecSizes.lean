import Verif.Model.Prio3
import Verif.Model.Poplar1
import Verif.Proofs.Py

/-! # Lemmas for C98: folds of `vec_add` -/

namespace Vdaf

section
variable {F : Type} [Add F] [Sub F] [Neg F]

theorem vecAdd_of_ne {a b : List F} (h : a.length ≠ b.length) :
    vecAdd a b = .error (.value "mismatched vector sizes") := if_pos h

theorem vecAdd_of_eq {a b : List F} (h : a.length = b.length) :
    vecAdd a b = .ok (List.zipWith (fun x y => x + y) a b) := if_neg (not_not.2 h)

theorem vecAdd_length {a b c : List F} (h : vecAdd a b = .ok c) : a.length = b.length ∧ c.length = a.length := by
  by_cases hl : a.length = b.length
  · rw [vecAdd_of_eq hl] at h
    cases h
    exact ⟨hl, by simp [hl]⟩
  · rw [vecAdd_of_ne hl] at h
    cases h

/-- Adding vectors to an accumulator succeeds exactly if all of them have its length. -/
theorem forFold_vecAdd (l : List (List F)) (init : List F) :
    (∃ v, forFold l init vecAdd = .ok v ∧ v.length = init.length ∧ ∀ s ∈ l, s.length = init.length) ∨
    (forFold l init vecAdd = .error (.value "mismatched vector sizes") ∧ ∃ s ∈ l, s.length ≠ init.length) := by
  induction l generalizing init with
  | nil => exact .inl ⟨init, rfl, rfl, by simp⟩
  | cons s l ih =>
    by_cases hs : init.length = s.length
    · unfold forFold
      rw [vecAdd_of_eq hs]
      have hl : (List.zipWith (fun x y => x + y) init s).length = init.length := by simp [hs]
      have := ih (List.zipWith (fun x y => x + y) init s)
      rw [hl] at this
      rcases this with ⟨v, h1, h2, h3⟩ | ⟨h1, s', h2, h3⟩
      · exact .inl ⟨v, h1, h2, by simpa using ⟨hs.symm, h3⟩⟩
      · exact .inr ⟨h1, s', by simp [h2], h3⟩
    · right
      unfold forFold
      rw [vecAdd_of_ne hs]
      exact ⟨rfl, s, by simp, fun h => hs h.symm⟩

end

theorem vecAddF_of_ne {a b : FieldVec} (h : a.2.length ≠ b.2.length) :
    vecAddF a b = .error (.value "mismatched vector sizes") := by
  unfold vecAddF
  rw [vecAdd_of_ne (by simpa [castVec] using h)]
  rfl

theorem vecAddF_of_eq {a b : FieldVec} (h : a.2.length = b.2.length) :
    ∃ c, vecAddF a b = .ok c ∧ c.1 = a.1 ∧ c.2.length = a.2.length := by
  unfold vecAddF
  rw [vecAdd_of_eq (by simpa [castVec] using h)]
  exact ⟨_, rfl, rfl, by simp [castVec, h]⟩

theorem forFold_vecAddF (l : List FieldVec) (init : FieldVec) :
    (∃ v, forFold l init vecAddF = .ok v ∧ v.2.length = init.2.length ∧ ∀ s ∈ l, s.2.length = init.2.length) ∨
    (forFold l init vecAddF = .error (.value "mismatched vector sizes") ∧ ∃ s ∈ l, s.2.length ≠ init.2.length) := by
  induction l generalizing init with
  | nil => exact .inl ⟨init, rfl, rfl, by simp⟩
  | cons s l ih =>
    by_cases hs : init.2.length = s.2.length
    · obtain ⟨c, hc, -, hl⟩ := vecAddF_of_eq hs
      unfold forFold
      rw [hc]
      have := ih c
      rw [hl] at this
      rcases this with ⟨v, h1, h2, h3⟩ | ⟨h1, s', h2, h3⟩
      · exact .inl ⟨v, h1, h2, by simpa using ⟨hs.symm, h3⟩⟩
      · exact .inr ⟨h1, s', by simp [h2], h3⟩
    · right
      unfold forFold
      rw [vecAddF_of_ne hs]
      exact ⟨rfl, s, by simp, fun h => hs h.symm⟩

end Vdaf
