import Verif.Proofs.FlpMain

/-! `vec_add` / `vec_sub` loops and additive secret sharing. -/

set_option linter.unusedSectionVars false

namespace Vdaf
open Finset

section
variable {F : Type} [PyField F]

theorem vecAdd_tab (n : ℕ) (f g : ℕ → F) :
    vecAdd (tab n f) (tab n g) = .ok (tab n fun j => f j + g j) := by
  unfold vecAdd
  rw [if_neg (by simp)]
  congr 1
  apply List.ext_getElem
  · simp
  · intro i h1 h2; simp [tab]

theorem vecSub_tab (n : ℕ) (f g : ℕ → F) :
    vecSub (tab n f) (tab n g) = .ok (tab n fun j => f j - g j) := by
  unfold vecSub
  rw [if_neg (by simp)]
  congr 1
  apply List.ext_getElem
  · simp
  · intro i h1 h2; simp [tab]

theorem eq_tab {n : ℕ} {v : List F} (h : v.length = n) : v = tab n (coef v) := by
  subst h; exact eq_tab_coef v

/-- Column sums of a list of vectors. -/
def colsum (vs : List (List F)) (j : ℕ) : F := (vs.map fun v => coef v j).sum

theorem vecAdd_fold {n : ℕ} (vs : List (List F)) (hv : ∀ v ∈ vs, v.length = n) (f : ℕ → F) :
    forFold vs (tab n f) (fun acc v => vecAdd acc v) = .ok (tab n fun j => f j + colsum vs j) := by
  induction vs generalizing f with
  | nil => simp [forFold, colsum]
  | cons v vs ih =>
    rw [forFold_cons, eq_tab (hv v (by simp)), vecAdd_tab]
    simp only [Except.ok_bind']
    rw [ih fun w hw => hv w (by simp [hw])]
    congr 1
    apply tab_congr
    intro j hj
    simp only [colsum, List.map_cons, List.sum_cons, coef_tab, if_pos hj]
    ring

theorem vecSub_fold {n : ℕ} (vs : List (List F)) (hv : ∀ v ∈ vs, v.length = n) (f : ℕ → F) :
    forFold vs (tab n f) (fun acc v => vecSub acc v) = .ok (tab n fun j => f j - colsum vs j) := by
  induction vs generalizing f with
  | nil => simp [forFold, colsum]
  | cons v vs ih =>
    rw [forFold_cons, eq_tab (hv v (by simp)), vecSub_tab]
    simp only [Except.ok_bind']
    rw [ih fun w hw => hv w (by simp [hw])]
    congr 1
    apply tab_congr
    intro j hj
    simp only [colsum, List.map_cons, List.sum_cons, coef_tab, if_pos hj]
    ring

theorem isSum_list (vs : List (List F)) (v : List F) :
    Spec.IsSum (fun i : Fin vs.length => vs[i]) v ↔
      (∀ w ∈ vs, w.length = v.length) ∧ ∀ j, coef v j = colsum vs j := by
  rw [isSum_iff]
  have h : ∀ j, ∑ i : Fin vs.length, coef vs[i] j = colsum vs j := by
    intro j
    unfold colsum
    rw [← Fin.sum_univ_fun_getElem vs fun v => coef v j]
    rfl
  simp only [h]
  constructor
  · rintro ⟨h1, h2⟩
    refine ⟨fun w hw => ?_, h2⟩
    obtain ⟨i, hi, rfl⟩ := List.getElem_of_mem hw
    exact h1 ⟨i, hi⟩
  · rintro ⟨h1, h2⟩
    exact ⟨fun i => h1 _ (List.getElem_mem _), h2⟩

theorem additiveSecretShare_eq {F : Type} [NttField F] {vec : List F} {rands : List (List F)}
    (hr : ∀ r ∈ rands, r.length = vec.length) :
    additiveSecretShare vec rands =
      .ok (rands ++ [tab vec.length fun j => coef vec j - colsum rands j]) := by
  unfold additiveSecretShare
  dsimp only
  have := vecSub_fold rands hr (coef vec)
  rw [← eq_tab_coef] at this
  rw [this]
  rfl

theorem colsum_append (a b : List (List F)) (j : ℕ) :
    colsum (a ++ b) j = colsum a j + colsum b j := by simp [colsum]

theorem colsum_singleton (v : List F) (j : ℕ) : colsum [v] j = coef v j := by simp [colsum]

theorem colsum_of_le {vs : List (List F)} {n : ℕ} (h : ∀ v ∈ vs, v.length = n) {j : ℕ} (hj : n ≤ j) :
    colsum vs j = 0 := by
  unfold colsum
  apply List.sum_eq_zero
  intro x hx
  obtain ⟨v, hv, rfl⟩ := List.mem_map.1 hx
  exact coef_of_le (by rw [h v hv]; exact hj)

theorem share_isSum {vec : List F} {rands : List (List F)}
    (hr : ∀ r ∈ rands, r.length = vec.length) :
    Spec.IsSum (fun i : Fin (rands ++ [tab vec.length fun j => coef vec j - colsum rands j]).length =>
      (rands ++ [tab vec.length fun j => coef vec j - colsum rands j])[i]) vec := by
  rw [isSum_list]
  constructor
  · intro w hw
    rcases List.mem_append.1 hw with hw | hw
    · exact hr w hw
    · rw [List.mem_singleton.1 hw]; simp
  · intro j
    rw [colsum_append, colsum_singleton, coef_tab]
    split
    · ring
    · next h => rw [coef_of_le (by omega), colsum_of_le hr (by omega)]; ring

/-- Accumulating vectors: the sum if all have the right length. -/
theorem vecAdd_foldl {n : ℕ} (vs : List (List F)) (f : ℕ → F) :
    forFold vs (tab n f) (fun acc v => vecAdd acc v) =
      if ∀ v ∈ vs, v.length = n then .ok (tab n fun j => f j + colsum vs j)
      else .error (.value "mismatched vector sizes") := by
  induction vs generalizing f with
  | nil => simp [colsum]
  | cons v vs ih =>
    rw [forFold_cons]
    by_cases hv : v.length = n
    · rw [eq_tab hv, vecAdd_tab]
      simp only [Except.ok_bind']
      rw [ih]
      by_cases hvs : ∀ w ∈ vs, w.length = n
      · rw [if_pos hvs, if_pos (by
          intro w hw
          rcases List.mem_cons.1 hw with rfl | hw
          · simp
          · exact hvs w hw)]
        congr 1
        apply tab_congr
        intro j hj
        simp only [colsum, List.map_cons, List.sum_cons, coef_tab, if_pos hj]
        ring
      · rw [if_neg hvs, if_neg fun h => hvs fun w hw => h w (by simp [hw])]
    · rw [if_neg fun h => hv (h v (by simp))]
      have : vecAdd (tab n f) v = .error (.value "mismatched vector sizes") := by
        unfold vecAdd
        rw [if_pos (by simpa using Ne.symm hv)]
      rw [this]; rfl

theorem colsum_perm {l l' : List (List F)} (h : l.Perm l') (j : ℕ) : colsum l j = colsum l' j := by
  unfold colsum
  exact (h.map _).sum_eq

end
end Vdaf
