import Verif.Model.TypeParams
import Verif.Proofs.Py

/-!
# Auxiliary results for C94
-/

namespace Vdaf

section
variable {α : Type}

theorem Doc.lookup_set (doc : Doc α) (key : String) (value : ℕ) (k : String) :
    (doc.set key value).lookup k = if k = key then some (.inl value) else doc.lookup k := by
  unfold Doc.set
  split
  · rename_i h
    induction doc with
    | nil => simp at h
    | cons e doc ih =>
      obtain ⟨a, v⟩ := e
      rw [List.map_cons]
      by_cases ha : a = key
      · subst ha
        simp only [if_true]
        by_cases hk : k = a
        · subst hk
          simp
        · rw [if_neg hk, List.lookup_cons, List.lookup_cons, beq_false_of_ne hk]
          simp only
          clear ih h
          induction doc with
          | nil => rfl
          | cons e doc ih =>
            obtain ⟨b, w⟩ := e
            rw [List.map_cons]
            by_cases hb : b = a
            · subst hb
              simp only [if_true, List.lookup_cons, beq_false_of_ne hk]
              exact ih
            · simp only [hb, if_false, List.lookup_cons, ih]
      · simp only [ha, if_false, List.lookup_cons]
        rw [ih (by simpa [ha] using h)]
        by_cases hk : k = a
        · subst hk
          simp [ha]
        · simp [beq_false_of_ne hk]
  · rename_i h
    induction doc with
    | nil =>
      by_cases hk : k = key
      · simp [List.lookup_cons, hk]
      · simp [List.lookup_cons, hk, beq_false_of_ne hk]
    | cons e doc ih =>
      obtain ⟨a, v⟩ := e
      simp only [List.any_cons, Bool.or_eq_true, not_or] at h
      rw [List.cons_append, List.lookup_cons, List.lookup_cons, ih h.2]
      have ha : a ≠ key := by simpa using h.1
      by_cases hk : k = a
      · subst hk
        simp [ha]
      · simp [beq_false_of_ne hk]

theorem Doc.int_of_lookup {doc : Doc α} {key : String} {n : ℕ} (h : doc.lookup key = some (.inl n)) :
    doc.int key = .ok n := by
  unfold Doc.int
  rw [h]

theorem Prio3.init_shares_eq {X : Xof} {F Meas Agg : Type} [NttField F] {id shares proofs : ℕ} {V : Valid F Meas Agg}
    {P : Prio3 X F Meas Agg} (h : Prio3.init id X shares V proofs = .ok P) : P.shares = shares := by
  unfold Prio3.init at h
  simp only [Except.bind_eq_ok] at h
  obtain ⟨_, -, _, -, h⟩ := h
  cases h
  rfl

end
end Vdaf
