import Verif.Spec.Poplar1
import Verif.Spec.Vdaf
import Verif.Proofs.Hoare
import Mathlib.Data.List.Chain

/-! The validity of aggregation parameters of Poplar1. -/

namespace Vdaf

theorem lexLt_cons {a : Bool} {p q : List Bool} : Spec.LexLt (a :: p) (a :: q) ↔ Spec.LexLt p q := by
  unfold Spec.LexLt
  constructor
  · rintro (⟨t, ht, h⟩ | ⟨c, s, t, h1, h2⟩)
    · exact .inl ⟨t, ht, by simpa using h⟩
    · cases c with
      | nil =>
        simp only [List.nil_append, List.cons.injEq] at h1 h2
        rw [h1.1] at h2
        exact absurd h2.1 (by decide)
      | cons x c =>
        simp only [List.cons_append, List.cons.injEq] at h1 h2
        exact .inr ⟨c, s, t, h1.2, h2.2⟩
  · rintro (⟨t, ht, h⟩ | ⟨c, s, t, h1, h2⟩)
    · exact .inl ⟨t, ht, by simp [h]⟩
    · exact .inr ⟨a :: c, s, t, by simp [h1], by simp [h2]⟩

theorem tupleLt_iff (p q : List Bool) : tupleLt p q = true ↔ Spec.LexLt p q := by
  induction p generalizing q with
  | nil =>
    cases q with
    | nil =>
      simp only [tupleLt, Bool.false_eq_true, false_iff]
      rintro (⟨t, ht, h⟩ | ⟨c, s, t, h1, h2⟩)
      · exact ht (by simpa using h.symm)
      · simp at h1
    | cons b q =>
      simp only [tupleLt, true_iff]
      exact .inl ⟨b :: q, by simp, rfl⟩
  | cons a p ih =>
    cases q with
    | nil =>
      simp only [tupleLt, Bool.false_eq_true, false_iff]
      rintro (⟨t, ht, h⟩ | ⟨c, s, t, h1, h2⟩)
      · simp at h
      · simp at h2
    | cons b q =>
      unfold tupleLt
      by_cases h : a = b
      · subst h
        rw [if_pos rfl, ih, lexLt_cons]
      · rw [if_neg h]
        constructor
        · intro h
          have : a = false ∧ b = true := by simpa using h
          exact .inr ⟨[], p, q, by simp [this.1], by simp [this.2]⟩
        · rintro (⟨t, ht, h'⟩ | ⟨c, s, t, h1, h2⟩)
          · simp only [List.cons_append, List.cons.injEq] at h'
            exact absurd h'.1.symm h
          · cases c with
            | nil =>
              simp only [List.nil_append, List.cons.injEq] at h1 h2
              simp [h1.1, h2.1]
            | cons x c =>
              simp only [List.cons_append, List.cons.injEq] at h1 h2
              exact absurd (h1.1.trans h2.1.symm) h

theorem tupleLt_trans {p q r : List Bool} (h1 : tupleLt p q = true) (h2 : tupleLt q r = true) :
    tupleLt p r = true := by
  induction p generalizing q r with
  | nil =>
    cases r with
    | nil => cases q <;> simp [tupleLt] at h2
    | cons => rfl
  | cons a p ih =>
    cases q with
    | nil => simp [tupleLt] at h1
    | cons b q =>
      cases r with
      | nil => simp [tupleLt] at h2
      | cons c r =>
        unfold tupleLt at h1 h2 ⊢
        by_cases hab : a = b
        · subst hab
          rw [if_pos rfl] at h1
          by_cases hac : a = c
          · subst hac
            rw [if_pos rfl] at h2 ⊢
            exact ih h1 h2
          · rw [if_neg hac] at h2 ⊢
            exact h2
        · rw [if_neg hab] at h1
          have h1 : a = false ∧ b = true := by simpa using h1
          by_cases hbc : b = c
          · subst hbc
            rw [if_neg hab]
            simp [h1]
          · rw [if_neg hbc] at h2
            simp [h1] at h2

theorem lexLt_trans {p q r : List Bool} (h1 : Spec.LexLt p q) (h2 : Spec.LexLt q r) : Spec.LexLt p r :=
  (tupleLt_iff _ _).1 (tupleLt_trans ((tupleLt_iff _ _).2 h1) ((tupleLt_iff _ _).2 h2))

theorem lexLt_irrefl (p : List Bool) : ¬ Spec.LexLt p p := by
  intro h
  have := (tupleLt_iff p p).2 h
  induction p with
  | nil => simp [tupleLt] at this
  | cons a p ih =>
    unfold tupleLt at this
    rw [if_pos rfl] at this
    exact ih ((tupleLt_iff _ _).1 this) this

namespace Poplar1

theorem unsorted_eq (prefixes : List (List Bool)) :
    mapRes (fun i => do
      let p ← getI prefixes (i - 1)
      let q ← getI prefixes i
      return !tupleLt p q) (List.range' 1 (prefixes.length - 1)) =
    .ok ((List.range' 1 (prefixes.length - 1)).map fun i =>
      !tupleLt (prefixes[i - 1]?.getD []) (prefixes[i]?.getD [])) := by
  refine mapRes_pure _ _ _ fun i hi => ?_
  rw [List.mem_range'_1] at hi
  have h1 : i - 1 < prefixes.length := by omega
  have h2 : i < prefixes.length := by omega
  rw [getI_of_lt h1, getI_of_lt h2, List.getElem?_eq_getElem h1, List.getElem?_eq_getElem h2]
  rfl

theorem unsorted_any (prefixes : List (List Bool)) :
    ((List.range' 1 (prefixes.length - 1)).map fun i =>
      !tupleLt (prefixes[i - 1]?.getD []) (prefixes[i]?.getD [])).any id = false ↔
    prefixes.Pairwise Spec.LexLt := by
  have : IsTrans (List Bool) Spec.LexLt := ⟨fun _ _ _ => lexLt_trans⟩
  rw [← List.isChain_iff_pairwise, List.isChain_iff_getElem]
  simp only [List.any_map, List.any_eq_false, List.mem_range'_1, Function.comp_apply, id_eq,
    Bool.not_eq_true', Bool.not_eq_false]
  constructor
  · intro h i hi
    have := h (i + 1) (by omega)
    rw [Nat.add_sub_cancel, List.getElem?_eq_getElem (by omega), List.getElem?_eq_getElem hi] at this
    exact (tupleLt_iff _ _).1 this
  · intro h i hi
    have := h (i - 1) (by omega)
    rw [List.getElem?_eq_getElem (by omega), List.getElem?_eq_getElem (by omega)]
    rw [← tupleLt_iff] at this
    simpa [show i - 1 + 1 = i by omega] using this

theorem isValid_iff (level : ℕ) (prefixes : List (List Bool)) (previous : List Poplar1AggParam) :
    ∃ b, isValid (level, prefixes) previous = .ok b ∧ (b = true ↔ prefixes.Pairwise Spec.LexLt ∧
      ∀ last, previous.getLast? = some last →
        last.1 < level ∧ ∀ p ∈ prefixes, p.take (last.1 + 1) ∈ last.2) := by
  unfold isValid
  simp only
  rw [unsorted_eq]
  simp only [Except.ok_bind']
  cases hu : ((List.range' 1 (prefixes.length - 1)).map fun i =>
      !tupleLt (prefixes[i - 1]?.getD []) (prefixes[i]?.getD [])).any id with
  | true =>
    refine ⟨false, rfl, ?_⟩
    simp only [Bool.false_eq_true, false_iff, not_and]
    intro h
    rw [← unsorted_any, hu] at h
    cases h
  | false =>
    have hs := (unsorted_any prefixes).1 hu
    simp only [Bool.false_eq_true, if_false]
    cases hl : previous.getLast? with
    | none => exact ⟨true, rfl, by simp [hs]⟩
    | some last =>
      obtain ⟨lastLevel, lastPrefixes⟩ := last
      simp only
      by_cases hle : level ≤ lastLevel
      · rw [if_pos hle]
        refine ⟨false, rfl, ?_⟩
        simp only [Bool.false_eq_true, false_iff, not_and]
        intro _ h
        have := (h _ rfl).1
        dsimp only at this
        omega
      · rw [if_neg hle]
        refine ⟨_, rfl, ?_⟩
        simp only [List.all_eq_true, decide_eq_true_eq, Option.some.injEq, forall_eq']
        simp only [getAncestor, slice, List.drop_zero]
        exact ⟨fun h => ⟨hs, by omega, h⟩, fun h => h.2.2⟩

theorem isValid_true_iff {level : ℕ} {prefixes : List (List Bool)} {previous : List Poplar1AggParam} :
    isValid (level, prefixes) previous = .ok true ↔ prefixes.Pairwise Spec.LexLt ∧
      ∀ last, previous.getLast? = some last →
        last.1 < level ∧ ∀ p ∈ prefixes, p.take (last.1 + 1) ∈ last.2 := by
  obtain ⟨b, h1, h2⟩ := isValid_iff level prefixes previous
  rw [h1, Except.ok.injEq, h2]

theorem guarded_pairwise {hist : List Poplar1AggParam} (h : Spec.Guarded isValid hist) :
    hist.Pairwise (fun a b => a.1 < b.1 ∧ ∀ p ∈ b.2, p.take (a.1 + 1) ∈ a.2) := by
  induction h with
  | nil => exact .nil
  | snoc hg hv ih =>
    next hist q =>
    rw [List.pairwise_append]
    refine ⟨ih, List.pairwise_singleton _ _, ?_⟩
    intro a ha b hb
    rw [List.mem_singleton] at hb
    subst hb
    obtain ⟨level, prefixes⟩ := b
    obtain ⟨-, hv⟩ := isValid_true_iff.1 hv
    have hne : hist ≠ [] := List.ne_nil_of_mem ha
    obtain ⟨init, last, rfl⟩ := (List.eq_nil_or_concat' hist).resolve_left hne
    obtain ⟨h1, h2⟩ := hv last (by simp)
    rcases List.mem_append.1 ha with ha | ha
    · obtain ⟨-, -, h3⟩ := List.pairwise_append.1 ih
      obtain ⟨h4, h5⟩ := h3 a ha last (by simp)
      refine ⟨by omega, fun p hp => ?_⟩
      have := h5 _ (h2 p hp)
      rwa [List.take_take, Nat.min_eq_left (by omega)] at this
    · rw [List.mem_singleton] at ha
      subst ha
      exact ⟨h1, h2⟩

end Poplar1
end Vdaf
