import Verif.Spec.Poplar1

/-! # Lemmas for C96: counting the measurements with a prefix -/

namespace Vdaf

theorem isPrefixOf_append_bit (p m : List Bool) (b : Bool) :
    (p ++ [b]).isPrefixOf m = true ↔ p.isPrefixOf m = true ∧ m[p.length]? = some b := by
  induction p generalizing m with
  | nil =>
    cases m with
    | nil => simp [List.isPrefixOf]
    | cons y m => cases b <;> cases y <;> simp [List.isPrefixOf]
  | cons x p ih =>
    cases m with
    | nil => simp [List.isPrefixOf]
    | cons y m => simp [List.isPrefixOf, ih, and_assoc]

theorem isPrefixOf_iff_take {p m : List Bool} :
    p.isPrefixOf m = true ↔ p = m.take p.length := by
  rw [List.isPrefixOf_iff_prefix, List.prefix_iff_eq_take]

theorem countPrefix_nil (p : List Bool) : Spec.countPrefix [] p = 0 := rfl

theorem countPrefix_cons (m : List Bool) (ms : List (List Bool)) (p : List Bool) :
    Spec.countPrefix (m :: ms) p = (if p.isPrefixOf m then 1 else 0) + Spec.countPrefix ms p := by
  unfold Spec.countPrefix
  rw [List.filter_cons]
  split
  · rw [List.length_cons, add_comm]
  · rw [zero_add]

theorem countPrefix_split (ms : List (List Bool)) (p : List Bool) (h : ∀ m ∈ ms, p.length < m.length) :
    Spec.countPrefix ms p = Spec.countPrefix ms (p ++ [false]) + Spec.countPrefix ms (p ++ [true]) := by
  induction ms with
  | nil => rfl
  | cons m ms ih =>
    have hm := h m (by simp)
    rw [countPrefix_cons, countPrefix_cons, countPrefix_cons, ih fun m hm => h m (by simp [hm])]
    have key : (if p.isPrefixOf m then 1 else 0) = (if (p ++ [false]).isPrefixOf m then 1 else 0) +
        (if (p ++ [true]).isPrefixOf m then 1 else 0) := by
      simp only [isPrefixOf_append_bit, List.getElem?_eq_getElem hm, Option.some.injEq]
      cases p.isPrefixOf m <;> cases m[p.length] <;> simp
    omega

theorem countPrefix_mono (ms : List (List Bool)) {p q : List Bool} (h : p <+: q) :
    Spec.countPrefix ms q ≤ Spec.countPrefix ms p := by
  induction ms with
  | nil => exact le_rfl
  | cons m ms ih =>
    rw [countPrefix_cons, countPrefix_cons]
    by_cases hq : q.isPrefixOf m = true
    · have hp : p.isPrefixOf m = true :=
        List.isPrefixOf_iff_prefix.2 (h.trans (List.isPrefixOf_iff_prefix.1 hq))
      rw [if_pos hq, if_pos hp]
      omega
    · rw [if_neg hq]
      omega

theorem sum_isPrefixOf {ps : List (List Bool)} {n : ℕ} (hnd : ps.Nodup) (hl : ∀ p ∈ ps, p.length = n)
    (m : List Bool) :
    (ps.map fun p => if p.isPrefixOf m then 1 else 0).sum = if m.take n ∈ ps then 1 else 0 := by
  induction ps with
  | nil => rfl
  | cons p ps ih =>
    have hp := hl p (by simp)
    rw [List.map_cons, List.sum_cons, ih hnd.of_cons fun q hq => hl q (by simp [hq])]
    have hpm : p.isPrefixOf m = true ↔ m.take n = p := by
      rw [isPrefixOf_iff_take, hp, eq_comm]
    by_cases h : m.take n = p
    · have : p ∉ ps := (List.nodup_cons.1 hnd).1
      rw [if_pos (hpm.2 h), h, if_neg this, if_pos (by simp)]
    · rw [if_neg (mt hpm.1 h), zero_add]
      simp [h]

/-- The counts of distinct prefixes of one length add up to the number of measurements that have one of them. -/
theorem sum_countPrefix {ps : List (List Bool)} {n : ℕ} (hnd : ps.Nodup) (hl : ∀ p ∈ ps, p.length = n)
    (ms : List (List Bool)) :
    (ps.map (Spec.countPrefix ms)).sum = ms.countP fun m => decide (m.take n ∈ ps) := by
  induction ms with
  | nil =>
    rw [List.countP_nil]
    exact List.sum_eq_zero (by simp [countPrefix_nil])
  | cons m ms ih =>
    have h1 : ps.map (Spec.countPrefix (m :: ms)) =
        ps.map fun p => (if p.isPrefixOf m then 1 else 0) + Spec.countPrefix ms p :=
      List.map_congr_left fun p _ => countPrefix_cons m ms p
    rw [h1, List.sum_map_add, sum_isPrefixOf hnd hl m,
      ih, List.countP_cons, add_comm]
    simp

end Vdaf
