import Verif.Spec.Flp
import Mathlib.Algebra.BigOperators.Group.List.Basic
import Mathlib.Algebra.Order.BigOperators.Group.List

/-! # Lemmas for C97: sums over batches in which some of the measurements are unknown -/

namespace Vdaf

variable {Meas : Type}

/-- The measurements `ms` agree with the known ones, and all of them are valid. -/
abbrev Completes (valid : Meas → Prop) (origins : List (Option Meas)) (ms : List Meas) : Prop :=
  List.Forall₂ (fun origin m => valid m ∧ ∀ m', origin = some m' → m = m') origins ms

theorem Completes.valid_all {valid : Meas → Prop} {origins : List (Option Meas)} {ms : List Meas}
    (h : Completes valid origins ms) : ∀ m ∈ ms, valid m := by
  induction h with
  | nil => simp
  | cons h _ ih => simpa using ⟨h.1, ih⟩

theorem Completes.bounds {valid : Meas → Prop} {origins : List (Option Meas)} {ms : List Meas}
    (h : Completes valid origins ms) {f : Meas → ℕ} {B : ℕ} (hf : ∀ m, valid m → f m ≤ B) :
    ((origins.filterMap id).map f).sum ≤ (ms.map f).sum ∧
    (ms.map f).sum ≤ ((origins.filterMap id).map f).sum + origins.countP Option.isNone * B := by
  induction h with
  | nil => simp
  | @cons o m os ms h _ ih =>
    have hB := hf m h.1
    cases o with
    | none =>
      rw [show (none :: os).filterMap id = os.filterMap id from rfl]
      simp only [List.map_cons, List.sum_cons, List.countP_cons, Option.isNone_none, if_true, add_mul, one_mul]
      omega
    | some m' =>
      rw [h.2 m' rfl]
      rw [show (some m' :: os).filterMap id = m' :: os.filterMap id from rfl]
      simp only [List.map_cons, List.sum_cons, List.countP_cons, Option.isNone_some, Bool.false_eq_true, if_false,
        add_zero]
      omega

theorem Completes.le {valid : Meas → Prop} {origins : List (Option Meas)} {ms : List Meas}
    (h : Completes valid origins ms) {f : Meas → ℕ} {B : ℕ} (hf : ∀ m, valid m → f m ≤ B) :
    (ms.map f).sum ≤ origins.length * B := by
  induction h with
  | nil => simp
  | @cons o m os ms h _ ih =>
    have hB := hf m h.1
    simp only [List.map_cons, List.sum_cons, List.length_cons, add_mul, one_mul]
    omega

theorem countP_eq_sum (p : Meas → Bool) (ms : List Meas) :
    ms.countP p = (ms.map fun m => if p m then 1 else 0).sum := by
  induction ms with
  | nil => rfl
  | cons m ms ih => rw [List.countP_cons, ih, List.map_cons, List.sum_cons, add_comm]

theorem sum_swap (js : List ℕ) (f : ℕ → Meas → ℕ) (ms : List Meas) :
    (js.map fun j => (ms.map (f j)).sum).sum = (ms.map fun m => (js.map fun j => f j m).sum).sum := by
  induction ms with
  | nil => simp
  | cons m ms ih =>
    simp only [List.map_cons, List.sum_cons]
    rw [List.sum_map_add, ih]

theorem sum_indicator (n : ℕ) {m : Int} (h0 : 0 ≤ m) (h : m < n) :
    ((List.range n).map fun j : ℕ => if decide (m = (j : Int)) then 1 else 0).sum = 1 := by
  obtain ⟨k, rfl⟩ := Int.eq_ofNat_of_zero_le h0
  have hk : k < n := by exact_mod_cast h
  induction n with
  | zero => omega
  | succ n ih =>
    rw [List.range_succ, List.map_append, List.sum_append]
    by_cases hkn : k = n
    · subst hkn
      have : ((List.range k).map fun j : ℕ => if decide ((k : Int) = (j : Int)) then 1 else 0).sum = 0 := by
        apply List.sum_eq_zero
        intro x hx
        obtain ⟨j, hj, rfl⟩ := List.mem_map.1 hx
        have := List.mem_range.1 hj
        rw [if_neg (by simp; omega)]
      rw [this]
      simp
    · rw [ih (by omega) (by omega)]
      simp
      omega

theorem influence_sum_bits (m : List Bool) :
    ((List.range m.length).map fun j => if m.getD j false then 1 else 0).sum = m.count true := by
  induction m using List.reverseRecOn with
  | nil => rfl
  | append_singleton m b ih =>
    rw [List.length_append, List.length_singleton, List.range_succ, List.map_append, List.sum_append,
      List.count_append]
    congr 1
    · rw [← ih]
      congr 1
      refine List.map_congr_left fun j hj => ?_
      have := List.mem_range.1 hj
      rw [List.getD_eq_getElem?_getD, List.getD_eq_getElem?_getD, List.getElem?_append_left this]
    · cases b <;> simp

end Vdaf
