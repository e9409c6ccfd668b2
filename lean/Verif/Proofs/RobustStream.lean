import Verif.Proofs.Adaptive
import Verif.Proofs.PrivacyStream
import Verif.Proofs.Prio3Sound

/-! Counting the streams from which given field elements are expanded. -/

set_option linter.unusedSectionVars false

namespace Vdaf
open Finset

/-- There are finitely many bytes. -/
noncomputable abbrev bytesFintype : Fintype UInt8 := Fintype.ofFinite _

attribute [local instance] bytesFintype

section
variable {F : Type} [PyField F] {N fuel : ℕ}

/-- The stream with the given first bytes -/
def withHead (base : ℕ → UInt8) (y : Fin N → UInt8) : ℕ → UInt8 := fun i => if h : i < N then y ⟨i, h⟩ else base i

theorem withHead_head (base s : ℕ → UInt8) (h : ∀ i, N ≤ i → s i = base i) :
    withHead base (fun i : Fin N => s i) = s := by
  funext i
  unfold withHead
  split
  · rfl
  · exact (h i (by omega)).symm

theorem withHead_inj {base : ℕ → UInt8} {y y' : Fin N → UInt8} (h : withHead base y = withHead base y') : y = y' := by
  funext i
  have := congrFun h i
  simpa [withHead, i.2] using this

theorem ev_ncard_le (hN : fuel * PyField.encSize F ≤ N) (base : ℕ → UInt8) {n : ℕ} {v v' : List F}
    (hv' : v'.length = n) :
    Set.ncard {y : Fin N → UInt8 | Ev F fuel n (withHead base y) v} ≤
      Set.ncard {y : Fin N → UInt8 | Ev F fuel n (withHead base y) v'} := by
  have key : ∀ y : Fin N → UInt8, withHead base (fun i : Fin N => retarget fuel v v' (withHead base y) i) =
      retarget fuel v v' (withHead base y) := by
    intro y
    apply withHead_head
    intro i hi
    rw [retarget_beyond (by omega)]
    unfold withHead
    rw [dif_neg (by omega)]
  refine Set.ncard_le_ncard_of_injOn (fun y i => retarget fuel v v' (withHead base y) i) ?_ ?_ (Set.toFinite _)
  · intro y hy
    simp only [Set.mem_ofPred_eq] at hy ⊢
    rw [key]
    exact retarget_ev hv' hy
  · intro y hy z hz h
    simp only [Set.mem_ofPred_eq] at hy hz
    apply withHead_inj (base := base)
    rw [← retarget_back hv' hy, ← retarget_back hv' hz, ← key y, ← key z]
    simp only at h
    rw [h]

/-- All the pieces in one list -/
def flat {P k : ℕ} (q : Fin P → Fin k → F) : List F := (List.ofFn fun i => List.ofFn (q i)).flatten

theorem flat_length {P k : ℕ} (q : Fin P → Fin k → F) : (flat q).length = k * P := by
  unfold flat
  rw [List.length_flatten]
  simp only [List.map_ofFn, Function.comp_def, List.length_ofFn, List.ofFn_const, List.sum_replicate, smul_eq_mul]
  ring

theorem flat_blk {P k : ℕ} (q : Fin P → Fin k → F) (i : Fin P) : blk k (flat q) i = List.ofFn (q i) := by
  have h1 : flat q = (List.range P).flatMap fun j => if h : j < P then List.ofFn (q ⟨j, h⟩) else [] := by
    unfold flat
    rw [List.flatMap_def]
    congr 1
    apply List.ext_getElem (by simp)
    intro j h1 h2
    have hj : j < P := by simpa using h1
    simp [hj]
  rw [h1, blk_flatMap (fun j hj => by simp [hj]) i.2]
  simp

theorem flat_inj {P k : ℕ} {q q' : Fin P → Fin k → F} (h : flat q = flat q') : q = q' := by
  funext i
  have := flat_blk q i
  rw [h, flat_blk] at this
  exact (List.ofFn_injective this).symm

theorem flat_surj {P k : ℕ} {l : List F} (h : l.length = k * P) : ∃ q : Fin P → Fin k → F, l = flat q ∧
    ∀ i : Fin P, List.ofFn (q i) = blk k l i := by
  have hbl : ∀ i : Fin P, (blk k l i).length = k := fun i => blk_length' h i.2
  have hofn : ∀ i : Fin P, List.ofFn (fun j : Fin k => (blk k l i)[j]'(by rw [hbl]; exact j.2)) = blk k l i := by
    intro i
    apply List.ext_getElem (by simp [hbl])
    intro j h1 h2
    simp
  refine ⟨fun i j => (blk k l i)[j]'(by rw [hbl]; exact j.2), ?_, hofn⟩
  unfold flat
  simp only [hofn]
  conv_lhs => rw [← flatMap_blk h, List.flatMap_def]
  congr 1
  apply List.ext_getElem (by simp)
  intro i h1 h2
  simp

open Classical in
/-- The value of `g` at the pieces expanded from a stream (zero if the stream is too short) -/
noncomputable def valueAt (fuel : ℕ) {P k : ℕ} (g : (Fin P → Fin k → F) → ℚ) (s : ℕ → UInt8) : ℚ :=
  ∑ q, if Ev F fuel (k * P) s (flat q) then g q else 0

theorem valueAt_eq {P k : ℕ} (g : (Fin P → Fin k → F) → ℚ) {s : ℕ → UInt8} {q : Fin P → Fin k → F}
    (h : Ev F fuel (k * P) s (flat q)) : valueAt fuel g s = g q := by
  classical
  unfold valueAt
  rw [Finset.sum_eq_single q]
  · rw [if_pos h]
  · intro q' _ hq
    rw [if_neg]
    intro h'
    exact hq (flat_inj (h'.unique h))
  · simp

theorem valueAt_nonneg {P k : ℕ} {g : (Fin P → Fin k → F) → ℚ} (hg : ∀ q, 0 ≤ g q) (s : ℕ → UInt8) :
    0 ≤ valueAt fuel g s := by
  classical
  unfold valueAt
  refine sum_nonneg fun q _ => ?_
  split
  · exact hg q
  · rfl

theorem sum_valueAt (hN : fuel * PyField.encSize F ≤ N) (base : ℕ → UInt8) {P k : ℕ}
    {g : (Fin P → Fin k → F) → ℚ} (hg : ∀ q, 0 ≤ g q) :
    (∑ y : Fin N → UInt8, valueAt fuel g (withHead base y)) * Fintype.card (Fin P → Fin k → F) ≤
      (∑ q, g q) * Fintype.card (Fin N → UInt8) := by
  classical
  set K : ℕ := Set.ncard {y : Fin N → UInt8 | Ev F fuel (k * P) (withHead base y) (flat fun (_ : Fin P) (_ : Fin k) => (0 : F))} with hK
  have hc : ∀ q : Fin P → Fin k → F, (∑ y : Fin N → UInt8, if Ev F fuel (k * P) (withHead base y) (flat q) then (1 : ℚ) else 0) = K := by
    intro q
    have h1 := ncard_sum {y : Fin N → UInt8 | Ev F fuel (k * P) (withHead base y) (flat q)}
    simp only [Set.mem_ofPred_eq] at h1
    rw [← h1, hK]
    congr 1
    exact le_antisymm (ev_ncard_le hN base (flat_length _)) (ev_ncard_le hN base (flat_length _))
  have h1 : ∀ g : (Fin P → Fin k → F) → ℚ, ∑ y : Fin N → UInt8, valueAt fuel g (withHead base y) = K * ∑ q, g q := by
    intro g
    unfold valueAt
    rw [Finset.sum_comm, mul_sum]
    refine sum_congr rfl fun q _ => ?_
    rw [← hc q, sum_mul]
    refine sum_congr rfl fun y _ => ?_
    split <;> simp
  have h2 : (K : ℚ) * Fintype.card (Fin P → Fin k → F) ≤ Fintype.card (Fin N → UInt8) := by
    have h3 := h1 fun _ => 1
    rw [sum_const, card_univ, nsmul_eq_mul, mul_one] at h3
    rw [← h3]
    refine (sum_le_sum (g := fun _ => (1 : ℚ)) fun y _ => ?_).trans (by simp)
    by_cases h : ∃ q : Fin P → Fin k → F, Ev F fuel (k * P) (withHead base y) (flat q)
    · obtain ⟨q, hq⟩ := h
      rw [valueAt_eq _ hq]
    · push Not at h
      unfold valueAt
      simp [h]
  rw [h1, mul_right_comm, mul_comm (∑ q, g q)]
  exact mul_le_mul_of_nonneg_right h2 (sum_nonneg fun q _ => hg q)

/-- A set of streams, each of which expands to an element of a set, is no larger in proportion than that set. -/
theorem ncard_streams (hN : fuel * PyField.encSize F ≤ N) (base : ℕ → UInt8) {P k : ℕ}
    (B : Set (Fin P → Fin k → F)) (E : Set (Fin N → UInt8))
    (h : ∀ y ∈ E, ∃ q ∈ B, Ev F fuel (k * P) (withHead base y) (flat q)) :
    (E.ncard : ℚ) * Fintype.card (Fin P → Fin k → F) ≤ (B.ncard : ℚ) * Fintype.card (Fin N → UInt8) := by
  classical
  have h0 : ∀ q, (0 : ℚ) ≤ if q ∈ B then 1 else 0 := fun q => by split <;> norm_num
  rw [ncard_sum B]
  refine le_trans (mul_le_mul_of_nonneg_right ?_ (Nat.cast_nonneg _)) (sum_valueAt hN base h0)
  rw [ncard_sum E]
  refine sum_le_sum fun y _ => ?_
  split
  · next hy =>
    obtain ⟨q, hq, he⟩ := h y hy
    rw [valueAt_eq _ he, if_pos hq]
  · exact valueAt_nonneg h0 _

end
end Vdaf
