import Verif.Spec.Completeness
import Verif.Proofs.RobustStream
import Mathlib.Logic.Equiv.Fin.Basic

/-! The distribution of the number of field elements that are sampled from a random stream. -/

set_option linter.unusedSectionVars false

namespace Vdaf
open Finset
open Spec (bytesAt sample rejectRate shortfall)
attribute [local instance] bytesFintype

section
variable {F : Type} [PyField F]

theorem card_bytes : Fintype.card UInt8 = 256 := by
  rw [← Nat.card_eq_fintype_card]
  have e : UInt8 ≃ Fin 256 := ⟨fun x => x.toFin, fun x => ⟨⟨x⟩⟩, fun _ => rfl, fun _ => rfl⟩
  rw [Nat.card_congr e, Nat.card_eq_fintype_card, Fintype.card_fin]

theorem shortfall_zero_right (k : ℕ) : shortfall F k 0 = 0 := rfl

theorem shortfall_zero_left (n : ℕ) : shortfall F 0 (n + 1) = 1 := by
  unfold shortfall
  rw [sum_range_succ', sum_eq_zero (by intro i _; simp)]
  simp

theorem shortfall_succ (k n : ℕ) : shortfall F (k + 1) (n + 1) =
    rejectRate F * shortfall F k (n + 1) + (1 - rejectRate F) * shortfall F k n := by
  unfold shortfall
  rw [sum_range_succ', sum_range_succ' (n := n) (f := fun i => (k.choose i : ℚ) * (1 - rejectRate F) ^ i * rejectRate F ^ (k - i)),
    mul_add, mul_sum, mul_sum]
  rw [add_right_comm, ← sum_add_distrib]
  congr 1
  · refine sum_congr rfl fun i _ => ?_
    rw [Nat.choose_succ_succ, Nat.add_sub_add_right]
    push_cast
    rcases lt_or_ge i k with h | h
    · have : k - i = (k - (i + 1)) + 1 := by omega
      rw [this]
      ring
    · rw [Nat.choose_eq_zero_of_lt (show k < i + 1 by omega)]
      push_cast
      ring
  · simp [pow_succ]
    ring

theorem ncard_by_value {α : Type} [Finite α] {K : ℕ} (p : α → Prop) (q : F → α → Prop) (h1 : ∀ c, p c ↔ ∃ x, q x c)
    (h2 : ∀ c x y, q x c → q y c → x = y) (h3 : ∀ x, Set.ncard {c | q x c} = K) :
    Set.ncard {c | p c} = PyField.modulus F * K := by
  classical
  have : Fintype α := Fintype.ofFinite α
  have hf : ∀ p : α → Prop, Set.ncard {c | p c} = (Finset.univ.filter p).card := by
    intro p
    rw [← Set.ncard_coe_finset]
    congr 1
    ext c
    simp
  simp only [hf] at h3 ⊢
  have h4 : Finset.univ.filter p = (Finset.univ : Finset F).biUnion fun x => Finset.univ.filter (q x) := by
    ext c
    simp [h1]
  rw [h4, Finset.card_biUnion, sum_congr rfl fun x _ => h3 x]
  · rw [sum_const, Finset.card_univ, card_eq, smul_eq_mul]
  · intro x _ y _ hxy
    rw [Function.onFun, Finset.disjoint_left]
    intro c h5 h6
    simp only [Finset.mem_filter, Finset.mem_univ, true_and] at h5 h6
    exact hxy (h2 c x y h5 h6)

/-- The chunks that are accepted -/
theorem ncard_accepted : Set.ncard {c : Fin (PyField.encSize F) → UInt8 | (sample F (List.ofFn c)).isSome} =
    PyField.modulus F * 2 ^ (8 * PyField.encSize F - Nat.size (PyField.modulus F - 1)) := by
  classical
  have h1 : ∀ x : F, Set.ncard {c : Fin (PyField.encSize F) → UInt8 | sample F (List.ofFn c) = some x} =
      2 ^ (8 * PyField.encSize F - Nat.size (PyField.modulus F - 1)) := by
    intro x
    rw [← sample_card x, ← Set.InjOn.ncard_image (f := fun c : Fin (PyField.encSize F) → UInt8 => List.ofFn c)
      (fun _ _ _ _ h => List.ofFn_injective h)]
    congr 1
    ext c
    constructor
    · rintro ⟨c, h, rfl⟩
      exact ⟨by simp, h⟩
    · rintro ⟨h2, h3⟩
      refine ⟨fun i => c[i], ?_, ?_⟩
      · simp only [Set.mem_ofPred_eq]
        rw [← h3]
        congr 1
        exact List.ext_getElem (by simp [h2]) (by simp)
      · exact List.ext_getElem (by simp [h2]) (by simp)
  refine ncard_by_value _ (fun x c => sample F (List.ofFn c) = some x) (fun c => Option.isSome_iff_exists)
    (fun c x y h3 h4 => Option.some.inj (h3.symm.trans h4)) h1

/-- The fraction of the chunks that are accepted -/
theorem accepted_rate : (Set.ncard {c : Fin (PyField.encSize F) → UInt8 | (sample F (List.ofFn c)).isSome} : ℚ) =
    (1 - rejectRate F) * Fintype.card (Fin (PyField.encSize F) → UInt8) := by
  rw [ncard_accepted, Fintype.card_fun, card_bytes, Fintype.card_fin]
  unfold rejectRate
  have hk : Nat.size (PyField.modulus F - 1) ≤ 8 * PyField.encSize F := size_le_of_modulus F
  have : (256 : ℚ) ^ PyField.encSize F = 2 ^ Nat.size (PyField.modulus F - 1) *
      2 ^ (8 * PyField.encSize F - Nat.size (PyField.modulus F - 1)) := by
    rw [← pow_add, Nat.add_sub_cancel' hk, pow_mul]
    norm_num
  push_cast
  rw [this]
  field_simp
  ring

theorem rejected_rate : (Set.ncard {c : Fin (PyField.encSize F) → UInt8 | sample F (List.ofFn c) = none} : ℚ) =
    rejectRate F * Fintype.card (Fin (PyField.encSize F) → UInt8) := by
  have h : {c : Fin (PyField.encSize F) → UInt8 | sample F (List.ofFn c) = none} =
      {c : Fin (PyField.encSize F) → UInt8 | (sample F (List.ofFn c)).isSome}ᶜ := by
    ext c
    cases h : sample F (List.ofFn c) <;> simp [h]
  have h2 := Set.ncard_add_ncard_compl {c : Fin (PyField.encSize F) → UInt8 | (sample F (List.ofFn c)).isSome}
  rw [← h, Nat.card_eq_fintype_card] at h2
  have h3 := accepted_rate (F := F)
  have h2 : (Set.ncard {c : Fin (PyField.encSize F) → UInt8 | (sample F (List.ofFn c)).isSome} : ℚ) +
    Set.ncard {c : Fin (PyField.encSize F) → UInt8 | sample F (List.ofFn c) = none} =
    Fintype.card (Fin (PyField.encSize F) → UInt8) := by exact_mod_cast h2
  linarith

theorem chunksOf_succ (k : ℕ) (s : ℕ → UInt8) : chunksOf F (k + 1) s =
    bytesAt s 0 (PyField.encSize F) :: chunksOf F k fun i => s (i + PyField.encSize F) := by
  unfold chunksOf
  rw [List.range_succ_eq_map, List.map_cons, List.map_map, Nat.zero_mul]
  congr 1
  refine List.map_congr_left fun i _ => ?_
  simp only [Function.comp, bytesAt]
  refine List.map_congr_left fun j _ => ?_
  congr 1
  rw [Nat.succ_mul]
  omega

/-- The number of field elements in the first `k` chunks -/
def yield (F : Type) [PyField F] (k : ℕ) (s : ℕ → UInt8) : ℕ := ((chunksOf F k s).filterMap (sample F)).length

theorem yield_succ (k : ℕ) (s : ℕ → UInt8) : yield F (k + 1) s =
    (if (sample F (bytesAt s 0 (PyField.encSize F))).isSome then 1 else 0) + yield F k fun i => s (i + PyField.encSize F) := by
  unfold yield
  rw [chunksOf_succ]
  cases h : sample F (bytesAt s 0 (PyField.encSize F)) with
  | none => simp [h]
  | some x =>
    simp [h]
    omega

theorem withHead_append {e N : ℕ} (base : ℕ → UInt8) (c : Fin e → UInt8) (y : Fin N → UInt8) :
    bytesAt (withHead base (Fin.append c y)) 0 e = List.ofFn c ∧
      (fun i => withHead base (Fin.append c y) (i + e)) = withHead (fun i => base (i + e)) y := by
  constructor
  · apply List.ext_getElem (by simp [bytesAt])
    intro i h1 h2
    have hi : i < e := by simpa using h2
    simp only [bytesAt, List.getElem_map, List.getElem_range, List.getElem_ofFn, Nat.zero_add, withHead]
    rw [dif_pos (by omega)]
    exact Fin.append_left c y ⟨i, hi⟩
  · funext i
    unfold withHead
    by_cases h : i < N
    · rw [dif_pos h, dif_pos (by omega), ← Fin.append_right c y ⟨i, h⟩]
      congr 1
      ext
      simp [Nat.add_comm]
    · rw [dif_neg h, dif_neg (by omega)]

/-- The number of field elements in a random stream has the binomial distribution. -/
theorem ncard_yield : ∀ (k : ℕ) {N : ℕ} (n : ℕ) (_ : k * PyField.encSize F ≤ N) (base : ℕ → UInt8),
    (Set.ncard {y : Fin N → UInt8 | yield F k (withHead base y) < n} : ℚ) =
      shortfall F k n * Fintype.card (Fin N → UInt8)
  | k, N, 0, _, base => by simp [shortfall_zero_right]
  | 0, N, n + 1, _, base => by
    rw [shortfall_zero_left, one_mul, ← Nat.card_eq_fintype_card, ← Set.ncard_univ]
    congr 2
    ext y
    simp [yield, chunksOf]
  | k + 1, N, n + 1, hN, base => by
    classical
    obtain ⟨N, rfl⟩ : ∃ N', N = PyField.encSize F + N' := ⟨N - PyField.encSize F, by rw [Nat.succ_mul] at hN; omega⟩
    have hN' : k * PyField.encSize F ≤ N := by rw [Nat.succ_mul] at hN; omega
    have h1 := ncard_yield k (n + 1) hN' fun i => base (i + PyField.encSize F)
    have h2 := ncard_yield k n hN' fun i => base (i + PyField.encSize F)
    have h3 : {y : Fin (PyField.encSize F + N) → UInt8 | yield F (k + 1) (withHead base y) < n + 1} =
        Fin.appendEquiv (PyField.encSize F) N '' (
          ({c | (sample F (List.ofFn c)).isSome} ×ˢ
            {y : Fin N → UInt8 | yield F k (withHead (fun i => base (i + PyField.encSize F)) y) < n}) ∪
          ({c | sample F (List.ofFn c) = none} ×ˢ
            {y : Fin N → UInt8 | yield F k (withHead (fun i => base (i + PyField.encSize F)) y) < n + 1})) := by
      ext y
      obtain ⟨⟨c, y⟩, rfl⟩ := (Fin.appendEquiv (PyField.encSize F) N).surjective y
      rw [Function.Injective.mem_set_image (Equiv.injective _)]
      obtain ⟨e1, e2⟩ := withHead_append base c y
      simp only [Set.mem_ofPred_eq, Set.mem_union, Set.mem_prod]
      show yield F (k + 1) (withHead base (Fin.append c y)) < n + 1 ↔ _
      rw [yield_succ, e1, e2]
      cases h : sample F (List.ofFn c) with
      | none => simp
      | some x =>
        simp
        omega
    rw [h3, Set.ncard_image_of_injective _ (Equiv.injective _), Set.ncard_union_eq (by
      rw [Set.disjoint_left]
      rintro ⟨c, y⟩ ⟨h4, -⟩ ⟨h5, -⟩
      simp only [Set.mem_ofPred_eq] at h4 h5
      rw [h5] at h4
      cases h4) (Set.toFinite _) (Set.toFinite _), Set.ncard_prod, Set.ncard_prod]
    push_cast
    rw [h1, h2, accepted_rate, rejected_rate, shortfall_succ]
    simp only [Fintype.card_fun, Fintype.card_fin, pow_add]
    push_cast
    ring

theorem ev_exists {k n : ℕ} {s : ℕ → UInt8} : (∃ v, Ev F k n s v) ↔ n ≤ yield F k s := by
  unfold yield Ev
  constructor
  · rintro ⟨v, rfl, w, h⟩
    rw [h]
    simp
  · intro h
    exact ⟨((chunksOf F k s).filterMap (sample F)).take n, by simpa using h, _, (List.take_append_drop n _).symm⟩

theorem rejectRate_nonneg : 0 ≤ rejectRate F := by
  have h := rejected_rate (F := F)
  have hc : (0 : ℚ) < Fintype.card (Fin (PyField.encSize F) → UInt8) := by exact_mod_cast Fintype.card_pos
  have : (0 : ℚ) ≤ rejectRate F * Fintype.card (Fin (PyField.encSize F) → UInt8) := by rw [← h]; positivity
  nlinarith

theorem rejectRate_le_one : rejectRate F ≤ 1 := by
  unfold rejectRate
  have : (0 : ℚ) ≤ PyField.modulus F / 2 ^ Nat.size (PyField.modulus F - 1) := by positivity
  linarith

theorem shortfall_nonneg (k n : ℕ) : 0 ≤ shortfall F k n := by
  unfold shortfall
  have h1 := rejectRate_nonneg (F := F)
  have h2 := rejectRate_le_one (F := F)
  refine sum_nonneg fun i _ => ?_
  have : 0 ≤ 1 - rejectRate F := by linarith
  positivity

end
end Vdaf
