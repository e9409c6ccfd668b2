import Verif.Spec.LevelConsistency
import Verif.Proofs.LevelConsistency
import Verif.Props.Poplar1Main

/-!
# Property C96: the results of Poplar1 at different levels fit together

Specification vocabulary (`Verif/Spec/LevelConsistency.lean`):

* `Spec.Collected P bits batch level prefixes R`: `run_vdaf` with Poplar1 for strings of `bits` bits and the
  aggregation parameter `(level, prefixes)` returned `R` for the batch, which has one entry per prefix.
-/

namespace Vdaf

theorem Spec.Collected.result {P : Poplar1} {bits : ℕ} {batch : List (List Bool × Bytes × Bytes)} {level : ℕ}
    {prefixes : List (List Bool)} {R : List ℕ} (h : Spec.Collected P bits batch level prefixes R) :
    R = prefixes.map (Spec.countPrefix (batch.map Prod.fst)) := by
  obtain ⟨prims, fuel, key, ctx, hf, hk, hc, hrun⟩ := h.hrun
  rcases C33_exact prims hf h.hinit h.hlevel h.hlevel16 h.distinct h.lengths hk hc batch h.hbatch h.small with h1 | h1
  · rw [h1] at hrun
    cases hrun
  · rw [h1] at hrun
    cases hrun
    rfl

variable {P P' : Poplar1} {bits : ℕ} {batch : List (List Bool × Bytes × Bytes)} {level level' : ℕ}
  {prefixes prefixes' : List (List Bool)} {R R' : List ℕ}

theorem Spec.Collected.entry (h : Spec.Collected P bits batch level prefixes R) {i : ℕ} {p : List Bool}
    (hi : prefixes[i]? = some p) : R[i]? = some (Spec.countPrefix (batch.map Prod.fst) p) := by
  rw [h.result, List.getElem?_map, hi]
  rfl

/-- C96: the entry of a prefix is the sum of the entries of its two children at the next level. -/
theorem C96_children (h : Spec.Collected P bits batch level prefixes R)
    (h' : Spec.Collected P' bits batch (level + 1) prefixes' R') {i j k : ℕ} {p : List Bool}
    (hi : prefixes[i]? = some p) (hj : prefixes'[j]? = some (p ++ [false]))
    (hk : prefixes'[k]? = some (p ++ [true])) :
    ∃ a b, R'[j]? = some a ∧ R'[k]? = some b ∧ R[i]? = some (a + b) := by
  refine ⟨_, _, h'.entry hj, h'.entry hk, ?_⟩
  rw [h.entry hi, countPrefix_split]
  intro m hm
  obtain ⟨x, hx, rfl⟩ := List.mem_map.1 hm
  have h1 := h.lengths p (List.mem_of_getElem? hi)
  have h2 := (h.hbatch x hx).1
  have h3 := h'.hlevel
  omega

/-- C96: the entry of an extension of a prefix, at whatever level, is not larger than that of the prefix. -/
theorem C96_descendants (h : Spec.Collected P bits batch level prefixes R)
    (h' : Spec.Collected P' bits batch level' prefixes' R') {i j : ℕ} {p q : List Bool}
    (hi : prefixes[i]? = some p) (hj : prefixes'[j]? = some q) (hpq : p <+: q) :
    ∃ a b, R[i]? = some a ∧ R'[j]? = some b ∧ b ≤ a :=
  ⟨_, _, h.entry hi, h'.entry hj, countPrefix_mono _ hpq⟩

/-- C96: the entry of a prefix depends neither on the other prefixes nor on its position among them, nor on the keys
and the application contexts of the collections. -/
theorem C96_independent (h : Spec.Collected P bits batch level prefixes R)
    (h' : Spec.Collected P' bits batch level prefixes' R') {i j : ℕ} {p : List Bool}
    (hi : prefixes[i]? = some p) (hj : prefixes'[j]? = some p) : R[i]? = R'[j]? := by
  rw [h.entry hi, h'.entry hj]

/-- C96: the entries add up to the number of reports whose measurement begins with one of the prefixes. -/
theorem C96_sum (h : Spec.Collected P bits batch level prefixes R) :
    R.sum = batch.countP fun m => decide (m.1.take (level + 1) ∈ prefixes) := by
  rw [h.result, sum_countPrefix h.distinct h.lengths, List.countP_map]
  rfl

/-- C96: if all the strings of a level are candidates, the entries add up to the number of reports. -/
theorem C96_total (h : Spec.Collected P bits batch level prefixes R)
    (hall : ∀ p : List Bool, p.length = level + 1 → p ∈ prefixes) : R.sum = batch.length := by
  rw [C96_sum h, List.countP_eq_length]
  intro m hm
  have h1 := (h.hbatch m hm).1
  have h2 := h.hlevel
  exact decide_eq_true (hall _ (by rw [List.length_take]; omega))

-- two collections of one batch meet the hypotheses
def collectedBatch : List (List Bool × Bytes × Bytes) :=
  [([true, false], List.replicate 16 3, List.replicate 128 7),
   ([true, true], List.replicate 16 4, List.replicate 128 9), ([false, true], List.replicate 16 5, List.replicate 128 2)]

example : Spec.Collected ⟨⟨2, 2⟩⟩ 2 collectedBatch 0 [[false], [true]] [1, 2] ∧
    Spec.Collected ⟨⟨2, 2⟩⟩ 2 collectedBatch 1 [[false, false], [true, false], [true, true]] [0, 1, 1] := by
  constructor <;>
  · refine ⟨rfl, by decide, by decide, by decide, by decide, by decide +kernel, by decide +kernel,
      toyPrims, 40, List.replicate 32 1, [1], by decide, by decide, by decide, by decide +kernel⟩

end Vdaf
