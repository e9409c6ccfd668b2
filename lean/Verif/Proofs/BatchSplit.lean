import Verif.Props.Prio3

/-! # Lemmas for C100 -/

namespace Vdaf

variable {F : Type} [NttField F] {Meas Agg : Type}

/-- The totals of a batch are the sums of the totals of its parts. -/
theorem totals_split {V : Valid F Meas Agg} {fn : Spec.Fun Meas Agg} (hV : Spec.Library F V fn)
    {all part₁ part₂ : List Meas} (h : all.Perm (part₁ ++ part₂)) :
    fn.totals (fn.agg all) =
      List.zipWith (fun a b => a + b) (fn.totals (fn.agg part₁)) (fn.totals (fn.agg part₂)) := by
  have hz : ∀ (n : ℕ) (f g k : ℕ → ℕ), (∀ j, k j = f j + g j) →
      (List.range n).map k = List.zipWith (fun a b => a + b) ((List.range n).map f) ((List.range n).map g) := by
    intro n f g k hk
    rw [List.zipWith_map, List.zipWith_self]
    exact List.map_congr_left fun j _ => hk j
  cases hV with
  | count => simp [Spec.countFun, (h.map Int.toNat).sum_eq]
  | sum _ _ => simp [Spec.sumFun, (h.map Int.toNat).sum_eq]
  | sumVec _ =>
    exact hz _ _ _ _ fun j => by
      rw [(h.map fun m => (m.getD j 0).toNat).sum_eq, List.map_append, List.sum_append]
  | histogram _ _ => exact hz _ _ _ _ fun j => by rw [h.countP_eq, List.countP_append]
  | multihot _ => exact hz _ _ _ _ fun j => by rw [h.countP_eq, List.countP_append]

/-- The result of a successful run, modulo the modulus of the field. -/
theorem totals_of_run {prims : Prims} {fuel : ℕ} {P : Prio3 (XofTurboShake128 prims fuel) F Meas Agg}
    {fn : Spec.Fun Meas Agg} (I : Spec.Instance P fn) {k c : Bytes} {b : List (Meas × Bytes × Bytes)} {r : Agg}
    (hk : k.length = 32) (hc : c.length + 8 < 2 ^ 16)
    (hb : ∀ m ∈ b, fn.valid m.1 ∧ m.2.1.length = 16 ∧ m.2.2.length = P.randSize)
    (hr : runVdaf P.vdaf k () c b = .ok r) :
    fn.totals r = (fn.totals (fn.agg (b.map Prod.fst))).map (· % PyField.modulus F) := by
  rcases C23_end_to_end I k c hk hc b hb with ⟨r', h1, h2, -⟩ | ⟨e, h1, -⟩
  · rw [h1] at hr
    cases hr
    exact h2
  · rw [h1] at hr
    cases hr

end Vdaf
