import Verif.Proofs.BatchSplit

/-!
# Property C100: the results of Prio3 for the parts of a batch add up

Specification vocabulary (`Verif/Spec/Flp.lean`, `Verif/Spec/Prio3.lean`):

* `Spec.Instance P fn`: `P` is an instance of Prio3 for the function `fn`;
* `fn.totals R`: the numbers that a result consists of;
* `runVdaf V verify_key agg_param ctx batch`: sharding, verification and aggregation of the measurements of the batch, and
  `unshard`; an element of the batch is a measurement with a nonce and randomness.
-/

namespace Vdaf

section
variable {F : Type} [NttField F] {Meas Agg : Type}

/-- C100: if the measurements of a batch are those of two other batches, in any order, then each number in its result is
the sum, modulo the modulus of the field, of those in the results of the two.  The batches may be processed with other
verification keys, application contexts, nonces and randomness. -/
theorem C100_parts {prims : Prims} {fuel : ℕ} {P : Prio3 (XofTurboShake128 prims fuel) F Meas Agg}
    {fn : Spec.Fun Meas Agg} (I : Spec.Instance P fn) {key key₁ key₂ ctx ctx₁ ctx₂ : Bytes}
    (hkey : key.length = 32) (hkey₁ : key₁.length = 32) (hkey₂ : key₂.length = 32)
    (hctx : ctx.length + 8 < 2 ^ 16) (hctx₁ : ctx₁.length + 8 < 2 ^ 16) (hctx₂ : ctx₂.length + 8 < 2 ^ 16)
    {all part₁ part₂ : List (Meas × Bytes × Bytes)}
    (hall : ∀ m ∈ all, fn.valid m.1 ∧ m.2.1.length = 16 ∧ m.2.2.length = P.randSize)
    (hpart₁ : ∀ m ∈ part₁, fn.valid m.1 ∧ m.2.1.length = 16 ∧ m.2.2.length = P.randSize)
    (hpart₂ : ∀ m ∈ part₂, fn.valid m.1 ∧ m.2.1.length = 16 ∧ m.2.2.length = P.randSize)
    (hsplit : (all.map Prod.fst).Perm (part₁.map Prod.fst ++ part₂.map Prod.fst)) {R R₁ R₂ : Agg}
    (hR : runVdaf P.vdaf key () ctx all = .ok R) (hR₁ : runVdaf P.vdaf key₁ () ctx₁ part₁ = .ok R₁)
    (hR₂ : runVdaf P.vdaf key₂ () ctx₂ part₂ = .ok R₂) :
    fn.totals R =
      List.zipWith (fun a b => (a + b) % PyField.modulus F) (fn.totals R₁) (fn.totals R₂) := by
  rw [totals_of_run I hkey hctx hall hR, totals_of_run I hkey₁ hctx₁ hpart₁ hR₁, totals_of_run I hkey₂ hctx₂ hpart₂ hR₂, totals_split I.library hsplit,
    List.map_zipWith, List.zipWith_map]
  simp only [Nat.add_mod_mod, Nat.mod_add_mod]

/-- C100: without the modulus, if no number in the result of the whole batch reaches it. -/
theorem C100_parts_exact {prims : Prims} {fuel : ℕ} {P : Prio3 (XofTurboShake128 prims fuel) F Meas Agg}
    {fn : Spec.Fun Meas Agg} (I : Spec.Instance P fn) {key key₁ key₂ ctx ctx₁ ctx₂ : Bytes}
    (hkey : key.length = 32) (hkey₁ : key₁.length = 32) (hkey₂ : key₂.length = 32)
    (hctx : ctx.length + 8 < 2 ^ 16) (hctx₁ : ctx₁.length + 8 < 2 ^ 16) (hctx₂ : ctx₂.length + 8 < 2 ^ 16)
    {all part₁ part₂ : List (Meas × Bytes × Bytes)}
    (hall : ∀ m ∈ all, fn.valid m.1 ∧ m.2.1.length = 16 ∧ m.2.2.length = P.randSize)
    (hpart₁ : ∀ m ∈ part₁, fn.valid m.1 ∧ m.2.1.length = 16 ∧ m.2.2.length = P.randSize)
    (hpart₂ : ∀ m ∈ part₂, fn.valid m.1 ∧ m.2.1.length = 16 ∧ m.2.2.length = P.randSize)
    (hsplit : (all.map Prod.fst).Perm (part₁.map Prod.fst ++ part₂.map Prod.fst))
    (hfits : ∀ n ∈ fn.totals (fn.agg (all.map Prod.fst)), n < PyField.modulus F) {R R₁ R₂ : Agg}
    (hR : runVdaf P.vdaf key () ctx all = .ok R) (hR₁ : runVdaf P.vdaf key₁ () ctx₁ part₁ = .ok R₁)
    (hR₂ : runVdaf P.vdaf key₂ () ctx₂ part₂ = .ok R₂) :
    fn.totals R = List.zipWith (fun a b => a + b) (fn.totals R₁) (fn.totals R₂) := by
  have h := C100_parts I hkey hkey₁ hkey₂ hctx hctx₁ hctx₂ hall hpart₁ hpart₂ hsplit hR hR₁ hR₂
  have hall' := totals_split I.library hsplit
  rw [hall'] at hfits
  rw [h, totals_of_run I hkey₁ hctx₁ hpart₁ hR₁, totals_of_run I hkey₂ hctx₂ hpart₂ hR₂, List.zipWith_map, List.zipWith_map]
  refine List.ext_getElem (by simp) fun i h1 h2 => ?_
  simp only [List.getElem_zipWith, Nat.add_mod_mod, Nat.mod_add_mod]
  simp only [List.length_zipWith] at h1
  have hlt := hfits _ (List.getElem_mem (l := List.zipWith (fun a b => a + b) _ _) (n := i)
    (by simpa using h1))
  simp only [List.getElem_zipWith] at hlt
  rw [Nat.mod_eq_of_lt hlt, Nat.mod_eq_of_lt (by omega), Nat.mod_eq_of_lt (by omega)]

end

-- the hypotheses are met, and the results are not trivial: the parts have other keys, contexts and nonces
example : ([([1, 3] : List Int), [2, 0], [3, 3]] : List (List Int)).Perm ([[3, 3], [1, 3]] ++ [[2, 0]]) := by decide

example :
    let run := fun (key : UInt8) (ctx : Bytes) (ms : List (List Int)) => (do
      let P ← Prio3SumVecWithMultiproof toyPrims 80 2 Field64 2 2 3 2
      runVdaf P.vdaf (List.replicate 32 key) () ctx
        (ms.map fun m => (m, List.replicate 16 key, List.replicate 128 7)))
    run 1 [1, 2] [[1, 3], [2, 0], [3, 3]] = .ok [6, 6] ∧ run 2 [] [[3, 3], [1, 3]] = .ok [4, 6] ∧
      run 3 [5] [[2, 0]] = .ok [2, 0] := by decide +kernel

end Vdaf
