import Verif.Proofs.SampleTail
import Verif.Props.Privacy

/-!
# C87, C88: how likely rejection sampling is cut off, and how likely an honest execution of Prio3 fails

TurboSHAKE128 is replaced by a random oracle: `oracles prims S N` are the functions that differ from the given one only
in the first `N` bytes of the values at the inputs in the finite set `S`, all of them equally likely.
-/

namespace Vdaf
open Spec (rejectRate shortfall oracles xofInput withOracle honestInputs reportError failProbability)

/-! ## C87 -/

section
variable {F : Type} [PyField F] {prims : Prims} {fuel : ℕ}

/-- C87: the probability that `next_vec` needs more than `fuel` chunks for `n` elements is exactly the probability that
fewer than `n` of `fuel` independent chunks are accepted. -/
theorem C87_law {seed dst binder : Bytes} (hseed : seed.length = 32) (hdst : dst.length < 2 ^ 16) {S : Set Bytes}
    (hfin : S.Finite) (hS : xofInput seed dst binder ∈ S) {N : ℕ} (hN : fuel * PyField.encSize F ≤ N) (n : ℕ) :
    (Set.ncard {T ∈ oracles prims S N |
      (XofTurboShake128 (withOracle prims T) fuel).expandIntoVec F seed dst binder n = .error .fuel} : ℚ) =
      shortfall F fuel n * Set.ncard (oracles prims S N) ∧
    0 < Set.ncard (oracles prims S N) := by
  refine ⟨sampler_law hseed hdst hfin hS hN, ?_⟩
  have hf := oracles_finite (prims := prims) hfin N
  exact (Set.ncard_pos hf).2 ⟨fun m i => prims.turboShake m 1 i, fun _ _ h => absurd rfl h⟩

/-- C87: an explicit bound on this probability, -/
theorem C87_bound {k n : ℕ} (h : n ≤ k) : shortfall F k (n + 1) ≤ k.choose n * rejectRate F ^ (k - n) :=
  shortfall_le h

/-- C87: it tends to zero as more chunks are read. -/
theorem C87_limit (n : ℕ) (δ : ℚ) (hδ : 0 < δ) : ∃ K, ∀ k, K ≤ k → shortfall F k n < δ := by
  have h := (shortfall_tendsto (F := F) n).eventually_lt_const (show (0 : ℝ) < δ by exact_mod_cast hδ)
  obtain ⟨K, hK⟩ := Filter.eventually_atTop.1 h
  exact ⟨K, fun k hk => by exact_mod_cast hK k hk⟩

end

/-- C87: the probability that a chunk is rejected, for the four fields. -/
theorem C87_rates : rejectRate Field64 = (2 ^ 32 - 1) / 2 ^ 64 ∧ rejectRate Field96 = (741 * 2 ^ 64 - 1) / 2 ^ 96 ∧
    rejectRate Field128 = (28 * 2 ^ 64 - 1) / 2 ^ 128 ∧ rejectRate Field255 = 19 / 2 ^ 255 := by
  refine ⟨by decide +kernel, by decide +kernel, by decide +kernel, by decide +kernel⟩

/-- The hypotheses of `C87_law` are met, and for ten elements of `Field64` and twenty chunks the probability is
positive, but smaller than 2⁻³³⁰. -/
example (prims : Prims) : (Set.ncard {T ∈ oracles prims {xofInput (List.replicate 32 7) [1, 2] [3]} 160 |
      (XofTurboShake128 (withOracle prims T) 20).expandIntoVec Field64 (List.replicate 32 7) [1, 2] [3] 10 = .error .fuel} : ℚ) =
      shortfall Field64 20 10 * Set.ncard (oracles prims {xofInput (List.replicate 32 7) [1, 2] [3]} 160) ∧
    0 < shortfall Field64 20 10 ∧ shortfall Field64 20 10 < 1 / 2 ^ 330 :=
  ⟨(C87_law rfl (by decide) (Set.finite_singleton _) rfl (by decide) 10).1, by decide +kernel, by decide +kernel⟩

/-- If there are fewer chunks than elements, the sampler is always cut off. -/
example : shortfall Field128 3 4 = 1 := by decide +kernel

/-! ## C88 -/

section
variable {F : Type} [NttField F] {Meas Agg : Type} {prims : Prims} {fuel : ℕ}

/-- C88: for every circuit that computes a task, the probability that an honest execution does not return the aggregate
of the measurements is at most the number of reports times `reportError`. -/
theorem C88_custom {P : Prio3 (XofTurboShake128 prims fuel) F Meas Agg} {T : Spec.Task Meas Agg}
    (I : Spec.CustomInstance P T) {verifyKey ctx : Bytes} (hkey : verifyKey.length = 32)
    (hctx : ctx.length + 8 < 2 ^ 16) {batch : List (Meas × Bytes × Bytes)}
    (hbatch : ∀ m ∈ batch, T.valid m.1 ∧ m.2.1.length = 16 ∧ m.2.2.length = P.randSize)
    (hsup : T.supported (batch.map Prod.fst)) {S : Set Bytes} (hfin : S.Finite)
    (hS : ∀ m ∈ batch, honestInputs P verifyKey ctx m.2.1 m.2.2 ⊆ S) {N : ℕ} (hN : fuel * PyField.encSize F ≤ N) :
    failProbability P verifyKey ctx batch (T.agg (batch.map Prod.fst)) S N ≤ batch.length * reportError P :=
  Prio3.fail_bound I.wf hctx I.computes hkey hbatch hsup hfin hS hN

/-- C88 for the circuits of the library. -/
theorem C88_library {P : Prio3 (XofTurboShake128 prims fuel) F Meas Agg} {fn : Spec.Fun Meas Agg}
    (I : Spec.Instance P fn) {verifyKey ctx : Bytes} (hkey : verifyKey.length = 32)
    (hctx : ctx.length + 8 < 2 ^ 16) {batch : List (Meas × Bytes × Bytes)}
    (hbatch : ∀ m ∈ batch, (fn.task F).valid m.1 ∧ m.2.1.length = 16 ∧ m.2.2.length = P.randSize)
    (hsup : (fn.task F).supported (batch.map Prod.fst)) {S : Set Bytes} (hfin : S.Finite)
    (hS : ∀ m ∈ batch, honestInputs P verifyKey ctx m.2.1 m.2.2 ⊆ S) {N : ℕ} (hN : fuel * PyField.encSize F ≤ N) :
    failProbability P verifyKey ctx batch ((fn.task F).agg (batch.map Prod.fst)) S N ≤ batch.length * reportError P :=
  C88_custom I.custom hkey hctx hbatch hsup hfin hS hN

omit [NttField F] in
/-- There are only finitely many such inputs, so a set `S` as in the theorems exists for every batch. -/
theorem honestInputs_finite (P : Prio3 (XofTurboShake128 prims fuel) F Meas Agg) (verifyKey ctx nonce rand : Bytes) :
    (honestInputs P verifyKey ctx nonce rand).Finite := by
  refine (((Set.finite_lt_nat P.shares).image fun j =>
      xofInput (Spec.shareSeed P rand j) (Spec.tag P.id 1 ctx) [UInt8.ofNat j]).union
    (((Set.finite_lt_nat P.shares).image fun j =>
      xofInput (Spec.shareSeed P rand j) (Spec.tag P.id 2 ctx) [UInt8.ofNat P.proofs, UInt8.ofNat j]).union
    ((Set.finite_singleton (xofInput (Spec.proveSeed P rand) (Spec.tag P.id 4 ctx) [UInt8.ofNat P.proofs])).union
    (((List.finite_length_eq UInt8 32).image fun seed =>
      xofInput seed (Spec.tag P.id 3 ctx) [UInt8.ofNat P.proofs]).union
    (Set.finite_singleton (xofInput verifyKey (Spec.tag P.id 5 ctx) (UInt8.ofNat P.proofs :: nonce))))))).subset ?_
  rintro m (⟨j, -, hj, rfl | rfl⟩ | rfl | ⟨seed, h, rfl⟩ | rfl)
  · exact .inl ⟨j, hj, rfl⟩
  · exact .inr (.inl ⟨j, hj, rfl⟩)
  · exact .inr (.inr (.inl rfl))
  · exact .inr (.inr (.inr (.inl ⟨seed, h, rfl⟩)))
  · exact .inr (.inr (.inr (.inr rfl)))

end

/-- `Prio3Histogram` with three Aggregators and a batch of two: the hypotheses are met, and the execution fails with
probability smaller than 2⁻¹²⁰. -/
example : ∃ S : Set Bytes, S.Finite ∧ failProbability privacyExample (List.replicate 32 1) [1]
    [(0, List.replicate 16 0, List.replicate 192 7), (1, List.replicate 16 1, List.replicate 192 8)] [1, 1] S 640 <
      1 / 2 ^ 120 := by
  refine ⟨honestInputs privacyExample (List.replicate 32 1) [1] (List.replicate 16 0) (List.replicate 192 7) ∪
    honestInputs privacyExample (List.replicate 32 1) [1] (List.replicate 16 1) (List.replicate 192 8),
    (honestInputs_finite _ _ _ _ _).union (honestInputs_finite _ _ _ _ _), ?_⟩
  have hfin := (honestInputs_finite privacyExample (List.replicate 32 1) [1] (List.replicate 16 0) (List.replicate 192 7)).union
    (honestInputs_finite privacyExample (List.replicate 32 1) [1] (List.replicate 16 1) (List.replicate 192 8))
  have h := C88_library privacyExample_instance (verifyKey := List.replicate 32 1) (ctx := [1]) rfl (by decide)
    (batch := [(0, List.replicate 16 0, List.replicate 192 7), (1, List.replicate 16 1, List.replicate 192 8)])
    (by
      intro m hm
      rcases List.mem_cons.1 hm with rfl | hm
      · exact ⟨⟨by decide, by decide⟩, rfl, by decide +kernel⟩
      · obtain rfl := List.mem_singleton.1 hm
        exact ⟨⟨by decide, by decide⟩, rfl, by decide +kernel⟩)
    (by intro v hv; revert v; decide +kernel) hfin
    (by
      intro m hm
      rcases List.mem_cons.1 hm with rfl | hm
      · exact Set.subset_union_left
      · obtain rfl := List.mem_singleton.1 hm
        exact Set.subset_union_right) (N := 640) (by decide)
  refine lt_of_le_of_lt h ?_
  decide +kernel

end Vdaf
