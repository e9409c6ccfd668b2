import Verif.Proofs.TypeParams
import Verif.Spec.TypeParams

/-!
# Property C94: a test vector contains the parameters of the VDAF
-/

namespace Vdaf

section
variable {α : Type}

variable {prims : Prims} {fuel shares : ℕ} {testVec : Doc α}

/-- C94: the keys -/
theorem C94_keys (length max maxWeight chunkLength : ℕ) (P : Poplar1) :
    Spec.SetsKeys (α := α) countTypeParam ∧ Spec.SetsKeys (α := α) (sumTypeParam max) ∧
    Spec.SetsKeys (α := α) (sumVecTypeParam length max chunkLength) ∧
    Spec.SetsKeys (α := α) (histogramTypeParam length chunkLength) ∧
    Spec.SetsKeys (α := α) (multihotTypeParam length maxWeight chunkLength) ∧ Spec.SetsKeys (α := α) P.typeParam := by
  refine ⟨?_, ?_, ?_, ?_, ?_, ?_⟩ <;> intro doc <;>
    simp only [countTypeParam, sumTypeParam, sumVecTypeParam, histogramTypeParam, multihotTypeParam, Poplar1.typeParam,
      Doc.lookup_set] <;> refine ⟨?_, ?_, ?_⟩ <;> simp +contextual

/-- C94 for `Prio3Count` -/
theorem C94_count {P : Prio3 (XofTurboShake128 prims fuel) Field64 Int Nat} (hP : Prio3Count prims fuel shares = .ok P)
    (hs : testVec.lookup "shares" = some (.inl P.shares)) : loadCount prims fuel (countTypeParam testVec).1 = .ok P := by
  rw [Prio3.init_shares_eq hP] at hs
  unfold loadCount countTypeParam
  rw [Doc.int_of_lookup hs]
  exact hP

/-- C94 for `Prio3HigherDegree` -/
theorem C94_higher_degree {P : Prio3 (XofTurboShake128 prims fuel) Field64 Int Nat}
    (hP : Prio3HigherDegree prims fuel shares = .ok P)
    (hs : testVec.lookup "shares" = some (.inl P.shares)) :
    loadHigherDegree prims fuel (countTypeParam testVec).1 = .ok P := by
  obtain ⟨V, -, h⟩ := Except.bind_eq_ok.1 hP
  rw [Prio3.init_shares_eq h] at hs
  unfold loadHigherDegree countTypeParam
  rw [Doc.int_of_lookup hs]
  exact hP

/-- C94 for `Prio3Sum` -/
theorem C94_sum {max : ℕ} {P : Prio3 (XofTurboShake128 prims fuel) Field64 Int Nat}
    (hP : Prio3Sum prims fuel shares max = .ok P) (hs : testVec.lookup "shares" = some (.inl P.shares)) :
    loadSum prims fuel (sumTypeParam max testVec).1 = .ok P := by
  obtain ⟨V, -, h⟩ := Except.bind_eq_ok.1 hP
  rw [Prio3.init_shares_eq h] at hs
  unfold loadSum sumTypeParam
  rw [Doc.int_of_lookup (by simpa [Doc.lookup_set] using hs), Doc.int_of_lookup (n := max) (by simp [Doc.lookup_set])]
  exact hP

/-- C94 for `Prio3SumVec` -/
theorem C94_sumvec {length max chunkLength : ℕ} {P : Prio3 (XofTurboShake128 prims fuel) Field128 (List Int) (List Nat)}
    (hP : Prio3SumVec prims fuel shares length max chunkLength = .ok P)
    (hs : testVec.lookup "shares" = some (.inl P.shares)) :
    loadSumVec prims fuel (sumVecTypeParam length max chunkLength testVec).1 = .ok P := by
  obtain ⟨V, -, h⟩ := Except.bind_eq_ok.1 hP
  rw [Prio3.init_shares_eq h] at hs
  unfold loadSumVec sumVecTypeParam
  rw [Doc.int_of_lookup (by simpa [Doc.lookup_set] using hs), Doc.int_of_lookup (n := length) (by simp [Doc.lookup_set]),
    Doc.int_of_lookup (n := max) (by simp [Doc.lookup_set]), Doc.int_of_lookup (n := chunkLength) (by simp [Doc.lookup_set])]
  exact hP

/-- C94 for `Prio3Histogram` -/
theorem C94_histogram {length chunkLength : ℕ} {P : Prio3 (XofTurboShake128 prims fuel) Field128 Int (List Nat)}
    (hP : Prio3Histogram prims fuel shares length chunkLength = .ok P)
    (hs : testVec.lookup "shares" = some (.inl P.shares)) :
    loadHistogram prims fuel (histogramTypeParam length chunkLength testVec).1 = .ok P := by
  obtain ⟨V, -, h⟩ := Except.bind_eq_ok.1 hP
  rw [Prio3.init_shares_eq h] at hs
  unfold loadHistogram histogramTypeParam
  rw [Doc.int_of_lookup (by simpa [Doc.lookup_set] using hs), Doc.int_of_lookup (n := length) (by simp [Doc.lookup_set]),
    Doc.int_of_lookup (n := chunkLength) (by simp [Doc.lookup_set])]
  exact hP

/-- C94 for `Prio3MultihotCountVec` -/
theorem C94_multihot {length maxWeight chunkLength : ℕ}
    {P : Prio3 (XofTurboShake128 prims fuel) Field128 (List Bool) (List Nat)}
    (hP : Prio3MultihotCountVec prims fuel shares length maxWeight chunkLength = .ok P)
    (hs : testVec.lookup "shares" = some (.inl P.shares)) :
    loadMultihot prims fuel (multihotTypeParam length maxWeight chunkLength testVec).1 = .ok P := by
  obtain ⟨V, -, h⟩ := Except.bind_eq_ok.1 hP
  rw [Prio3.init_shares_eq h] at hs
  unfold loadMultihot multihotTypeParam
  rw [Doc.int_of_lookup (by simpa [Doc.lookup_set] using hs), Doc.int_of_lookup (n := length) (by simp [Doc.lookup_set]),
    Doc.int_of_lookup (n := maxWeight) (by simp [Doc.lookup_set]),
    Doc.int_of_lookup (n := chunkLength) (by simp [Doc.lookup_set])]
  exact hP

/-- C94 for `Poplar1` (whose number of Aggregators is always two) -/
theorem C94_poplar1 {bits : ℕ} {P : Poplar1} (hP : Poplar1.init bits = .ok P) :
    loadPoplar1 (P.typeParam testVec).1 = .ok P := by
  have hb : P.idpf.bits = bits := by
    unfold Poplar1.init Idpf.init at hP
    simp only [Except.bind_eq_ok] at hP
    obtain ⟨I, ⟨_, -, _, -, h⟩, h'⟩ := hP
    cases h
    cases h'
    rfl
  unfold loadPoplar1 Poplar1.typeParam
  rw [Doc.int_of_lookup (n := bits) (by simp [Doc.lookup_set, hb])]
  exact hP

/-- C94 is false for `Prio3SumVecWithMultiproof`: two different instances have the same parameters in the test vector, and
the test constructs only one of them. -/
theorem C94_multiproof_counterexample (prims : Prims) (fuel : ℕ) (testVec : Doc α) :
    ∃ P P' : Prio3 (XofTurboShake128 prims fuel) Field64 (List Int) (List Nat), P.proofs ≠ P'.proofs ∧ P.shares = P'.shares ∧
      Prio3SumVecWithMultiproof prims fuel 2 Field64 3 10 255 9 = .ok P ∧
      Prio3SumVecWithMultiproof prims fuel 2 Field64 4 10 255 9 = .ok P' ∧
      ∀ Q, loadMultiproof prims fuel (sumVecTypeParam 10 255 9 testVec).1 = .ok Q → Q.proofs ≠ P'.proofs := by
  refine ⟨_, _, ?_, ?_, rfl, rfl, ?_⟩
  · show (3 : ℕ) ≠ 4
    decide
  · rfl
  · intro Q hQ
    unfold loadMultiproof at hQ
    simp only [Except.bind_eq_ok] at hQ
    obtain ⟨_, -, _, -, _, -, _, -, hQ⟩ := hQ
    unfold Prio3SumVecWithMultiproof Prio3.init at hQ
    simp only [Except.bind_eq_ok] at hQ
    obtain ⟨_, -, _, -, _, -, hQ⟩ := hQ
    cases hQ
    show (3 : ℕ) ≠ 4
    decide

/-- C94 for `Prio3SumVecWithMultiproof`, what is true: if the field is Field64 and there are three proofs, as for the test
vectors of the library.  Missing: all other instances, see `C94_multiproof_counterexample`. -/
theorem C94_multiproof_partial {length max chunkLength : ℕ}
    {P : Prio3 (XofTurboShake128 prims fuel) Field64 (List Int) (List Nat)}
    (hP : Prio3SumVecWithMultiproof prims fuel shares Field64 3 length max chunkLength = .ok P)
    (hs : testVec.lookup "shares" = some (.inl P.shares)) :
    loadMultiproof prims fuel (sumVecTypeParam length max chunkLength testVec).1 = .ok P := by
  obtain ⟨V, -, h⟩ := Except.bind_eq_ok.1 hP
  rw [Prio3.init_shares_eq h] at hs
  unfold loadMultiproof sumVecTypeParam
  rw [Doc.int_of_lookup (by simpa [Doc.lookup_set] using hs), Doc.int_of_lookup (n := length) (by simp [Doc.lookup_set]),
    Doc.int_of_lookup (n := max) (by simp [Doc.lookup_set]), Doc.int_of_lookup (n := chunkLength) (by simp [Doc.lookup_set])]
  exact hP

end

/-! ## Examples -/

/-- A new test vector (test_utils.py:226-235), for three Aggregators -/
def docExample : Doc String :=
  [("operations", .inr "[]"), ("shares", .inl 3), ("verify_key", .inr "00"), ("agg_param", .inr ""), ("ctx", .inr "61"),
    ("reports", .inr "[]"), ("agg_shares", .inr "[]"), ("agg_result", .inr "null")]

example (prims : Prims) (fuel : ℕ) : ∃ P, Prio3SumVec prims fuel 3 10 255 9 = .ok P ∧
    docExample.lookup "shares" = some (.inl P.shares) := ⟨_, rfl, rfl⟩
example : (sumVecTypeParam 10 255 9 docExample).1 = docExample ++
    [("length", .inl 10), ("max_measurement", .inl 255), ("chunk_length", .inl 9)] := by decide
example : Poplar1.init 4 = .ok ⟨⟨2, 4⟩⟩ ∧
    ((⟨⟨2, 4⟩⟩ : Poplar1).typeParam docExample).1 = docExample ++ [("bits", .inl 4)] := by
  refine ⟨rfl, ?_⟩
  decide
-- before the parameters are set, or for another class, the VDAF cannot be constructed
example : (loadPoplar1 docExample).isOk = false ∧ (loadPoplar1 (sumTypeParam 10 docExample).1).isOk = false := by decide

end Vdaf
