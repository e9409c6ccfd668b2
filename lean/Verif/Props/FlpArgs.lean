import Verif.Proofs.Encode
import Verif.Model.Fields

/-!
# Property C99: the FLP accepts only arguments of the advertised lengths

`V` is any validity circuit, also one that a user supplies; the last theorem is about those of the library.
-/

namespace Vdaf

variable {F : Type} [NttField F] {Meas Agg : Type} (V : Valid F Meas Agg)

/-- C99: `prove` fails unless the encoded measurement, the prover randomness and the joint randomness have their lengths,
and a proof that it returns has the length `PROOF_LEN`. -/
theorem C99_prove (meas proveRand jointRand proof : List F) (h : V.prove meas proveRand jointRand = .ok proof) :
    meas.length = V.measLen ∧ proveRand.length = V.proveRandLen ∧ jointRand.length = V.jointRandLen ∧
      V.proofLen = .ok proof.length := by
  unfold Valid.prove at h
  simp only [Except.bind_eq_ok, pyAssert_eq_ok, decide_eq_true_eq] at h
  obtain ⟨_, h1, _, h2, _, h3, _, -, _, -, p, -, n, hn, _, hp, he⟩ := h
  cases he
  exact ⟨h1, h2, h3, by rw [hn, hp]⟩

/-- C99: the exception is `AssertionError`. -/
theorem C99_prove_error (meas proveRand jointRand : List F)
    (h : meas.length ≠ V.measLen ∨ proveRand.length ≠ V.proveRandLen ∨ jointRand.length ≠ V.jointRandLen) :
    ∃ msg, V.prove meas proveRand jointRand = .error (.assertion msg) := by
  unfold Valid.prove pyAssert
  by_cases h1 : meas.length = V.measLen
  · by_cases h2 : proveRand.length = V.proveRandLen
    · have h3 : jointRand.length ≠ V.jointRandLen := by tauto
      simp only [h1, h2, h3]
      exact ⟨_, rfl⟩
    · simp only [h1, h2]
      exact ⟨_, rfl⟩
  · simp only [h1]
    exact ⟨_, rfl⟩

/-- C99: `query` fails unless the measurement share, the proof share, the query randomness and the joint randomness have
their lengths. -/
theorem C99_query (meas proof queryRand jointRand : List F) (numShares : ℕ) (verifier : List F)
    (h : V.query meas proof queryRand jointRand numShares = .ok verifier) :
    meas.length = V.measLen ∧ V.proofLen = .ok proof.length ∧ queryRand.length = V.queryRandLen ∧
      jointRand.length = V.jointRandLen := by
  unfold Valid.query at h
  simp only [Except.bind_eq_ok, pyAssert_eq_ok, decide_eq_true_eq] at h
  obtain ⟨_, h1, n, hn, _, h2, _, h3, _, h4, -⟩ := h
  exact ⟨h1, by rw [hn, h2], h3, h4⟩

/-- C99: the exception is `AssertionError`. -/
theorem C99_query_error (meas proof queryRand jointRand : List F) (numShares n : ℕ) (hn : V.proofLen = .ok n)
    (h : meas.length ≠ V.measLen ∨ proof.length ≠ n ∨ queryRand.length ≠ V.queryRandLen ∨
      jointRand.length ≠ V.jointRandLen) :
    ∃ msg, V.query meas proof queryRand jointRand numShares = .error (.assertion msg) := by
  have hno : ∀ {c : Prop} [Decidable c], ¬ c → pyAssert (decide c) = .error (.assertion "") := by
    intro c _ hc
    simp [pyAssert, hc]
  unfold Valid.query
  by_cases h1 : meas.length = V.measLen
  · rw [pyAssert_of' h1, hn]
    simp only [Except.ok_bind']
    by_cases h2 : proof.length = n
    · rw [pyAssert_of' h2]
      simp only [Except.ok_bind']
      by_cases h3 : queryRand.length = V.queryRandLen
      · have h4 : jointRand.length ≠ V.jointRandLen := by tauto
        rw [pyAssert_of' h3, hno h4]
        exact ⟨_, rfl⟩
      · rw [hno h3]
        exact ⟨_, rfl⟩
    · rw [hno h2]
      exact ⟨_, rfl⟩
  · rw [hno h1]
    exact ⟨_, rfl⟩

/-- C99: `decide` raises `AssertionError` for a verifier that has not the length `VERIFIER_LEN`. -/
theorem C99_decide (verifier : List F) (h : verifier.length ≠ V.verifierLen) :
    ∃ msg, V.decide verifier = .error (.assertion msg) := by
  unfold Valid.decide pyAssert
  simp only [h]
  exact ⟨_, rfl⟩

/-- C99: the circuits of the library raise `ValueError` for measurements and joint randomness of other lengths. -/
theorem C99_library {fn : Spec.Fun Meas Agg} (hV : Spec.Library F V fn) (meas jointRand : List F) (numShares : ℕ)
    (h : meas.length ≠ V.measLen ∨ jointRand.length ≠ V.jointRandLen) :
    ∃ msg, V.evalPlain meas jointRand numShares = .error (.value msg) := by
  have key : ∀ ml jl : ℕ, (meas.length ≠ ml ∨ jointRand.length ≠ jl) →
      ∃ msg, checkValidEval ml jl meas jointRand = .error (.value msg) := by
    intro ml jl h
    unfold checkValidEval
    by_cases h1 : meas.length = ml
    · rw [raiseIf_of_not (by simp [h1]), raiseIf_of (by simpa [h1] using h)]
      exact ⟨_, rfl⟩
    · rw [raiseIf_of (by simpa using h1)]
      exact ⟨_, rfl⟩
  obtain ⟨msg, hm⟩ := key _ _ h
  refine ⟨msg, ?_⟩
  clear h
  cases hV with
  | count =>
    have hm : checkValidEval 1 0 meas jointRand = .error (.value msg) := hm
    simp only [Valid.evalPlain, Count, hm]
    rfl
  | @sum max V h0 h =>
    obtain ⟨h1, G, hG, rfl⟩ := Sum_ok h
    have hm : checkValidEval (Nat.size max) 0 meas jointRand = .error (.value msg) := hm
    simp only [Valid.evalPlain, Sum.circuit, hm]
    rfl
  | @sumVec length max cl V h =>
    obtain ⟨h1, h2, h3, h4, rfl⟩ := SumVec_ok h
    have hm : checkValidEval (length * Nat.size max) (numCalls (length * Nat.size max) cl) meas jointRand =
      .error (.value msg) := hm
    simp only [Valid.evalPlain, SumVec.circuit, hm]
    rfl
  | @histogram length cl V _ h =>
    obtain ⟨h1, h2, rfl⟩ := Histogram_ok h
    have hm : checkValidEval length (numCalls length cl) meas jointRand = .error (.value msg) := hm
    simp only [Valid.evalPlain, Histogram.circuit, hm]
    rfl
  | @multihot length mw cl V h =>
    obtain ⟨h1, h2, h3, h4, h5, rfl⟩ := MultihotCountVec_ok h
    have hm : checkValidEval (length + Nat.size mw) (numCalls (length + Nat.size mw) cl) meas jointRand =
      .error (.value msg) := hm
    simp only [Valid.evalPlain, MultihotCountVec.circuit, hm]
    rfl

-- arguments of the right lengths are accepted, others are not
example : ((Count Field64).prove [1] [5, 6] []).toOption.isSome = true := by decide +kernel
example : (Count Field64).prove [1] [5] [] = .error (.assertion "") ∧
    (Count Field64).prove [1, 0] [5, 6] [] = .error (.assertion "") ∧
    (Count Field64).decide [0, 1, 1] = .error (.assertion "") ∧
    (Count Field64).evalPlain [1, 0] [] 1 = .error (.value "incorrect measurement length") ∧
    (Histogram.circuit Field64 2 1).evalPlain [1, 0] [3] 1 =
      .error (.value "incorrect joint randomness length") := by decide +kernel

end Vdaf
