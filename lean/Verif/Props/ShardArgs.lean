import Verif.Proofs.IdpfReject
import Verif.Proofs.Prio3Base
import Verif.Props.Privacy

/-!
# Property C92: a Client cannot shard with arguments of the wrong sizes or with an invalid measurement
-/

namespace Vdaf

section
variable {F : Type} [NttField F] {Meas Agg : Type} {prims : Prims} {fuel : ℕ}
variable (P : Prio3 (XofTurboShake128 prims fuel) F Meas Agg) (ctx : Bytes) (m : Meas) (nonce rand : Bytes)

/-- C92 for Prio3: a nonce that does not have 16 bytes raises `ValueError`, and so do random bytes other than 32 for each
Aggregator, or 64 for each with joint randomness. -/
theorem C92_prio3_sizes
    (h : nonce.length ≠ 16 ∨ rand.length ≠ (if 0 < P.flp.jointRandLen then 64 else 32) * P.shares) :
    ∃ s, P.shard ctx m nonce rand = .error (.value s) := by
  unfold Prio3.shard
  by_cases hn : nonce.length = 16
  · rw [raiseIf_of_not (by simp [Prio3.NONCE_SIZE, hn])]
    have hr : rand.length ≠ P.randSize := by
      have hr := h.resolve_left (fun h => h hn)
      intro he
      apply hr
      rw [he]
      unfold Prio3.randSize Prio3.numSeeds
      show _ * 32 = _
      split_ifs <;> omega
    simp only [Except.ok_bind']
    rw [raiseIf_of (by simpa using hr)]
    exact ⟨_, rfl⟩
  · rw [raiseIf_of (by simpa [Prio3.NONCE_SIZE] using hn)]
    exact ⟨_, rfl⟩

/-- C92 for Prio3: with arguments of the right sizes, a measurement that the circuit does not encode raises the exception of
the encoder. -/
theorem C92_prio3_measurement (hn : nonce.length = 16)
    (hr : rand.length = (if 0 < P.flp.jointRandLen then 64 else 32) * P.shares) (e : Err)
    (he : P.flp.encode m = .error e) : P.shard ctx m nonce rand = .error e := by
  unfold Prio3.shard
  rw [raiseIf_of_not (by simp [Prio3.NONCE_SIZE, hn])]
  simp only [Except.ok_bind']
  have hr' : rand.length = P.randSize := by
    rw [hr]
    unfold Prio3.randSize Prio3.numSeeds
    show _ = _ * 32
    split_ifs <;> omega
  rw [raiseIf_of_not (by simp [hr'])]
  simp only [Except.ok_bind']
  rw [he]
  rfl

/-- C92 for Prio3: a report is only ever made from arguments of the right sizes and from a measurement that the circuit
encodes. -/
theorem C92_prio3_accepts_only (r) (h : P.shard ctx m nonce rand = .ok r) :
    nonce.length = 16 ∧ rand.length = (if 0 < P.flp.jointRandLen then 64 else 32) * P.shares ∧
      ∃ meas, P.flp.encode m = .ok meas := by
  by_cases hs : nonce.length ≠ 16 ∨ rand.length ≠ (if 0 < P.flp.jointRandLen then 64 else 32) * P.shares
  · obtain ⟨s, hs⟩ := C92_prio3_sizes P ctx m nonce rand hs
    rw [hs] at h
    cases h
  · rw [not_or, not_not, not_not] at hs
    refine ⟨hs.1, hs.2, ?_⟩
    cases he : P.flp.encode m with
    | ok meas => exact ⟨meas, rfl⟩
    | error e =>
      rw [C92_prio3_measurement P ctx m nonce rand hs.1 hs.2 e he] at h
      cases h

end

section
variable (P : Poplar1) (prims : Prims) (fuel : ℕ) (ctx : Bytes) (alpha : List Bool) (nonce rand : Bytes)

/-- C92 for Poplar1: a nonce that does not have 16 bytes, or other than 128 random bytes, raise `ValueError`. -/
theorem C92_poplar1_sizes (h : nonce.length ≠ 16 ∨ rand.length ≠ 128) :
    ∃ s, P.shard prims fuel ctx alpha nonce rand = .error (.value s) := by
  unfold Poplar1.shard
  by_cases hn : nonce.length = 16
  · rw [raiseIf_of_not (by simp [Poplar1.NONCE_SIZE, hn])]
    have hr := h.resolve_left (fun h => h hn)
    simp only [Except.ok_bind']
    rw [raiseIf_of (by simpa [Poplar1.randSize, Poplar1.xof, XofTurboShake128, Idpf.RAND_SIZE] using hr)]
    exact ⟨_, rfl⟩
  · rw [raiseIf_of (by simpa [Poplar1.NONCE_SIZE] using hn)]
    exact ⟨_, rfl⟩

/-- C92 for Poplar1: a report is only ever made from arguments of the right sizes, and from a measurement of exactly `BITS`
bits. -/
theorem C92_poplar1_accepts_only (r) (h : P.shard prims fuel ctx alpha nonce rand = .ok r) :
    nonce.length = 16 ∧ rand.length = 128 ∧ alpha.length = P.idpf.bits := by
  by_cases hs : nonce.length ≠ 16 ∨ rand.length ≠ 128
  · obtain ⟨s, hs⟩ := C92_poplar1_sizes P prims fuel ctx alpha nonce rand hs
    rw [hs] at h
    cases h
  · rw [not_or, not_not, not_not] at hs
    refine ⟨hs.1, hs.2, ?_⟩
    by_contra hne
    unfold Poplar1.shard at h
    simp only [Except.bind_eq_ok] at h
    obtain ⟨_, -, _, -, _, -, _, -, _, -, _, -, _, -, _, -, _, -, _, -, _, -, _, -, _, -, _, -, _, -, _, hg, -⟩ := h
    obtain ⟨m, hm⟩ := Idpf.gen_sizes (Or.inl hne)
    rw [hm] at hg
    cases hg

end

/-! ## Examples -/

/-- `Prio3Count` with two Aggregators -/
def shardExample : Prio3 (XofTurboShake128 toyPrims 40) Field64 Int Nat := ⟨1, 2, 1, Count Field64, 5⟩

-- the report of a measurement, a nonce of 15 bytes, 63 and 65 random bytes, and a measurement that is neither 0 nor 1
example : Prio3Count toyPrims 40 2 = .ok shardExample ∧
    (shardExample.shard [1] 1 (List.replicate 16 3) (List.replicate 64 7)).isOk ∧
    (shardExample.shard [1] 1 (List.replicate 15 3) (List.replicate 64 7)).isOk = false ∧
    (shardExample.shard [1] 1 (List.replicate 16 3) (List.replicate 63 7)).isOk = false ∧
    (shardExample.shard [1] 1 (List.replicate 16 3) (List.replicate 65 7)).isOk = false ∧
    (shardExample.shard [1] 2 (List.replicate 16 3) (List.replicate 64 7)).isOk = false := by
  refine ⟨rfl, ?_⟩
  decide +kernel

-- Poplar1 with two bits: the report of two bits, and one and three bits
example : ((⟨⟨2, 2⟩⟩ : Poplar1).shard toyPrims 40 [1] [true, false] (List.replicate 16 3) (List.replicate 128 7)).isOk ∧
    ((⟨⟨2, 2⟩⟩ : Poplar1).shard toyPrims 40 [1] [true] (List.replicate 16 3) (List.replicate 128 7)).isOk = false ∧
    ((⟨⟨2, 2⟩⟩ : Poplar1).shard toyPrims 40 [1] [true, false, true] (List.replicate 16 3)
      (List.replicate 128 7)).isOk = false := by
  decide +kernel

end Vdaf
