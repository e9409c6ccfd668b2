import Verif.Spec.ChunkLength
import Verif.Proofs.ChunkLength
import Verif.Props.Flp
import Verif.Props.Prio3

/-!
# Property C95: the tuning parameters do not change the meaning

Specification vocabulary (`Verif/Spec/ChunkLength.lean`, `Verif/Spec/Flp.lean`):

* `Spec.SameEncoding V V'`: the circuits encode, truncate and decode in the same way;
* `Spec.SameLanguage V V' cl`: the vectors that `V` accepts with a larger fraction of the choices
  of the joint randomness than `cl / MODULUS` are accepted by `V'` with every joint randomness,
  and the vectors that `V` accepts with every joint randomness are among them;
* `Spec.Fits V`: the gadget polynomials are not longer than `GEN_ORDER`;
* `Spec.Instance P fn`: `P` is an instance of Prio3 for the function `fn`.
-/

set_option linter.unusedSectionVars false

namespace Vdaf

variable {F : Type} [NttField F] {Meas Agg : Type}

/-- C95, `SumVec`: every positive chunk length is accepted by the constructor if one is, and they
mean the same. -/
theorem C95_sumvec {length max cl : ℕ} {V : Valid F (List Int) (List ℕ)}
    (hV : SumVec F length max cl = .ok V) {cl' : ℕ} (hcl' : 0 < cl') :
    ∃ V', SumVec F length max cl' = .ok V' ∧ Spec.SameEncoding V V' ∧
      (Spec.Fits V → Spec.Fits V' → Spec.SameLanguage V V' cl) := by
  obtain ⟨h1, h2, h3, h4, rfl⟩ := SumVec_ok hV
  refine ⟨SumVec.circuit F length max cl', ?_, ⟨rfl, rfl, rfl, rfl, rfl⟩,
    fun hfit hfit' meas hm => ⟨fun hacc jr' hj => ?_, fun hlt hall => ?_⟩⟩
  · unfold SumVec
    rw [raiseIf_of_not (by omega), raiseIf_of_not (by omega), raiseIf_of_not (by omega),
      raiseIf_of_not (by omega)]
    rfl
  · have hb : Spec.Bits meas := by
      refine bits_of_count (n := length * Nat.size max) h2 hm ?_ hacc
      intro (jr : Fin (SumVec.circuit F length max cl).jointRandLen → F)
        (hjr : Spec.Accepts (SumVec.circuit F length max cl) meas (List.ofFn jr))
      obtain ⟨out, ho, hz⟩ := hjr
      rw [SumVec.plain h1 h2 h3 hfit hm (jr := List.ofFn jr) List.length_ofFn] at ho
      cases ho
      exact hz _ List.mem_cons_self
    refine ⟨_, SumVec.plain h1 hcl' h3 hfit' hm hj, fun x hx => ?_⟩
    rw [List.mem_singleton.1 hx]
    exact rangeSum_zero (coef_bits hb)
  · exact count_of_all (numCalls_pos (Nat.mul_pos h1 (size_pos' h3)) h2) hlt
      fun jr => hall _ List.length_ofFn

/-- C95, `Histogram`. -/
theorem C95_histogram {length cl : ℕ} {V : Valid F Int (List ℕ)}
    (hV : Histogram F length cl = .ok V) {cl' : ℕ} (hcl' : 0 < cl') :
    ∃ V', Histogram F length cl' = .ok V' ∧ Spec.SameEncoding V V' ∧
      (Spec.Fits V → Spec.Fits V' → Spec.SameLanguage V V' cl) := by
  obtain ⟨h1, h2, rfl⟩ := Histogram_ok hV
  refine ⟨Histogram.circuit F length cl', ?_, ⟨rfl, rfl, rfl, rfl, rfl⟩,
    fun hfit hfit' meas hm => ⟨fun hacc jr' hj => ?_, fun hlt hall => ?_⟩⟩
  · unfold Histogram
    rw [raiseIf_of_not (by omega), raiseIf_of_not (by omega)]
    rfl
  · have key : ∀ jr ∈ {jr : Fin (Histogram.circuit F length cl).jointRandLen → F |
        Spec.Accepts (Histogram.circuit F length cl) meas (List.ofFn jr)},
        rangeSum cl (numCalls length cl) meas (List.ofFn jr) = 0 ∧
        (∑ j ∈ Finset.range length, coef meas j) - 1 = 0 := by
      rintro jr ⟨out, ho, hz⟩
      rw [Histogram.plain h1 h2 hfit hm (jr := List.ofFn jr) List.length_ofFn] at ho
      cases ho
      exact ⟨hz _ List.mem_cons_self, hz _ (List.mem_cons_of_mem _ (List.mem_singleton.2 rfl))⟩
    have hb : Spec.Bits meas := bits_of_count (n := length) h2 hm (fun jr hjr => (key jr hjr).1) hacc
    obtain ⟨jr, hjr⟩ := (Set.ncard_pos (Set.toFinite _)).1 (Nat.zero_lt_of_lt hacc)
    refine ⟨_, Histogram.plain h1 hcl' hfit' hm hj, fun x hx => ?_⟩
    rcases List.mem_cons.1 hx with rfl | hx
    · exact rangeSum_zero (coef_bits hb)
    · rw [List.mem_singleton.1 hx]
      exact (key jr hjr).2
  · exact count_of_all (numCalls_pos h1 h2) hlt fun jr => hall _ List.length_ofFn

/-- C95, `MultihotCountVec`. -/
theorem C95_multihot {length mw cl : ℕ} {V : Valid F (List Bool) (List ℕ)}
    (hV : MultihotCountVec F length mw cl = .ok V) {cl' : ℕ} (hcl' : 0 < cl') :
    ∃ V', MultihotCountVec F length mw cl' = .ok V' ∧ Spec.SameEncoding V V' ∧
      (Spec.Fits V → Spec.Fits V' → Spec.SameLanguage V V' cl) := by
  obtain ⟨h1, h2, h3, h4, h5, rfl⟩ := MultihotCountVec_ok hV
  have hmw : mw < PyField.modulus F := by omega
  refine ⟨MultihotCountVec.circuit F length mw cl', ?_, ⟨rfl, rfl, rfl, rfl, rfl⟩,
    fun hfit hfit' meas hm => ⟨fun hacc jr' hj => ?_, fun hlt hall => ?_⟩⟩
  · unfold MultihotCountVec
    rw [raiseIf_of_not (by omega), raiseIf_of_not (by omega), raiseIf_of_not (by omega),
      raiseIf_of_not (by omega), raiseIf_of_not (by omega)]
    rfl
  · have key : ∀ jr ∈ {jr : Fin (MultihotCountVec.circuit F length mw cl).jointRandLen → F |
        Spec.Accepts (MultihotCountVec.circuit F length mw cl) meas (List.ofFn jr)},
        rangeSum cl (numCalls (length + Nat.size mw) cl) meas (List.ofFn jr) = 0 ∧
        (meas.take length).foldl (fun s b => s + b) 0 -
          ∑ l ∈ Finset.range (Nat.size mw), (rcw mw l : F) * coef (meas.drop length) l = 0 := by
      rintro jr ⟨out, ho, hz⟩
      rw [MultihotCountVec.plain h1 h2 h3 hmw hfit hm (jr := List.ofFn jr) List.length_ofFn] at ho
      cases ho
      exact ⟨hz _ List.mem_cons_self, hz _ (List.mem_cons_of_mem _ (List.mem_singleton.2 rfl))⟩
    have hb : Spec.Bits meas := bits_of_count (n := length + Nat.size mw) h2 hm
      (fun jr hjr => (key jr hjr).1) hacc
    obtain ⟨jr, hjr⟩ := (Set.ncard_pos (Set.toFinite _)).1 (Nat.zero_lt_of_lt hacc)
    refine ⟨_, MultihotCountVec.plain h1 hcl' h3 hmw hfit' hm hj, fun x hx => ?_⟩
    rcases List.mem_cons.1 hx with rfl | hx
    · exact rangeSum_zero (coef_bits hb)
    · rw [List.mem_singleton.1 hx]
      exact (key jr hjr).2
  · exact count_of_all (numCalls_pos (by omega) h2) hlt fun jr => hall _ List.length_ofFn

/-- C95, the aggregate result: two instances of Prio3 for the same function - of whatever field,
chunk length, number of Aggregators and of proofs, algorithm identifier and XOF - that both
succeed on the same measurements return the same result, whatever the verification keys, the
application contexts, the nonces and the randomness, unless a total exceeds one of the fields. -/
theorem C95_result {F' : Type} [NttField F'] {prims prims' : Prims} {fuel fuel' : ℕ}
    {P : Prio3 (XofTurboShake128 prims fuel) F Meas Agg}
    {P' : Prio3 (XofTurboShake128 prims' fuel') F' Meas Agg} {fn : Spec.Fun Meas Agg}
    (I : Spec.Instance P fn) (I' : Spec.Instance P' fn) (key key' ctx ctx' : Bytes)
    (hkey : key.length = 32) (hkey' : key'.length = 32)
    (hctx : ctx.length + 8 < 2 ^ 16) (hctx' : ctx'.length + 8 < 2 ^ 16)
    (batch batch' : List (Meas × Bytes × Bytes))
    (hbatch : ∀ m ∈ batch, fn.valid m.1 ∧ m.2.1.length = 16 ∧ m.2.2.length = P.randSize)
    (hbatch' : ∀ m ∈ batch', fn.valid m.1 ∧ m.2.1.length = 16 ∧ m.2.2.length = P'.randSize)
    (hsame : batch'.map Prod.fst = batch.map Prod.fst)
    (hfits : ∀ n ∈ fn.totals (fn.agg (batch.map Prod.fst)),
      n < PyField.modulus F ∧ n < PyField.modulus F')
    {R R' : Agg} (hR : runVdaf P.vdaf key () ctx batch = .ok R)
    (hR' : runVdaf P'.vdaf key' () ctx' batch' = .ok R') : R' = R := by
  rcases C23_end_to_end I key ctx hkey hctx batch hbatch with ⟨R₁, h1, -, h2⟩ | ⟨e, h1, -⟩
  · rcases C23_end_to_end I' key' ctx' hkey' hctx' batch' hbatch' with ⟨R₂, h3, -, h4⟩ | ⟨e, h3, -⟩
    · rw [h1] at hR
      rw [h3] at hR'
      cases hR
      cases hR'
      rw [h2 fun n hn => (hfits n hn).1, h4 (by rw [hsame]; exact fun n hn => (hfits n hn).2), hsame]
    · rw [h3] at hR'
      cases hR'
  · rw [h1] at hR
    cases hR

-- the hypotheses are met, and the result is not trivial
example : (SumVec.circuit Field128 2 3 1).jointRandLen = 4 ∧
    (SumVec.circuit Field128 2 3 4).jointRandLen = 1 ∧
    (SumVec.circuit Field128 2 3 1).encode [1, 3] = .ok [1, 0, 1, 1] ∧
    (SumVec.circuit Field128 2 3 1).evalPlain [1, 0, 1, 1] [5, 6, 7, 8] 1 = .ok [0] ∧
    (SumVec.circuit Field128 2 3 4).evalPlain [1, 0, 1, 1] [5] 1 = .ok [0] ∧
    (SumVec.circuit Field128 2 3 4).evalPlain [2, 0, 0, 0] [5] 1 = .ok [10] := by decide +kernel

example : Spec.Fits (Histogram.circuit Field64 3 2) ∧ Spec.Fits (Histogram.circuit Field64 3 1) := by
  constructor <;>
  · intro i g calls p h1 h2 h3
    match i with
    | 0 =>
      cases h1
      cases h2
      cases h3
      decide +kernel
    | i + 1 => cases h1

example : (do
    let P ← Prio3SumVecWithMultiproof toyPrims 80 2 Field64 2 2 3 2
    runVdaf P.vdaf (List.replicate 32 1) () [1, 2]
      [([1, 3], List.replicate 16 3, List.replicate 128 7)]) = .ok [1, 3] ∧
    (do
    let P ← Prio3SumVecWithMultiproof toyPrims 80 3 Field128 3 2 3 1
    runVdaf P.vdaf (List.replicate 32 9) () [4]
      [([1, 3], List.replicate 16 8, List.replicate 192 5)]) = .ok [1, 3] := by decide +kernel

end Vdaf
