import Verif.Model.Fields
import Verif.Proofs.Encode
import Verif.Proofs.FlpProps

/-!
# Properties C12 - C22, C46, C47: validity circuits and fully linear proofs

Specification vocabulary (`Verif/Spec/Flp.lean`, `Verif/Spec/Vec.lean`):

* `Spec.Library F V fn`: `V` is an instance of `Count`, `Sum`, `SumVec`, `Histogram` or
  `MultihotCountVec` (any parameters the constructor accepts) and `fn` says which
  measurements are documented and what the aggregate of a batch is;
* `Spec.Fits V`: the gadget polynomials are not longer than `GEN_ORDER`;
* `Spec.IsSum vs v`: the vector `v` is the sum of the vectors `vs i`;
* `Spec.BadTestPoint V query_rand`: a test point `t` of a gadget satisfies `t ** p == 1`;
* `V.evalPlain meas joint_rand num_shares`: the circuit evaluated with its gadgets.
-/

namespace Vdaf
open Polynomial

variable {F : Type} [NttField F] {Meas Agg : Type}

/-! ## C12 -/

/-- C12.  `Nat.size` is `int.bit_length`. -/
theorem C12_range_checked_int (max : ℕ) (h1 : 1 ≤ max) (hm : 2 ^ Nat.size max < PyField.modulus F) :
    (∀ v : Int, 0 ≤ v → v ≤ max → ∃ (e : List F) (y : F), encodeRangeCheckedInt F v max = .ok e ∧
      e.length = Nat.size max ∧ (∀ x ∈ e, x = 0 ∨ x = 1) ∧
      decodeRangeCheckedInt e max = .ok y ∧ (PyField.toNat y : Int) = v) ∧
    (∀ e : List F, e.length = Nat.size max → (∀ x ∈ e, x = 0 ∨ x = 1) →
      ∃ y, decodeRangeCheckedInt e max = .ok y ∧ PyField.toNat y ≤ max) ∧
    (∀ v : Int, max < v →
      encodeRangeCheckedInt F v max = .error (.value "measurement is too large")) := by
  have hmm : max < PyField.modulus F := lt_trans (Nat.lt_size_self _) hm
  refine ⟨?_, ?_, ?_⟩
  · intro v h0 hv
    obtain ⟨n, rfl⟩ := Int.eq_ofNat_of_zero_le h0
    have hn : n ≤ max := by exact_mod_cast hv
    refine ⟨_, _, encodeRangeCheckedInt_eq h1 hn, by simp, ?_, decode_encode h1 hmm hn, ?_⟩
    · intro x hx
      simp only [tab, List.mem_map] at hx
      obtain ⟨l, -, rfl⟩ := hx
      exact rcbit_bit _ _ _
    · rw [PyField.toNat_natCast _ (by omega)]
  · intro e he hb
    obtain ⟨v, hv, h⟩ := decode_bits h1 hmm e he hb
    exact ⟨_, h, by rw [PyField.toNat_natCast _ (by omega)]; exact hv⟩
  · intro v hv
    unfold encodeRangeCheckedInt
    rw [raiseIf_of (by omega)]
    rfl

example : encodeRangeCheckedInt Field64 9 10 = .ok [0, 1, 1, 1] ∧
    encodeRangeCheckedInt Field64 7 10 = .ok [1, 1, 1, 0] ∧
    decodeRangeCheckedInt [(0 : Field64), 1, 1, 1] 10 = .ok 9 := by decide +kernel

/-! ## C13 -/

/-- C13: for a batch of documented measurements, `encode` and `truncate` succeed with the
advertised lengths, and `decode` of the sum of the truncated encodings is the exact
aggregate, provided the integers of the aggregate are below `MODULUS`. -/
theorem C13_encode_truncate_decode {V : Valid F Meas Agg} {fn : Spec.Fun Meas Agg}
    (hV : Spec.Library F V fn) {k : ℕ} (ms : Fin k → Meas) (hms : ∀ i, fn.valid (ms i)) :
    ∃ es os : Fin k → List F,
      (∀ i, V.encode (ms i) = .ok (es i) ∧ (es i).length = V.measLen ∧
        V.truncate (es i) = .ok (os i) ∧ (os i).length = V.outputLen) ∧
      ∀ tot : List F, Spec.IsSum os tot → tot.length = V.outputLen →
        (∀ n ∈ fn.totals (fn.agg (List.ofFn ms)), n < PyField.modulus F) →
        V.decode tot k = .ok (fn.agg (List.ofFn ms)) := by
  obtain ⟨ints, of, h1, h2, h3, h4⟩ := (Library.encFacts hV).enc
  choose es ha hb hc using fun i => h1 (ms i) (hms i)
  refine ⟨es, _, fun i => ⟨ha i, hb i, hc i, by simp⟩, ?_⟩
  intro tot hs hl hsmall
  have hag := h4 (List.ofFn ms) (by
    intro m hm
    obtain ⟨i, rfl⟩ := List.mem_ofFn.1 hm
    exact hms i)
  rw [hag, h3 _ (by simp)] at hsmall
  rw [h2 tot k hl, hag]
  congr 2
  apply List.ext_getElem
  · simp [hl]
  · intro j hj1 hj2
    rw [List.getElem_map, tab_getElem]
    have hj : j < V.outputLen := by simpa using hj2
    have hcj := (isSum_iff.1 hs).2 j
    rw [coef_of_lt (by omega)] at hcj
    simp only [coef_tab, if_pos hj] at hcj
    have hcast : (∑ i : Fin k, ((ints (ms i) j : ℕ) : F)) =
        (((List.ofFn ms).map fun m => ints m j).sum : ℕ) := by
      rw [List.map_ofFn, List.sum_ofFn]
      push_cast
      rfl
    rw [hcj, hcast, PyField.toNat_natCast]
    apply hsmall
    simp only [tab, List.mem_map, List.mem_range]
    exact ⟨j, hj, rfl⟩

/-- C13: truncation commutes with additive sharing, so each aggregator can truncate its own
share (of an arbitrary vector). -/
theorem C13_truncate_linear {V : Valid F Meas Agg} {fn : Spec.Fun Meas Agg}
    (hV : Spec.Library F V fn) {N : ℕ} (es : Fin N → List F) (e : List F)
    (he : Spec.IsSum es e) (hlen : e.length = V.measLen) :
    ∃ (os : Fin N → List F) (o : List F), V.truncate e = .ok o ∧
      (∀ i, V.truncate (es i) = .ok (os i)) ∧ Spec.IsSum os o ∧ o.length = V.outputLen :=
  (Library.encFacts hV).trunc es e he hlen

-- instances exist, and fit
example : Spec.Library Field64 (Count Field64) Spec.countFun ∧ Spec.Fits (Count Field64) :=
  ⟨.count, fits_single rfl rfl (by decide)⟩
example : ∃ V, Spec.Library Field64 V (Spec.sumFun 10) ∧ Spec.Fits V :=
  ⟨_, .sum (by decide) rfl, fits_single rfl rfl (by decide)⟩
example : ∃ V, Spec.Library Field128 V (Spec.sumVecFun 3 255) ∧ Spec.Fits V :=
  ⟨_, .sumVec (chunkLength := 4) (V := SumVec.circuit Field128 3 255 4) rfl,
    fits_single rfl rfl (by decide)⟩
example : ∃ V, Spec.Library Field128 V (Spec.histogramFun 5) ∧ Spec.Fits V :=
  ⟨_, .histogram (chunkLength := 2) (V := Histogram.circuit Field128 5 2) (by decide) rfl,
    fits_single rfl rfl (by decide)⟩
example : ∃ V, Spec.Library Field128 V (Spec.multihotFun 5 2) ∧ Spec.Fits V :=
  ⟨_, .multihot (chunkLength := 2) (V := MultihotCountVec.circuit Field128 5 2 2) rfl,
    fits_single rfl rfl (by decide)⟩
-- a concrete batch
example : (SumVec.circuit Field128 2 10 3).encode [9, 3] = .ok [0, 1, 1, 1, 1, 1, 0, 0] ∧
    (SumVec.circuit Field128 2 10 3).truncate [0, 1, 1, 1, 1, 1, 0, 0] = .ok [9, 3] ∧
    (SumVec.circuit Field128 2 10 3).decode [19, 3] 2 = .ok [19, 3] ∧
    (Spec.sumVecFun 2 10).agg [[9, 3], [10, 0]] = [19, 3] := by decide +kernel

/-! ## C14 -/

/-- C14: honestly encoded measurements are accepted, with every joint randomness. -/
theorem C14_honest_accepted {V : Valid F Meas Agg} {fn : Spec.Fun Meas Agg}
    (hV : Spec.Library F V fn) (hfit : Spec.Fits V) (m : Meas) (hm : fn.valid m) :
    ∃ e, V.encode m = .ok e ∧ ∀ jr : List F, jr.length = V.jointRandLen →
      V.evalPlain e jr 1 = .ok (List.replicate V.evalOutputLen 0) := by
  have hf := Library.facts hV hfit
  obtain ⟨ints, of, h1, -⟩ := hf.enc
  obtain ⟨e, he, -, -⟩ := h1 m hm
  exact ⟨e, he, hf.accept m e hm he⟩

example : (Histogram.circuit Field128 3 2).encode 1 = .ok [0, 1, 0] ∧
    (Histogram.circuit Field128 3 2).evalPlain [0, 1, 0] [17, 23] 1 = .ok [0, 0] := by
  decide +kernel

/-! ## C15 -/

/-- C15, `Count`: only the encodings of `0` and `1` are accepted. -/
theorem C15_count_rejects (hfit : Spec.Fits (Count F)) (meas : List F) (hm : meas.length = 1) :
    Spec.Accepts (Count F) meas [] ↔ ∃ m, Spec.countFun.valid m ∧ (Count F).encode m = .ok meas := by
  obtain ⟨x, rfl⟩ := List.length_eq_one_iff.1 hm
  unfold Spec.Accepts
  rw [Count.plain hfit hm le_rfl (one_lt_modulus F)]
  constructor
  · rintro ⟨out, ho, hz⟩
    cases ho
    rcases bit_of_mul (hz (coef [x] 0 * (coef [x] 0 - 1)) (by simp)) with h | h
    · refine ⟨0, .inl rfl, ?_⟩
      rw [Count.encode_eq (.inl rfl)]
      simp [coef] at h; simp [h]
    · refine ⟨1, .inr rfl, ?_⟩
      rw [Count.encode_eq (.inr rfl)]
      simp [coef] at h; simp [h]
  · rintro ⟨m, hv, he⟩
    refine ⟨_, rfl, ?_⟩
    rw [Count.encode_eq hv] at he
    have hx : x = (m.toNat : F) := by simpa using he.symm
    rcases hv with rfl | rfl <;> simp [coef, hx]

/-- C15, `Sum`: exactly the 0/1 vectors are accepted, and they truncate to a value in range. -/
theorem C15_sum_rejects {max : ℕ} {V : Valid F Int ℕ} (h0 : 0 < max) (hV : Sum F max = .ok V)
    (hfit : Spec.Fits V) (meas : List F) (hm : meas.length = V.measLen) :
    (Spec.Accepts V meas [] ↔ Spec.Bits meas) ∧
    (Spec.Bits meas → ∃ y, V.truncate meas = .ok [y] ∧ PyField.toNat y ≤ max) := by
  obtain ⟨h1, G, hG, rfl⟩ := Sum_ok hV
  have hmm : max < PyField.modulus F := lt_trans (Nat.lt_size_self _) h1
  refine ⟨?_, fun hb => ?_⟩
  · unfold Spec.Accepts
    rw [Sum.plain h0 hG hfit hm le_rfl (one_lt_modulus F)]
    constructor
    · rintro ⟨out, ho, hz⟩ x hx
      cases ho
      obtain ⟨i, hi, rfl⟩ := List.getElem_of_mem hx
      have := hz (coef meas i * (coef meas i - 1)) (by
        simp only [tab, List.mem_map, List.mem_range]
        exact ⟨i, lt_of_lt_of_eq hi hm, rfl⟩)
      rw [coef_of_lt hi] at this
      exact bit_of_mul this
    · intro hb
      refine ⟨_, rfl, fun x hx => ?_⟩
      simp only [tab, List.mem_map, List.mem_range] at hx
      obtain ⟨i, hi, rfl⟩ := hx
      rw [coef_of_lt (lt_of_lt_of_eq hi hm.symm)]
      exact bit_mul (hb _ (List.getElem_mem _))
  · obtain ⟨v, hv, h⟩ := decode_bits h0 hmm meas hm hb
    refine ⟨(v : F), ?_, ?_⟩
    · simp only [Sum.circuit]
      rw [h]; rfl
    · rw [PyField.toNat_natCast _ (by omega)]; exact hv

/-- C15, `SumVec`: a vector with an entry that is not a bit is accepted with few joint
randomness vectors; vectors of bits truncate to values in range. -/
theorem C15_sumvec_rejects {length max cl : ℕ} {V : Valid F (List Int) (List ℕ)}
    (hV : SumVec F length max cl = .ok V) (hfit : Spec.Fits V) (meas : List F)
    (hm : meas.length = V.measLen) :
    (¬ Spec.Bits meas →
      Set.ncard {jr : Fin V.jointRandLen → F | Spec.Accepts V meas (List.ofFn jr)} ≤
        cl * PyField.modulus F ^ (V.jointRandLen - 1)) ∧
    (Spec.Bits meas → ∃ o, V.truncate meas = .ok o ∧ o.length = length ∧
      ∀ y ∈ o, PyField.toNat y ≤ max) := by
  obtain ⟨h1, h2, h3, h4, rfl⟩ := SumVec_ok hV
  have hmm : max < PyField.modulus F := lt_trans (Nat.lt_size_self _) h4
  constructor
  · intro hb
    rw [← card_eq]
    refine le_trans (Set.ncard_le_ncard ?_ (Set.toFinite _)) (rangeSum_count h2 hm (exists_not_bit hb))
    rintro jr ⟨out, ho, hz⟩
    rw [SumVec.plain h1 h2 h3 hfit hm (jr := List.ofFn jr) List.length_ofFn] at ho
    cases ho
    exact hz _ List.mem_cons_self
  · intro hb
    have hm' : meas.length = length * Nat.size max := hm
    have hex : ∀ i < length, ∃ v ≤ max, decodeRangeCheckedInt
        (slice meas (i * Nat.size max) ((i + 1) * Nat.size max)) max = .ok (v : F) := by
      intro i hi
      have hle : (i + 1) * Nat.size max ≤ meas.length := by
        rw [hm']; exact Nat.mul_le_mul_right _ hi
      apply decode_bits h3 hmm
      · rw [slice_length _ _ _ hle, add_mul, one_mul]; omega
      · intro x hx
        exact hb x (slice_mem hx)
    choose! f hf1 hf2 using hex
    refine ⟨tab length fun i => (f i : F), ?_, by simp, ?_⟩
    · simp only [SumVec.circuit]
      exact mapRes_pure _ (fun i => (f i : F)) _ (fun i hi => hf2 i (by simpa using hi))
    · intro y hy
      simp only [tab, List.mem_map, List.mem_range] at hy
      obtain ⟨i, hi, rfl⟩ := hy
      rw [PyField.toNat_natCast _ (lt_of_le_of_lt (hf1 i hi) hmm)]
      exact hf1 i hi

/-- C15, `Histogram`: a vector that is not the encoding of a bucket is accepted with few
joint randomness vectors. -/
theorem C15_histogram_rejects {length cl : ℕ} {V : Valid F Int (List ℕ)}
    (hV : Histogram F length cl = .ok V) (hfit : Spec.Fits V)
    (hlen : length < PyField.modulus F) (meas : List F) (hm : meas.length = V.measLen)
    (hinv : ¬ ∃ m, (Spec.histogramFun length).valid m ∧ V.encode m = .ok meas) :
    Set.ncard {jr : Fin V.jointRandLen → F | Spec.Accepts V meas (List.ofFn jr)} ≤
      cl * PyField.modulus F ^ (V.jointRandLen - 1) := by
  obtain ⟨h1, h2, rfl⟩ := Histogram_ok hV
  have hm : meas.length = length := hm
  by_cases hb : Spec.Bits meas
  · have : {jr : Fin (Histogram.circuit F length cl).jointRandLen → F |
        Spec.Accepts (Histogram.circuit F length cl) meas (List.ofFn jr)} = ∅ := by
      rw [Set.eq_empty_iff_forall_notMem]
      rintro jr ⟨out, ho, hz⟩
      rw [Histogram.plain h1 h2 hfit hm (jr := List.ofFn jr) List.length_ofFn] at ho
      cases ho
      have hs := hz _ (List.mem_cons_of_mem _ (List.mem_singleton.2 rfl))
      obtain ⟨b, rfl⟩ := bits_bool meas hb
      have hbl : b.length = length := by simpa using hm
      rw [← hbl, sum_bool, sub_eq_zero] at hs
      have hc : b.count true = 1 := by
        apply natCast_inj_of_lt (F := F)
        · exact lt_of_le_of_lt (List.count_le_length) (hbl ▸ hlen)
        · exact one_lt_modulus F
        · simpa using hs
      obtain ⟨i, hi, hbi⟩ := count_one_hot b hc
      apply hinv
      refine ⟨(i : Int), ⟨by omega, by exact_mod_cast hbl ▸ hi⟩, ?_⟩
      rw [Histogram.encode_eq (hbl ▸ hi), hbi, tab_map, hbl]
      simp
    rw [this]
    simp
  · rw [← card_eq]
    refine le_trans (Set.ncard_le_ncard ?_ (Set.toFinite _)) (rangeSum_count h2 hm (exists_not_bit hb))
    rintro jr ⟨out, ho, hz⟩
    rw [Histogram.plain h1 h2 hfit hm (jr := List.ofFn jr) List.length_ofFn] at ho
    cases ho
    exact hz _ List.mem_cons_self

/-- C15, `MultihotCountVec`: unless the vector consists of bits, its first `length` entries are
a bit vector `m` of weight at most `max_weight`, and the rest decodes to the weight of `m`, it
is accepted with few joint randomness vectors. -/
theorem C15_multihot_rejects {length mw cl : ℕ} {V : Valid F (List Bool) (List ℕ)}
    (hV : MultihotCountVec F length mw cl = .ok V) (hfit : Spec.Fits V)
    (meas : List F) (hm : meas.length = V.measLen)
    (hinv : ¬ (Spec.Bits meas ∧ ∃ m : List Bool, (Spec.multihotFun length mw).valid m ∧
      V.truncate meas = .ok (m.map fun b => if b then 1 else 0) ∧
      decodeRangeCheckedInt (meas.drop length) mw = .ok (m.count true : F))) :
    Set.ncard {jr : Fin V.jointRandLen → F | Spec.Accepts V meas (List.ofFn jr)} ≤
      cl * PyField.modulus F ^ (V.jointRandLen - 1) := by
  obtain ⟨h1, h2, h3, h4, h5, rfl⟩ := MultihotCountVec_ok hV
  have hm : meas.length = length + Nat.size mw := hm
  have hmw : mw < PyField.modulus F := by omega
  by_cases hb : Spec.Bits meas
  · have : {jr : Fin (MultihotCountVec.circuit F length mw cl).jointRandLen → F |
        Spec.Accepts (MultihotCountVec.circuit F length mw cl) meas (List.ofFn jr)} = ∅ := by
      rw [Set.eq_empty_iff_forall_notMem]
      rintro jr ⟨out, ho, hz⟩
      rw [MultihotCountVec.plain h1 h2 h3 hmw hfit hm (jr := List.ofFn jr) List.length_ofFn] at ho
      cases ho
      have hs := hz _ (List.mem_cons_of_mem _ (List.mem_singleton.2 rfl))
      obtain ⟨b, hbb⟩ := bits_bool (meas.take length) fun x hx => hb x (List.mem_of_mem_take hx)
      have hbl : b.length = length := by
        have := congrArg List.length hbb
        simp [hm] at this; omega
      obtain ⟨v, hv, hdec⟩ := decode_bits h3 hmw (meas.drop length) (by simp [hm])
        fun x hx => hb x (List.mem_of_mem_drop hx)
      have hdec' := decodeRangeCheckedInt_eq h3 hmw (meas.drop length) (by simp [hm])
      rw [hdec] at hdec'
      simp only [Except.ok.injEq] at hdec'
      rw [← hdec', hbb, foldl_add, zero_add, List.length_map, sum_bool, sub_eq_zero] at hs
      have hc : b.count true = v := by
        apply natCast_inj_of_lt (F := F) _ _ hs
        · exact lt_of_le_of_lt (List.count_le_length) (hbl ▸ h5)
        · omega
      exact hinv ⟨hb, b, ⟨hbl, by omega⟩, congrArg Except.ok hbb, by rw [hdec, hc]⟩
    rw [this]
    simp
  · rw [← card_eq]
    refine le_trans (Set.ncard_le_ncard ?_ (Set.toFinite _))
      (rangeSum_count h2 hm (exists_not_bit hb))
    rintro jr ⟨out, ho, hz⟩
    rw [MultihotCountVec.plain h1 h2 h3 hmw hfit hm (jr := List.ofFn jr) List.length_ofFn] at ho
    cases ho
    exact hz _ List.mem_cons_self

-- the joint randomness matters: `[2, -1]` is invalid, and accepted with joint randomness 0
example : (Histogram.circuit Field128 2 1).evalPlain [2, -1] [0, 0] 1 = .ok [0, 0] ∧
    (Histogram.circuit Field128 2 1).evalPlain [2, -1] [5, 7] 1 = .ok [24, 0] := by
  decide +kernel

/-! ## C16 -/

/-- C16: on wire polynomials given by their values, `eval_poly` returns the values of a
polynomial whose value at any `x` (as computed by `Lagrange.poly_eval`) is the gadget applied
to the values of the wire polynomials at `x`, and which is determined by its first
`DEGREE * (p - 1) + 1` values. -/
theorem C16_eval_poly_agrees {calls : ℕ} (hc : 1 ≤ calls) {G : Gadget F}
    (hG : Spec.GadgetFor F calls G) {p : ℕ} (hp : wirePolyLen calls = .ok p)
    (hcap : gadgetPolyLen G.degree p ≤ NttField.genOrder F) (wires : List (List F))
    (hw : wires.length = G.arity) (hlen : ∀ w ∈ wires, w.length = p) :
    ∃ out, G.evalPoly wires = .ok out ∧
      (∃ k, out.length = 2 ^ k) ∧ gadgetPolyLen G.degree p ≤ out.length ∧
      extendValues (out.take (gadgetPolyLen G.degree p)) out.length = .ok out ∧
      ∀ x : F, ∃ inp y, mapRes (fun w => lagPolyEval w x) wires = .ok inp ∧
        G.eval inp = .ok y ∧ lagPolyEval out x = .ok y :=
  gadgetFor_evalPoly hc hG hp hcap wires hw hlen

-- `x(x-1)` on the wire polynomial with values `2, 0` (that is `1 + X`): `X^2 + X`
example : (do let G ← PolyEval Field64 [0, -1, 1] 1; G.evalPoly [[2, 0]]) =
    .ok [2, -1 + nthRoot Field64 2, 0, -1 - nthRoot Field64 2] := by decide +kernel
example : Spec.GadgetFor Field64 3 (ParallelSum (Mul Field64) 4) := .parallelSum .mul (by decide)

/-! ## C17 -/

/-- C17: for an accepted vector, every proof produced by `prove`, every additive sharing of
vector and proof into `N` shares: either every `query` aborts because of a root-of-unity test
point, or the sum of the query outputs is accepted by `decide`. -/
theorem C17_completeness {V : Valid F Meas Agg} {fn : Spec.Fun Meas Agg}
    (hV : Spec.Library F V fn) (hfit : Spec.Fits V) {meas jr pr qr : List F}
    (hmeas : meas.length = V.measLen) (hjr : jr.length = V.jointRandLen)
    (hpr : pr.length = V.proveRandLen) (hqr : qr.length = V.queryRandLen)
    (hacc : Spec.Accepts V meas jr) :
    ∃ π, V.prove meas pr jr = .ok π ∧ V.proofLen = .ok π.length ∧
      ∀ (N : ℕ), 1 ≤ N → N < PyField.modulus F → ∀ ms πs : Fin N → List F,
        Spec.IsSum ms meas → Spec.IsSum πs π →
        (Spec.BadTestPoint V qr ∧ ∀ i, V.query (ms i) (πs i) qr jr N = .error rootOfUnityErr) ∨
        (¬ Spec.BadTestPoint V qr ∧ ∃ (vs : Fin N → List F) (v : List F),
          (∀ i, V.query (ms i) (πs i) qr jr N = .ok (vs i)) ∧ Spec.IsSum vs v ∧
          v.length = V.verifierLen ∧ V.decide v = .ok true) :=
  (Library.facts hV hfit).lawful.complete hmeas hjr hpr hqr hacc

/-- C17, the driver: `run_flp` returns `True`, or aborts because of a root-of-unity test
point, whatever the randomness. -/
theorem C17_run_flp {V : Valid F Meas Agg} {fn : Spec.Fun Meas Agg}
    (hV : Spec.Library F V fn) (hfit : Spec.Fits V) {meas jr pr qr : List F}
    (hmeas : meas.length = V.measLen) (hjr : jr.length = V.jointRandLen)
    (hpr : pr.length = V.proveRandLen) (hqr : qr.length = V.queryRandLen)
    (hacc : Spec.Accepts V meas jr) (N : ℕ) (hN : 1 ≤ N) (hN' : N < PyField.modulus F)
    (measRands proofRands : List (List F)) (h1 : measRands.length = N - 1)
    (h2 : ∀ r ∈ measRands, r.length = V.measLen) (h3 : proofRands.length = N - 1)
    (h4 : ∀ r ∈ proofRands, V.proofLen = .ok r.length) :
    (¬ Spec.BadTestPoint V qr ∧ runFlp V meas jr pr qr measRands proofRands N = .ok true) ∨
    (Spec.BadTestPoint V qr ∧
      runFlp V meas jr pr qr measRands proofRands N = .error rootOfUnityErr) := by
  have := (Library.facts hV hfit).lawful.runFlp_eq hmeas hjr hpr hqr hacc N hN hN' measRands
    proofRands h1 h2 h3 h4
  by_cases hb : Spec.BadTestPoint V qr
  · exact .inr ⟨hb, by rw [this, if_pos hb]⟩
  · exact .inl ⟨hb, by rw [this, if_neg hb]⟩

-- a complete run with two shares
example : runFlp (Count Field64) [1] [] [5, 7] [11] [[1234]] [[1, 2, 3, 4, 5]] 2 = .ok true := by
  decide +kernel
-- an abort: the test point 1
example : runFlp (Count Field64) [1] [] [5, 7] [1] [[1234]] [[1, 2, 3, 4, 5]] 2 =
    .error rootOfUnityErr := by decide +kernel

/-! ## C18 -/

/-- C18: `query` is linear in measurement and proof, honest or not; on shares it aborts
exactly when it aborts on the whole. -/
theorem C18_query_linear {V : Valid F Meas Agg} {fn : Spec.Fun Meas Agg}
    (hV : Spec.Library F V fn) (hfit : Spec.Fits V) {N : ℕ} (hN : 1 ≤ N)
    (hN' : N < PyField.modulus F) {ms πs : Fin N → List F} {meas π qr jr : List F}
    (hms : Spec.IsSum ms meas) (hπs : Spec.IsSum πs π)
    (hmeas : meas.length = V.measLen) (hπ : V.proofLen = .ok π.length)
    (hqr : qr.length = V.queryRandLen) (hjr : jr.length = V.jointRandLen) :
    (V.query meas π qr jr 1 = .error rootOfUnityErr ∧
      ∀ i, V.query (ms i) (πs i) qr jr N = .error rootOfUnityErr) ∨
    ∃ v vs, V.query meas π qr jr 1 = .ok v ∧ (∀ i, V.query (ms i) (πs i) qr jr N = .ok (vs i)) ∧
      Spec.IsSum vs v := by
  have h := (Library.facts hV hfit).lawful
  exact h.query_sum hN hN' hms hπs hmeas
    (by rw [h.proofLen_eq] at hπ; simpa using hπ.symm) hqr hjr

/-! ## C19 -/

/-- C19: whatever the proof string `π`, a vector on which the circuit does not vanish is
accepted for at most `B * |F|^(QUERY_RAND_LEN - 1)` query randomness vectors, where `B` is any
bound on `1` and all `DEGREE_i * (p_i - 1)`. -/
theorem C19_soundness {V : Valid F Meas Agg} {fn : Spec.Fun Meas Agg}
    (hV : Spec.Library F V fn) (hfit : Spec.Fits V) {meas jr out π : List F}
    (hmeas : meas.length = V.measLen) (hjr : jr.length = V.jointRandLen)
    (hout : V.evalPlain meas jr 1 = .ok out) (hne : ∃ x ∈ out, x ≠ 0)
    (hπ : V.proofLen = .ok π.length) (B : ℕ) (hB : 1 ≤ B)
    (hB' : ∀ g c p, (g, c) ∈ List.zip V.gadgets V.gadgetCalls → wirePolyLen c = .ok p →
      g.degree * (p - 1) ≤ B) :
    Set.ncard {qr : Fin V.queryRandLen → F |
      ∃ v, V.query meas π (List.ofFn qr) jr 1 = .ok v ∧ V.decide v = .ok true} ≤
      B * PyField.modulus F ^ (V.queryRandLen - 1) := by
  have h := (Library.facts hV hfit).lawful
  rw [← card_eq]
  exact h.sound hmeas hjr hout hne (by rw [h.proofLen_eq] at hπ; simpa using hπ.symm) B hB
    (h.bound_zip B hB')

/-- C19 for a verifier working on shares: the same bound holds for any sharing of the vector
and of the proof string. -/
theorem C19_soundness_shares {V : Valid F Meas Agg} {fn : Spec.Fun Meas Agg}
    (hV : Spec.Library F V fn) (hfit : Spec.Fits V) {N : ℕ} (hN : 1 ≤ N)
    (hN' : N < PyField.modulus F) {ms πs : Fin N → List F} {meas jr out π : List F}
    (hms : Spec.IsSum ms meas) (hπs : Spec.IsSum πs π)
    (hmeas : meas.length = V.measLen) (hjr : jr.length = V.jointRandLen)
    (hout : V.evalPlain meas jr 1 = .ok out) (hne : ∃ x ∈ out, x ≠ 0)
    (hπ : V.proofLen = .ok π.length) (B : ℕ) (hB : 1 ≤ B)
    (hB' : ∀ g c p, (g, c) ∈ List.zip V.gadgets V.gadgetCalls → wirePolyLen c = .ok p →
      g.degree * (p - 1) ≤ B) :
    Set.ncard {qr : Fin V.queryRandLen → F | ∃ (vs : Fin N → List F) (v : List F),
      (∀ i, V.query (ms i) (πs i) (List.ofFn qr) jr N = .ok (vs i)) ∧ Spec.IsSum vs v ∧
        V.decide v = .ok true} ≤
      B * PyField.modulus F ^ (V.queryRandLen - 1) :=
  (Library.facts hV hfit).lawful.sound_shares hN hN' hms hπs hmeas hjr hout hne hπ B hB hB'

-- `2` is not a valid `Count`; with the (dishonest) proof `0, 0, 0, 0, 0` it is rejected at 5
example : (Count Field64).evalPlain [2] [] 1 = .ok [2] ∧
    (do let v ← (Count Field64).query [2] [0, 0, 0, 0, 0] [5] [] 1; (Count Field64).decide v) =
      .ok false := by decide +kernel

/-! ## C20 -/

/-- C20: for an accepted vector and non-aborting query randomness, the verifier message is
`0` followed by a simulated message computed, without the measurement, from a vector that is a
bijective function of `prove_rand`. -/
theorem C20_zero_knowledge {V : Valid F Meas Agg} {fn : Spec.Fun Meas Agg}
    (hV : Spec.Library F V fn) (hfit : Spec.Fits V) {meas jr qr : List F}
    (hmeas : meas.length = V.measLen) (hjr : jr.length = V.jointRandLen)
    (hqr : qr.length = V.queryRandLen) (hacc : Spec.Accepts V meas jr)
    (hgood : ¬ Spec.BadTestPoint V qr) :
    ∃ f : (Fin V.proveRandLen → F) ≃ (Fin V.proveRandLen → F), ∀ pr,
      ∃ π s, V.prove meas (List.ofFn pr) jr = .ok π ∧
        Spec.simulate V.gadgets (List.ofFn (f pr)) = .ok s ∧
        V.query meas π qr jr 1 = .ok (0 :: s) := by
  obtain ⟨out, h1, h2⟩ := hacc
  exact (Library.facts hV hfit).lawful.zk hmeas hjr h1 h2 hqr hgood

/-- C20, as indistinguishability: for two accepted vectors there is a bijection of the prover
randomness under which the verifier messages coincide. -/
theorem C20_same_distribution {V : Valid F Meas Agg} {fn : Spec.Fun Meas Agg}
    (hV : Spec.Library F V fn) (hfit : Spec.Fits V) {meas meas' jr qr : List F}
    (hmeas : meas.length = V.measLen) (hmeas' : meas'.length = V.measLen)
    (hjr : jr.length = V.jointRandLen)
    (hqr : qr.length = V.queryRandLen) (hacc : Spec.Accepts V meas jr)
    (hacc' : Spec.Accepts V meas' jr) (hgood : ¬ Spec.BadTestPoint V qr) :
    ∃ f : (Fin V.proveRandLen → F) ≃ (Fin V.proveRandLen → F), ∀ pr,
      ∃ π π' v, V.prove meas (List.ofFn pr) jr = .ok π ∧
        V.prove meas' (List.ofFn (f pr)) jr = .ok π' ∧
        V.query meas π qr jr 1 = .ok v ∧ V.query meas' π' qr jr 1 = .ok v := by
  obtain ⟨f, hf⟩ := C20_zero_knowledge hV hfit hmeas hjr hqr hacc hgood
  obtain ⟨f', hf'⟩ := C20_zero_knowledge hV hfit hmeas' hjr hqr hacc' hgood
  refine ⟨f.trans f'.symm, fun pr => ?_⟩
  obtain ⟨π, s, h1, h2, h3⟩ := hf pr
  obtain ⟨π', s', h1', h2', h3'⟩ := hf' (f'.symm (f pr))
  rw [Equiv.apply_symm_apply] at h2'
  have : s = s' := by rw [h2] at h2'; simpa using h2'
  subst this
  exact ⟨π, π', _, h1, h1', h3, h3'⟩

-- the hypotheses are met by the two valid measurements of `Count`, and the message of an honest
-- run is `0` followed by a simulated message
example : (Count Field64).evalPlain [0] [] 1 = .ok [0] ∧
    (Count Field64).evalPlain [1] [] 1 = .ok [0] := by decide +kernel
example :
    (do let π ← (Count Field64).prove [1] [5, 7] []; (Count Field64).query [1] π [11] [] 1) =
    (do let s ← Spec.simulate [Mul Field64] [25, 37]; return 0 :: s) := by decide +kernel

/-! ## C21 -/

/-- C21: `prove` never fails and returns `PROOF_LEN` elements; `query` returns `VERIFIER_LEN`
elements, or aborts on a root-of-unity test point; `decide` never fails. -/
theorem C21_lengths {V : Valid F Meas Agg} {fn : Spec.Fun Meas Agg}
    (hV : Spec.Library F V fn) (hfit : Spec.Fits V) :
    (∀ meas pr jr : List F, meas.length = V.measLen → pr.length = V.proveRandLen →
      jr.length = V.jointRandLen →
      ∃ π, V.prove meas pr jr = .ok π ∧ V.proofLen = .ok π.length) ∧
    (∀ (meas π qr jr : List F) (N : ℕ), meas.length = V.measLen → V.proofLen = .ok π.length →
      qr.length = V.queryRandLen → jr.length = V.jointRandLen → 1 ≤ N →
      N < PyField.modulus F →
      V.query meas π qr jr N = .error rootOfUnityErr ∨
      ∃ v, V.query meas π qr jr N = .ok v ∧ v.length = V.verifierLen) ∧
    (∀ v : List F, v.length = V.verifierLen → ∃ b, V.decide v = .ok b) := by
  have h := (Library.facts hV hfit).lawful
  refine ⟨fun meas pr jr h1 h2 h3 => h.prove_total h1 h2 h3,
    fun meas π qr jr N h1 h2 h3 h4 h5 h6 => ?_, fun v hv => h.decide_total v hv⟩
  rcases h.query_total h1 h2 h3 h4 h5 h6 with ⟨-, hq⟩ | ⟨-, hq⟩
  · exact .inl hq
  · exact .inr hq

/-- C21, the lengths spelled out for each gadget list. -/
theorem C21_length_formulas {F Meas Agg : Type} (V : Valid F Meas Agg) :
    V.proofLen = .ok ((List.zip V.gadgets V.gadgetCalls).map fun gc =>
        gc.1.arity + (gc.1.degree * (2 ^ Nat.size gc.2 - 1) + 1)).sum ∧
    V.verifierLen = 1 + (V.gadgets.map fun g => g.arity + 1).sum := by
  constructor
  · unfold Valid.proofLen
    have : ∀ (l : List (Gadget F × ℕ)) (n : ℕ), forFold l n (fun length x => do
        let p ← wirePolyLen x.2
        return length + (x.1.arity + gadgetPolyLen x.1.degree p)) =
        .ok (n + (l.map fun gc => gc.1.arity + (gc.1.degree * (2 ^ Nat.size gc.2 - 1) + 1)).sum) := by
      intro l
      induction l with
      | nil => intro n; rfl
      | cons a l ih =>
        intro n
        rw [forFold_cons, wirePolyLen_ok.2 rfl]
        simp only [Except.ok_bind', Except.pure_eq', gadgetPolyLen] at ih ⊢
        rw [ih]
        simp only [List.map_cons, List.sum_cons]
        congr 1; omega
    exact (this _ 0).trans (by rw [zero_add])
  · unfold Valid.verifierLen
    have : ∀ (l : List (Gadget F)) (n : ℕ), l.foldl (fun length g => length + (g.arity + 1)) n =
        n + (l.map fun g => g.arity + 1).sum := by
      intro l
      induction l with
      | nil => intro n; rfl
      | cons a l ih =>
        intro n
        simp only [List.foldl_cons, ih, List.map_cons, List.sum_cons]; omega
    exact this _ 1

example : (Count Field64).proofLen = .ok 5 ∧ (Count Field64).verifierLen = 4 := by decide +kernel

/-! ## C22 -/

/-- C22: `query` (on well-sized arguments, any measurement and proof) raises exactly when some
test point is a root of unity of the order of its gadget's wire polynomials. -/
theorem C22_query_aborts_iff {V : Valid F Meas Agg} {fn : Spec.Fun Meas Agg}
    (hV : Spec.Library F V fn) (hfit : Spec.Fits V) {meas π qr jr : List F} {N : ℕ}
    (hmeas : meas.length = V.measLen) (hπ : V.proofLen = .ok π.length)
    (hqr : qr.length = V.queryRandLen) (hjr : jr.length = V.jointRandLen)
    (hN : 1 ≤ N) (hN' : N < PyField.modulus F) :
    ((∃ e, V.query meas π qr jr N = .error e) ↔ Spec.BadTestPoint V qr) ∧
    (∀ e, V.query meas π qr jr N = .error e → e = rootOfUnityErr) := by
  rcases (Library.facts hV hfit).lawful.query_total hmeas hπ hqr hjr hN hN' with ⟨hb, hq⟩ | ⟨hb, v, hq, -⟩
  · rw [hq]
    exact ⟨⟨fun _ => hb, fun _ => ⟨_, rfl⟩⟩, fun e he => (Except.error.inj he).symm⟩
  · rw [hq]
    exact ⟨⟨fun h => (by obtain ⟨e, he⟩ := h; cases he), fun h => absurd h hb⟩,
      fun e he => (by cases he)⟩

-- `-1` is a square root of 1, and the wire polynomials of `Count` have length 2
example : (Count Field64).query [1] [0, 0, 0, 0, 0] [-1] [] 1 = .error rootOfUnityErr ∧
    ∃ v, (Count Field64).query [1] [0, 0, 0, 0, 0] [2] [] 1 = .ok v :=
  ⟨by decide +kernel, [-1, -2⁻¹, -2⁻¹, 0], by decide +kernel⟩

/-! ## C46 -/

/-- C46: the shares have the right number and lengths and add up to the input. -/
theorem C46_shares_sum (vec : List F) (rands : List (List F))
    (hr : ∀ r ∈ rands, r.length = vec.length) :
    ∃ s, additiveSecretShare vec rands = .ok s ∧ s.length = rands.length + 1 ∧
      Spec.IsSum (fun i : Fin s.length => s[i]) vec :=
  ⟨_, additiveSecretShare_eq hr, by simp, share_isSum hr⟩

/-- C46: any all-but-one shares are uniform, whatever the input: leaving out share `j`, every
choice `t` of the other shares arises from exactly one choice of the random vectors. -/
theorem C46_shares_hide (vec : List F) {k j : ℕ} (hj : j ≤ k) (t : List (List F)) (ht : t.length = k)
    (htl : ∀ v ∈ t, v.length = vec.length) :
    ∃! rands : List (List F), rands.length = k ∧ (∀ r ∈ rands, r.length = vec.length) ∧
      ∃ s, additiveSecretShare vec rands = .ok s ∧ s.eraseIdx j = t :=
  share_unique hj ht htl

example : additiveSecretShare [(5 : Field64), 6] [[1, 1], [2, 7]] = .ok [[1, 1], [2, 7], [2, -2]] := by
  decide +kernel

/-! ## C47 -/

/-- C47 for `Count`. -/
theorem C47_count_rejects (m : Int) (hm : ¬ Spec.countFun.valid m) :
    ∃ e, (Count F).encode m = .error e := by
  simp only [Count]
  rw [raiseIf_of (by
    intro h
    apply hm
    show m = 0 ∨ m = 1
    omega)]
  exact ⟨_, rfl⟩

/-- C47 for `SumVec`: wrong length, negative and too large entries. -/
theorem C47_sumvec_rejects {length max cl : ℕ} {V : Valid F (List Int) (List Nat)}
    (hV : SumVec F length max cl = .ok V) (m : List Int)
    (hm : ¬ (Spec.sumVecFun length max).valid m) : ∃ e, V.encode m = .error e := by
  obtain ⟨h1, h2, h3, h4, rfl⟩ := SumVec_ok hV
  simp only [SumVec.circuit]
  by_cases hl : m.length = length
  · rw [raiseIf_of_not (by simpa using hl)]
    simp only [Except.ok_bind']
    have : ∃ x ∈ m, ¬ (0 ≤ x ∧ x ≤ (max : Int)) := by
      by_contra hc
      push Not at hc
      exact hm ⟨hl, hc⟩
    obtain ⟨x, hx, hb⟩ := this
    refine forFold_error _ _ _ hx fun acc => ?_
    rw [raiseIf_of (by omega)]
    exact ⟨_, rfl⟩
  · rw [raiseIf_of (by simpa using hl)]
    exact ⟨_, rfl⟩

/-- C47 for `MultihotCountVec`: wrong length and too large weight (entries are `bool`s by
type). -/
theorem C47_multihot_rejects {length mw cl : ℕ} {V : Valid F (List Bool) (List Nat)}
    (hV : MultihotCountVec F length mw cl = .ok V) (m : List Bool)
    (hm : ¬ (Spec.multihotFun length mw).valid m) : ∃ e, V.encode m = .error e := by
  obtain ⟨h1, h2, h3, h4, h5, rfl⟩ := MultihotCountVec_ok hV
  simp only [MultihotCountVec.circuit]
  by_cases hl : m.length = length
  · rw [raiseIf_of_not (by simpa using hl)]
    simp only [Except.ok_bind']
    have hw : mw < m.count true := by
      by_contra hc
      exact hm ⟨hl, by omega⟩
    rw [mapRes_pure _ (fun b : Bool => (b.toNat : F)) _ (fun b _ => ofInt_nat (by
      have := one_lt_modulus F
      have := Bool.toNat_le b
      omega))]
    simp only [Except.ok_bind']
    unfold encodeRangeCheckedInt
    rw [raiseIf_of (by rw [sum_toNat]; exact_mod_cast hw)]
    exact ⟨_, rfl⟩
  · rw [raiseIf_of (by simpa using hl)]
    exact ⟨_, rfl⟩

/-- C47 for `Sum`, missing: negative measurements (see `C47_sum_accepts_negative`). -/
theorem C47_sum_rejects_partial {max : ℕ} {V : Valid F Int Nat} (hV : Sum F max = .ok V)
    (m : Int) (hm : max < m) : ∃ e, V.encode m = .error e := by
  obtain ⟨h1, G, hG, rfl⟩ := Sum_ok hV
  simp only [Sum.circuit]
  unfold encodeRangeCheckedInt
  rw [raiseIf_of (by omega)]
  exact ⟨_, rfl⟩

/-- C47 for `Histogram`, missing: the measurements `-length, ..., -1`
(see `C47_histogram_accepts_negative`). -/
theorem C47_histogram_rejects_partial {length cl : ℕ} {V : Valid F Int (List Nat)}
    (hV : Histogram F length cl = .ok V) (m : Int) (hm : length ≤ m ∨ m < -length) :
    ∃ e, V.encode m = .error e := by
  obtain ⟨h1, h2, rfl⟩ := Histogram_ok hV
  simp only [Histogram.circuit, setPy]
  by_cases h0 : 0 ≤ m
  · rw [if_pos h0]
    refine ⟨.index, ?_⟩
    unfold setI
    rw [if_neg (by simp; omega)]
  · rw [if_neg h0, if_neg (by simp; omega)]
    exact ⟨_, rfl⟩

/-- C47 is false for `Sum`: `-1` is encoded like `7` when `max_measurement` is `10`. -/
theorem C47_sum_accepts_negative :
    ∃ V, Sum Field64 10 = .ok V ∧ V.encode (-1) = .ok [1, 1, 1, 0] := by
  obtain ⟨G, hG⟩ : ∃ G, PolyEval Field64 [0, -1, 1] (Nat.size 10) = .ok G := ⟨_, rfl⟩
  refine ⟨Sum.circuit Field64 10 G, ?_, by simp only [Sum.circuit]; decide +kernel⟩
  unfold Sum
  rw [raiseIf_of_not (by decide +kernel), hG]
  rfl

/-- C47 is false for `Histogram`: `-1` is counted in the last bucket. -/
theorem C47_histogram_accepts_negative :
    ∃ V, Histogram Field64 4 2 = .ok V ∧ V.encode (-1) = .ok [0, 0, 0, 1] :=
  ⟨Histogram.circuit Field64 4 2, rfl, by decide +kernel⟩

end Vdaf
