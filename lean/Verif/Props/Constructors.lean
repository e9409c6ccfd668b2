import Verif.Model.Constructors
import Verif.Proofs.Prio3Inst

/-!
# C53: constructors accept exactly the documented parameters

Helper lemmas first, then the property theorems.
-/

namespace Vdaf

namespace Spec

/-- The constructor call returns an object with the property `post` if its parameters satisfy `c`, and raises
`ValueError` otherwise. -/
def AcceptsExactly {α : Type} (c : Prop) (r : Res α) (post : α → Prop) : Prop :=
  (c → ∃ a, r = .ok a ∧ post a) ∧ (¬ c → ∃ m, r = .error (.value m))

/-- The attributes of a Prio3 object that other parties must agree on: the algorithm identifier, the numbers of Aggregators and
of proofs, and the sizes in bytes of the verification key, the nonce and the client's randomness. -/
def Attributes {prims : Prims} {fuel : ℕ} {F : Type} [NttField F] {Meas Agg : Type} (id : ℕ) (shares : ℤ)
    (proofs seeds : ℕ) (P : Prio3 (XofTurboShake128 prims fuel) F Meas Agg) : Prop :=
  P.vdaf.id = id ∧ (P.vdaf.shares : ℤ) = shares ∧ P.proofs = proofs ∧ P.vdaf.verifyKeySize = 32 ∧
    P.vdaf.nonceSize = 16 ∧ P.vdaf.randSize = 32 * seeds

end Spec

theorem proofLen_single {F : Type} {Meas Agg : Type} {V : Valid F Meas Agg} {g : Gadget F} {c : ℕ}
    (hg : V.gadgets = [g]) (hc : V.gadgetCalls = [c]) : ∃ n, V.proofLen = .ok n := by
  unfold Valid.proofLen
  rw [hg, hc]
  obtain ⟨p, hp⟩ : ∃ p, wirePolyLen c = .ok p := ⟨_, wirePolyLen_ok.2 rfl⟩
  exact ⟨_, by simp [forFold, hp]; rfl⟩

theorem Prio3.new_exact {F Meas Agg : Type} {id : ℕ} {X : Xof} {shares : ℤ} {V : Valid F Meas Agg} {k : ℕ}
    (h : ∃ n, V.proofLen = .ok n) :
    Spec.AcceptsExactly (2 ≤ shares ∧ shares ≤ 255) (Prio3.new id X shares V k) fun P =>
      Prio3.init id X shares.toNat V k = .ok P ∧ P.id = id ∧ (P.shares : ℤ) = shares ∧ P.proofs = k ∧ P.flp = V := by
  obtain ⟨n, hn⟩ := h
  unfold Prio3.new
  rw [hn]
  simp only [Except.ok_bind']
  refine ⟨fun hc => ?_, fun hc => ?_⟩
  · rw [raiseIf_of_not (by omega)]
    refine ⟨_, rfl, ?_, rfl, ?_, rfl, rfl⟩
    · exact Prio3.init_ok.2 ⟨n, hn, by omega, by omega, rfl⟩
    · simp; omega
  · rw [raiseIf_of (by omega)]
    exact ⟨_, rfl⟩

theorem Spec.AcceptsExactly.bind {α β : Type} {c d : Prop} {r : Res α} {f : α → Res β} {post : α → Prop}
    {post' : β → Prop} (h : Spec.AcceptsExactly c r post) (h' : ∀ a, r = .ok a → post a → Spec.AcceptsExactly d (f a) post') :
    Spec.AcceptsExactly (c ∧ d) (r >>= f) post' := by
  by_cases hc : c
  · obtain ⟨a, ha, hp⟩ := h.1 hc
    rw [ha]
    exact ⟨fun hh => (h' a ha hp).1 hh.2, fun hh => (h' a ha hp).2 fun hd => hh ⟨hc, hd⟩⟩
  · obtain ⟨m, hm⟩ := h.2 hc
    rw [hm]
    exact ⟨fun hh => absurd hh.1 hc, fun _ => ⟨m, rfl⟩⟩

theorem Spec.AcceptsExactly.mono {α : Type} {c d : Prop} {r : Res α} {post post' : α → Prop}
    (h : Spec.AcceptsExactly c r post) (hcd : d ↔ c) (hp : ∀ a, c → r = .ok a → post a → post' a) :
    Spec.AcceptsExactly d r post' := by
  refine ⟨fun hd => ?_, fun hd => h.2 (fun hc => hd (hcd.2 hc))⟩
  obtain ⟨a, ha, hq⟩ := h.1 (hcd.1 hd)
  exact ⟨a, ha, hp a (hcd.1 hd) ha hq⟩

theorem acceptsExactly_raiseIf {α : Type} {c d : Prop} [Decidable c] {m : String} {r : Res α} {post : α → Prop}
    (h : ¬ c → Spec.AcceptsExactly d r post) :
    Spec.AcceptsExactly (¬ c ∧ d) (raiseIf (decide c) m >>= fun _ => r) post := by
  by_cases hc : c
  · rw [raiseIf_of hc]
    exact ⟨fun hh => absurd hc hh.1, fun _ => ⟨m, rfl⟩⟩
  · rw [raiseIf_of_not hc]
    exact ⟨fun hh => (h hc).1 hh.2, fun hh => (h hc).2 fun hd => hh ⟨hc, hd⟩⟩

theorem acceptsExactly_ok {α : Type} {a : α} {post : α → Prop} (h : post a) :
    Spec.AcceptsExactly True (.ok a : Res α) post := ⟨fun _ => ⟨a, rfl, h⟩, fun h => absurd trivial h⟩

theorem numCalls_le_iff {n c : ℕ} (hc : 0 < c) (k : ℕ) : numCalls n c ≤ k ↔ n ≤ k * c := by
  unfold numCalls
  rw [Nat.div_le_iff_le_mul_add_pred hc, Nat.mul_comm]
  omega

theorem proofLen_sum {F : Type} [NttField F] {max : ℕ} {V : Valid F Int Nat} (h : Sum F max = .ok V) :
    (∃ n, V.proofLen = .ok n) ∧ V.jointRandLen = 0 ∧ V.measLen = Nat.size max ∧ V.outputLen = 1 := by
  unfold Sum at h
  rw [Except.bind_eq_ok] at h
  obtain ⟨-, -, h⟩ := h
  rw [Except.bind_eq_ok] at h
  obtain ⟨g, -, h⟩ := h
  cases h
  exact ⟨proofLen_single rfl rfl, rfl, rfl, rfl⟩

theorem PolyEval_sum_ok (F : Type) [NttField F] (n : ℕ) : ∃ g, PolyEval F [0, -1, 1] n = .ok g := by
  unfold PolyEval
  obtain ⟨p, hp⟩ : ∃ p, wirePolyLen n = .ok p := ⟨_, wirePolyLen_ok.2 rfl⟩
  have h0 : polyEvalStrip [0, -1, 1] ([0, -1, 1] : List ℤ).length = .ok [0, -1, 1] := by decide
  rw [h0]
  simp only [Except.ok_bind']
  rw [raiseIf_of_not (by simp), hp]
  simp only [Except.ok_bind']
  rw [nextPowerOf2_of_pos (by unfold gadgetPolyLen; omega)]
  exact ⟨_, rfl⟩

section circuits
variable {F : Type} [NttField F]

/-- **C53** `Sum(field, max_measurement)` accepts a natural number exactly if the next power of two is below the modulus.  (In
particular `0` is accepted, although the documentation of the circuit asks for a positive maximum.) -/
theorem C53_sum (max : ℕ) :
    Spec.AcceptsExactly (2 ^ Nat.size max < PyField.modulus F) (Sum F max) fun V =>
      V.measLen = Nat.size max ∧ V.outputLen = 1 ∧ V.jointRandLen = 0 := by
  unfold Sum
  have := acceptsExactly_raiseIf (c := 2 ^ Nat.size max ≥ PyField.modulus F) (d := True)
    (m := "bound exceeds field modulus") (r := (do
      let gadget ← PolyEval F [0, -1, 1] (Nat.size max)
      return Sum.circuit F max gadget)) (post := fun V =>
      V.measLen = Nat.size max ∧ V.outputLen = 1 ∧ V.jointRandLen = 0) fun _ => by
    obtain ⟨g, hg⟩ := PolyEval_sum_ok F (Nat.size max)
    rw [hg]
    exact acceptsExactly_ok ⟨rfl, rfl, rfl⟩
  exact this.mono (by simp) fun _ _ _ h => h

example : ∃ V, Sum Field64 255 = .ok V := by
  obtain ⟨V, h, -⟩ := (C53_sum (F := Field64) 255).1 (by decide +kernel)
  exact ⟨V, h⟩

/-- **C53** `Histogram(field, length, chunk_length)` accepts exactly positive lengths; it encodes to `length` field elements,
outputs `length`, and uses as many elements of joint randomness as there are chunks. -/
theorem C53_histogram (length chunkLength : ℤ) :
    Spec.AcceptsExactly (0 < length ∧ 0 < chunkLength) (Histogram.new F length chunkLength) fun V =>
      Histogram F length.toNat chunkLength.toNat = .ok V ∧ (V.measLen : ℤ) = length ∧ (V.outputLen : ℤ) = length ∧
      ∀ k : ℕ, V.jointRandLen ≤ k ↔ length ≤ k * chunkLength := by
  unfold Histogram.new
  refine (acceptsExactly_raiseIf fun h1 => acceptsExactly_raiseIf fun h2 => acceptsExactly_ok ?_).mono
    (by simp) fun _ _ _ h => h
  refine ⟨?_, ?_, ?_, fun k => ?_⟩
  · unfold Histogram
    rw [raiseIf_of_not (by omega), raiseIf_of_not (by omega)]; rfl
  · simp [Histogram.circuit]; omega
  · simp [Histogram.circuit]; omega
  · simp only [Histogram.circuit]
    rw [numCalls_le_iff (by omega)]
    zify
    rw [Int.toNat_of_nonneg (by omega), Int.toNat_of_nonneg (by omega)]

/-- **C53** `SumVec(field, length, max_measurement, chunk_length)` -/
theorem C53_sumvec (length max chunkLength : ℤ) :
    Spec.AcceptsExactly (0 < length ∧ 0 < chunkLength ∧ 0 < max ∧ 2 ^ Nat.size max.toNat < PyField.modulus F)
      (SumVec.new F length max chunkLength) fun V =>
      SumVec F length.toNat max.toNat chunkLength.toNat = .ok V ∧ (V.measLen : ℤ) = length * Nat.size max.toNat ∧
      (V.outputLen : ℤ) = length ∧ ∀ k : ℕ, V.jointRandLen ≤ k ↔ length * Nat.size max.toNat ≤ k * chunkLength := by
  unfold SumVec.new
  refine (acceptsExactly_raiseIf fun h1 => acceptsExactly_raiseIf fun h2 => acceptsExactly_raiseIf fun h3 =>
    acceptsExactly_raiseIf fun h4 => acceptsExactly_ok ?_).mono (by simp) fun _ _ _ h => h
  refine ⟨?_, ?_, ?_, fun k => ?_⟩
  · unfold SumVec
    rw [raiseIf_of_not (by omega), raiseIf_of_not (by omega), raiseIf_of_not (by omega), raiseIf_of_not h4]; rfl
  · simp only [SumVec.circuit]; push_cast; rw [Int.toNat_of_nonneg (by omega)]
  · simp [SumVec.circuit]; omega
  · simp only [SumVec.circuit]
    rw [numCalls_le_iff (by omega)]
    zify
    rw [Int.toNat_of_nonneg (by omega), Int.toNat_of_nonneg (by omega)]

/-- **C53** `MultihotCountVec(field, length, max_weight, chunk_length)` -/
theorem C53_multihot (length maxWeight chunkLength : ℤ) :
    Spec.AcceptsExactly (0 < maxWeight ∧ maxWeight ≤ length ∧ length < PyField.modulus F ∧ 0 < chunkLength)
      (MultihotCountVec.new F length maxWeight chunkLength) fun V =>
      MultihotCountVec F length.toNat maxWeight.toNat chunkLength.toNat = .ok V ∧
      (V.measLen : ℤ) = length + Nat.size maxWeight.toNat ∧ (V.outputLen : ℤ) = length ∧
      ∀ k : ℕ, V.jointRandLen ≤ k ↔ length + Nat.size maxWeight.toNat ≤ k * chunkLength := by
  unfold MultihotCountVec.new
  refine (acceptsExactly_raiseIf fun h1 => acceptsExactly_raiseIf fun h2 => acceptsExactly_raiseIf fun h3 =>
    acceptsExactly_raiseIf fun h4 => acceptsExactly_raiseIf fun h5 => acceptsExactly_ok ?_).mono
    (by simp only [and_true]; constructor <;> intro h <;> omega) fun _ _ _ h => h
  refine ⟨?_, ?_, ?_, fun k => ?_⟩
  · unfold MultihotCountVec
    rw [raiseIf_of_not (by omega), raiseIf_of_not (by omega), raiseIf_of_not (by omega), raiseIf_of_not (by omega),
      raiseIf_of_not (by omega)]; rfl
  · simp only [MultihotCountVec.circuit]; push_cast; rw [Int.toNat_of_nonneg (by omega)]
  · simp [MultihotCountVec.circuit]; omega
  · simp only [MultihotCountVec.circuit]
    rw [numCalls_le_iff (by omega)]
    zify
    rw [Int.toNat_of_nonneg (by omega), Int.toNat_of_nonneg (by omega)]

end circuits

theorem attributes_of {prims : Prims} {fuel : ℕ} {F : Type} [NttField F] {Meas Agg : Type} {id k seeds : ℕ} {shares : ℤ}
    {P : Prio3 (XofTurboShake128 prims fuel) F Meas Agg} {V : Valid F Meas Agg} (h : P.id = id ∧ (P.shares : ℤ) = shares ∧ P.proofs = k ∧ P.flp = V)
    (hs : (seeds : ℤ) = if 0 < V.jointRandLen then 2 * shares else shares) : Spec.Attributes id shares k seeds P := by
  obtain ⟨h1, h2, h3, h4⟩ := h
  refine ⟨h1, h2, h3, rfl, rfl, ?_⟩
  show P.randSize = _
  unfold Prio3.randSize Prio3.numSeeds
  rw [h4]
  show _ * 32 = _
  by_cases hj : 0 < V.jointRandLen
  · rw [if_pos hj] at hs ⊢; omega
  · rw [if_neg hj] at hs ⊢; omega

section prio3
variable (prims : Prims) (fuel : ℕ) (shares : ℤ)

/-- **C53** `Prio3Count(shares)` accepts exactly 2 to 255 shares. -/
theorem C53_prio3_count :
    Spec.AcceptsExactly (2 ≤ shares ∧ shares ≤ 255) (Prio3Count.new prims fuel shares) fun P =>
      Prio3Count prims fuel shares.toNat = .ok P ∧ Spec.Attributes 1 shares 1 shares.toNat P := by
  refine (Prio3.new_exact (proofLen_single rfl rfl)).mono Iff.rfl fun P hc _ h => ⟨h.1, attributes_of h.2 ?_⟩
  show _ = if 0 < 0 then _ else _
  simp; omega

/-- **C53** `Prio3Sum(shares, max_measurement)` -/
theorem C53_prio3_sum (max : ℕ) :
    Spec.AcceptsExactly ((2 ≤ shares ∧ shares ≤ 255) ∧ 2 ^ Nat.size max < PyField.modulus Field64)
      (Prio3Sum.new prims fuel shares max) fun P =>
      Prio3Sum prims fuel shares.toNat max = .ok P ∧ Spec.Attributes 2 shares 1 shares.toNat P ∧
      P.flp.measLen = Nat.size max := by
  unfold Prio3Sum.new
  refine ((C53_sum max).bind fun V hV hV' => (Prio3.new_exact (proofLen_sum hV).1).mono Iff.rfl
    fun P hc hP h => (?_ : (fun P => _ ∧ _ ∧ _) P)).mono And.comm fun _ _ _ h => h
  refine ⟨?_, attributes_of h.2 ?_, ?_⟩
  · unfold Prio3Sum; rw [hV]; exact h.1
  · rw [hV'.2.2]; simp; omega
  · rw [h.2.2.2.2]; exact hV'.1

theorem pos_of_le_iff {n : ℕ} {m c : ℤ} (hm : 0 < m) (h : ∀ k : ℕ, n ≤ k ↔ m ≤ k * c) : 0 < n := by
  by_contra hn
  have := (h 0).1 (by omega)
  simp at this; omega

/-- **C53** `Prio3Histogram(shares, length, chunk_length)` -/
theorem C53_prio3_histogram (length chunkLength : ℤ) :
    Spec.AcceptsExactly ((2 ≤ shares ∧ shares ≤ 255) ∧ 0 < length ∧ 0 < chunkLength)
      (Prio3Histogram.new prims fuel shares length chunkLength) fun P =>
      Prio3Histogram prims fuel shares.toNat length.toNat chunkLength.toNat = .ok P ∧
      Spec.Attributes 4 shares 1 (2 * shares.toNat) P ∧ (P.flp.measLen : ℤ) = length := by
  unfold Prio3Histogram.new
  refine ((Spec.AcceptsExactly.mono (C53_histogram length chunkLength) Iff.rfl fun V hc hV h => And.intro hc h).bind
    fun V hV hV' => (Prio3.new_exact ?_).mono Iff.rfl fun P hc hP h => (?_ : (fun P => _ ∧ _ ∧ _) P)).mono And.comm fun _ _ _ h => h
  · have := hV'.2.1
    rw [Histogram, raiseIf_of_not (by omega), raiseIf_of_not (by omega)] at this
    cases this
    exact proofLen_single rfl rfl
  · refine ⟨?_, attributes_of h.2 ?_, ?_⟩
    · unfold Prio3Histogram; rw [hV'.2.1]; exact h.1
    · rw [if_pos (pos_of_le_iff hV'.1.1 hV'.2.2.2.2)]; omega
    · rw [h.2.2.2.2]; exact hV'.2.2.1

/-- **C53** `Prio3SumVec(shares, length, max_measurement, chunk_length)` -/
theorem C53_prio3_sumvec (length max chunkLength : ℤ) :
    Spec.AcceptsExactly ((2 ≤ shares ∧ shares ≤ 255) ∧ 0 < length ∧ 0 < chunkLength ∧ 0 < max ∧
        2 ^ Nat.size max.toNat < PyField.modulus Field128)
      (Prio3SumVec.new prims fuel shares length max chunkLength) fun P =>
      Prio3SumVec prims fuel shares.toNat length.toNat max.toNat chunkLength.toNat = .ok P ∧
      Spec.Attributes 3 shares 1 (2 * shares.toNat) P ∧ (P.flp.measLen : ℤ) = length * Nat.size max.toNat := by
  unfold Prio3SumVec.new
  refine ((Spec.AcceptsExactly.mono (C53_sumvec length max chunkLength) Iff.rfl fun V hc hV h => And.intro hc h).bind
    fun V hV hV' => (Prio3.new_exact ?_).mono Iff.rfl fun P hc hP h => (?_ : (fun P => _ ∧ _ ∧ _) P)).mono And.comm fun _ _ _ h => h
  · have := hV'.2.1
    rw [SumVec, raiseIf_of_not (by omega), raiseIf_of_not (by omega), raiseIf_of_not (by omega),
      raiseIf_of_not (by have := hV'.1.2.2.2; omega)] at this
    cases this
    exact proofLen_single rfl rfl
  · refine ⟨?_, attributes_of h.2 ?_, ?_⟩
    · unfold Prio3SumVec; rw [hV'.2.1]; exact h.1
    · rw [if_pos (pos_of_le_iff (Int.mul_pos hV'.1.1 (by exact_mod_cast Nat.size_pos.2 (by omega))) hV'.2.2.2.2)]; omega
    · rw [h.2.2.2.2]; exact hV'.2.2.1

/-- **C53** `Prio3SumVecWithMultiproof(shares, field, num_proofs, length, max_measurement, chunk_length)` -/
theorem C53_prio3_multiproof (F : Type) [NttField F] (proofs : ℕ) (length max chunkLength : ℤ) :
    Spec.AcceptsExactly ((2 ≤ shares ∧ shares ≤ 255) ∧ 0 < length ∧ 0 < chunkLength ∧ 0 < max ∧
        2 ^ Nat.size max.toNat < PyField.modulus F)
      (Prio3SumVecWithMultiproof.new prims fuel shares F proofs length max chunkLength) fun P =>
      Prio3SumVecWithMultiproof prims fuel shares.toNat F proofs length.toNat max.toNat chunkLength.toNat = .ok P ∧
      Spec.Attributes (2 ^ 32 - 1) shares proofs (2 * shares.toNat) P ∧ (P.flp.measLen : ℤ) = length * Nat.size max.toNat := by
  unfold Prio3SumVecWithMultiproof.new
  refine ((Spec.AcceptsExactly.mono (C53_sumvec length max chunkLength) Iff.rfl fun V hc hV h => And.intro hc h).bind
    fun V hV hV' => (Prio3.new_exact ?_).mono Iff.rfl fun P hc hP h => (?_ : (fun P => _ ∧ _ ∧ _) P)).mono And.comm fun _ _ _ h => h
  · have := hV'.2.1
    rw [SumVec, raiseIf_of_not (by omega), raiseIf_of_not (by omega), raiseIf_of_not (by omega),
      raiseIf_of_not (by have := hV'.1.2.2.2; omega)] at this
    cases this
    exact proofLen_single rfl rfl
  · refine ⟨?_, attributes_of h.2 ?_, ?_⟩
    · unfold Prio3SumVecWithMultiproof; rw [hV'.2.1]; exact h.1
    · rw [if_pos (pos_of_le_iff (Int.mul_pos hV'.1.1 (by exact_mod_cast Nat.size_pos.2 (by omega))) hV'.2.2.2.2)]; omega
    · rw [h.2.2.2.2]; exact hV'.2.2.1

/-- **C53** `Prio3MultihotCountVec(shares, length, max_weight, chunk_length)` -/
theorem C53_prio3_multihot (length maxWeight chunkLength : ℤ) :
    Spec.AcceptsExactly ((2 ≤ shares ∧ shares ≤ 255) ∧ 0 < maxWeight ∧ maxWeight ≤ length ∧
        length < PyField.modulus Field128 ∧ 0 < chunkLength)
      (Prio3MultihotCountVec.new prims fuel shares length maxWeight chunkLength) fun P =>
      Prio3MultihotCountVec prims fuel shares.toNat length.toNat maxWeight.toNat chunkLength.toNat = .ok P ∧
      Spec.Attributes 5 shares 1 (2 * shares.toNat) P ∧ (P.flp.measLen : ℤ) = length + Nat.size maxWeight.toNat := by
  unfold Prio3MultihotCountVec.new
  refine ((Spec.AcceptsExactly.mono (C53_multihot length maxWeight chunkLength) Iff.rfl fun V hc hV h => And.intro hc h).bind
    fun V hV hV' => (Prio3.new_exact ?_).mono Iff.rfl fun P hc hP h => (?_ : (fun P => _ ∧ _ ∧ _) P)).mono And.comm fun _ _ _ h => h
  · have := hV'.2.1
    rw [MultihotCountVec, raiseIf_of_not (by omega), raiseIf_of_not (by omega), raiseIf_of_not (by omega),
      raiseIf_of_not (by omega), raiseIf_of_not (by omega)] at this
    cases this
    exact proofLen_single rfl rfl
  · refine ⟨?_, attributes_of h.2 ?_, ?_⟩
    · unfold Prio3MultihotCountVec; rw [hV'.2.1]; exact h.1
    · rw [if_pos (pos_of_le_iff (by have := hV'.1; omega) hV'.2.2.2.2)]; omega
    · rw [h.2.2.2.2]; exact hV'.2.2.1

example : ∃ P, Prio3SumVec.new prims fuel 3 10 255 4 = .ok P := by
  obtain ⟨P, h, -⟩ := (C53_prio3_sumvec prims fuel 3 10 255 4).1 (by decide +kernel)
  exact ⟨P, h⟩

example : ∃ m, Prio3Histogram.new prims fuel 256 10 4 = .error (.value m) :=
  (C53_prio3_histogram prims fuel 256 10 4).2 (by decide)

example : ∃ m, Prio3MultihotCountVec.new prims fuel 2 3 4 1 = .error (.value m) :=
  (C53_prio3_multihot prims fuel 2 3 4 1).2 (by omega)

end prio3

/-- **C53** `IdpfBBCGGI21(value_len, bits)` accepts exactly positive parameters; otherwise an assertion fails. -/
theorem C53_idpf (valueLen bits : ℤ) :
    (0 < valueLen ∧ 0 < bits → ∃ I, Idpf.new valueLen bits = .ok I ∧ Idpf.init valueLen.toNat bits.toNat = .ok I ∧
      (I.valueLen : ℤ) = valueLen ∧ (I.bits : ℤ) = bits) ∧
    (¬ (0 < valueLen ∧ 0 < bits) → ∃ m, Idpf.new valueLen bits = .error (.assertion m)) := by
  unfold Idpf.new
  refine ⟨fun h => ⟨⟨valueLen.toNat, bits.toNat⟩, ?_, ?_, ?_, ?_⟩, fun h => ?_⟩
  · rw [pyAssert_of' h.1, pyAssert_of' h.2]; rfl
  · unfold Idpf.init
    rw [pyAssert_of' (by omega), pyAssert_of' (by omega)]; rfl
  · simp; omega
  · simp; omega
  · by_cases h1 : 0 < valueLen
    · have h2 : ¬ bits > 0 := fun h2 => h ⟨h1, h2⟩
      rw [pyAssert_of' h1]
      simp [pyAssert, h2]
    · have h1 : ¬ valueLen > 0 := h1
      simp [pyAssert, h1]

/-- **C53** `Poplar1(bits)` accepts exactly positive numbers of bits; there are two Aggregators and two rounds, keys
of 32 bytes, nonces of 16 and 128 bytes of client randomness. -/
theorem C53_poplar1 (prims : Prims) (fuel : ℕ) (bits : ℤ) :
    (0 < bits → ∃ P, Poplar1.new bits = .ok P ∧ Poplar1.init bits.toNat = .ok P ∧ (P.idpf.bits : ℤ) = bits ∧
      (P.vdaf prims fuel).id = 6 ∧ (P.vdaf prims fuel).shares = 2 ∧ (P.vdaf prims fuel).rounds = 2 ∧
      (P.vdaf prims fuel).verifyKeySize = 32 ∧ (P.vdaf prims fuel).nonceSize = 16 ∧ (P.vdaf prims fuel).randSize = 128) ∧
    (¬ 0 < bits → ∃ m, Poplar1.new bits = .error (.assertion m)) := by
  unfold Poplar1.new Poplar1.init
  refine ⟨fun h => ?_, fun h => ?_⟩
  · obtain ⟨I, h1, h2, -, h4⟩ := (C53_idpf 2 bits).1 ⟨by omega, h⟩
    refine ⟨⟨I⟩, by rw [h1]; rfl, ?_, h4, rfl, rfl, rfl, rfl, rfl, rfl⟩
    have h2 : Idpf.init 2 bits.toNat = .ok I := h2
    rw [h2]; rfl
  · obtain ⟨m, hm⟩ := (C53_idpf 2 bits).2 fun hh => h hh.2
    exact ⟨m, by rw [hm]; rfl⟩

example : ∃ P, Poplar1.new 256 = .ok P := by
  obtain ⟨P, h, -⟩ := (C53_poplar1 ⟨fun _ _ _ => 0, fun _ b => b, fun _ _ h => h⟩ 0 256).1 (by omega)
  exact ⟨P, h⟩
end Vdaf
