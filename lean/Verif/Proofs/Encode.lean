import Verif.Proofs.Circuits
import Mathlib.Algebra.Polynomial.Roots

/-! Encoding, truncation and decoding of the circuits of the library; validity. -/

set_option linter.unusedSectionVars false
set_option linter.unusedVariables false

namespace Vdaf
open Finset

section
variable {F : Type} [NttField F]

theorem tab_add {α : Type} (n m : ℕ) (f : ℕ → α) :
    tab (n + m) f = tab n f ++ tab m fun i => f (n + i) := by
  induction m with
  | zero => simp [tab_zero]
  | succ m ih => rw [← add_assoc, tab_succ, ih, tab_succ, List.append_assoc]

theorem slice_tab {α : Type} (n a b : ℕ) (f : ℕ → α) (hb : b ≤ n) :
    slice (tab n f) a b = tab (b - a) fun i => f (a + i) := by
  apply List.ext_getElem
  · rw [slice_length _ _ _ (by simpa using hb)]; simp
  · intro i h1 h2
    rw [tab_getElem]
    simp [slice, tab]

theorem take_tab {α : Type} (n a : ℕ) (f : ℕ → α) (h : a ≤ n) : (tab n f).take a = tab a f := by
  apply List.ext_getElem
  · simp [h]
  · intro i h1 h2; simp [tab]

/-- What the rest of the development uses about the encoding of a circuit of the library. -/
structure EncFacts {Meas Agg : Type} (V : Valid F Meas Agg) (fn : Spec.Fun Meas Agg) : Prop where
  trunc : ∀ {ι : Type} [Fintype ι] (es : ι → List F) (e : List F), Spec.IsSum es e →
    e.length = V.measLen → ∃ (os : ι → List F) (o : List F), V.truncate e = .ok o ∧
      (∀ i, V.truncate (es i) = .ok (os i)) ∧ Spec.IsSum os o ∧ o.length = V.outputLen
  enc : ∃ (ints : Meas → ℕ → ℕ) (of : List ℕ → Agg),
    (∀ m, fn.valid m → ∃ e : List F, V.encode m = .ok e ∧ e.length = V.measLen ∧
      V.truncate e = .ok (tab V.outputLen fun j => (ints m j : F))) ∧
    (∀ (v : List F) k, v.length = V.outputLen → V.decode v k = .ok (of (v.map PyField.toNat))) ∧
    (∀ l, l.length = V.outputLen → fn.totals (of l) = l) ∧
    ∀ ms, (∀ m ∈ ms, fn.valid m) →
      fn.agg ms = of (tab V.outputLen fun j => (ms.map fun m => ints m j).sum)

/-- ... and about its evaluation. -/
structure Facts {Meas Agg : Type} (V : Valid F Meas Agg) (fn : Spec.Fun Meas Agg) : Prop
    extends EncFacts V fn where
  lawful : V.Lawful
  accept : ∀ m e, fn.valid m → V.encode m = .ok e → ∀ jr : List F, jr.length = V.jointRandLen →
    V.evalPlain e jr 1 = .ok (List.replicate V.evalOutputLen 0)

theorem bit_mul {x : F} (h : x = 0 ∨ x = 1) : x * (x - 1) = 0 := by
  rcases h with rfl | rfl <;> simp

theorem bit_of_mul {x : F} (h : x * (x - 1) = 0) : x = 0 ∨ x = 1 := by
  rcases mul_eq_zero.1 h with h | h
  · exact .inl h
  · exact .inr (sub_eq_zero.1 h)

theorem rangeSum_zero {cl calls : ℕ} {meas jr : List F} (h : ∀ k, coef meas k = 0 ∨ coef meas k = 1) :
    rangeSum cl calls meas jr = 0 := by
  unfold rangeSum
  exact sum_eq_zero fun i _ => sum_eq_zero fun j _ => by rw [bit_mul (h _), mul_zero]

theorem rcbit_bit (max v l : ℕ) : (rcbit max v l : F) = 0 ∨ (rcbit max v l : F) = 1 := by
  have := rcbit_le_one max v l
  interval_cases h : rcbit max v l <;> simp

theorem coef_tab_bit {n : ℕ} {f : ℕ → F} (h : ∀ k < n, f k = 0 ∨ f k = 1) (k : ℕ) :
    coef (tab n f) k = 0 ∨ coef (tab n f) k = 1 := by
  rw [coef_tab]
  split
  · exact h k (by assumption)
  · exact .inl rfl

/-! ### Count -/

theorem Count.encode_eq {m : Int} (hm : Spec.countFun.valid m) :
    (Count F).encode m = .ok [(m.toNat : F)] := by
  have h2 := one_lt_modulus F
  simp only [Count]
  rw [raiseIf_of_not (by rcases hm with rfl | rfl <;> simp)]
  simp only [Except.ok_bind']
  obtain ⟨v, rfl⟩ := Int.eq_ofNat_of_zero_le (show 0 ≤ m by rcases hm with rfl | rfl <;> simp)
  rw [ofInt_nat (by rcases hm with h | h <;> omega)]
  rfl

theorem Count.encFacts : EncFacts (Count F) Spec.countFun where
  trunc es e h he := by
    have he : e.length = 1 := he
    refine ⟨es, e, ?_, fun i => ?_, h, he⟩ <;> simp only [Count]
    · rw [raiseIf_of_not (by simpa using he)]; rfl
    · rw [raiseIf_of_not (by simpa using (h.1 i).trans he)]; rfl
  enc := by
    refine ⟨fun m _ => m.toNat, fun l => l.getD 0 0, ?_, ?_, ?_, ?_⟩
    · intro m hm
      refine ⟨[(m.toNat : F)], Count.encode_eq hm, rfl, ?_⟩
      · simp only [Count]
        rw [raiseIf_of_not (by simp)]
        rfl
    · intro v k hv
      obtain ⟨x, rfl⟩ := List.length_eq_one_iff.1 hv
      rfl
    · intro l hl
      obtain ⟨x, rfl⟩ := List.length_eq_one_iff.1 hl
      rfl
    · intro ms _
      simp [Spec.countFun, tab, Count]

theorem Count.facts (hfit : Spec.Fits (Count F)) : Facts (Count F) Spec.countFun where
  toEncFacts := Count.encFacts
  lawful := Count.lawful hfit
  accept m e hm he jr hj := by
    rw [Count.encode_eq hm] at he
    cases he
    have : jr = [] := List.length_eq_zero_iff.1 hj
    subst this
    rw [Count.plain hfit rfl le_rfl (one_lt_modulus F)]
    rcases hm with rfl | rfl <;> simp [coef, Count]

/-! ### Sum -/

theorem Sum.encFacts {max : ℕ} {G : Gadget F} (h1 : 1 ≤ max)
    (hm : 2 ^ Nat.size max < PyField.modulus F) :
    EncFacts (Sum.circuit F max G) (Spec.sumFun max) where
  trunc es e h he := by
    have hmm : max < PyField.modulus F := lt_trans (Nat.lt_size_self _) hm
    obtain ⟨ys, y, a, b, c⟩ := decode_sum h1 hmm h he
    refine ⟨fun i => [ys i], [y], ?_, fun i => ?_, isSum_singleton c, rfl⟩ <;> simp only [Sum.circuit]
    · rw [a]; rfl
    · rw [b]; rfl
  enc := by
    have hmm : max < PyField.modulus F := lt_trans (Nat.lt_size_self _) hm
    refine ⟨fun m _ => m.toNat, fun l => l.getD 0 0, ?_, ?_, ?_, ?_⟩
    · intro m hmv
      obtain ⟨v, rfl⟩ := Int.eq_ofNat_of_zero_le hmv.1
      have hv : v ≤ max := by exact_mod_cast hmv.2
      refine ⟨_, encodeRangeCheckedInt_eq h1 hv, by simp [Sum.circuit], ?_⟩
      · simp only [Sum.circuit]
        rw [decode_encode h1 hmm hv]
        rfl
    · intro v k hv
      obtain ⟨x, rfl⟩ := List.length_eq_one_iff.1 hv
      rfl
    · intro l hl
      obtain ⟨x, rfl⟩ := List.length_eq_one_iff.1 hl
      rfl
    · intro ms _
      simp [Spec.sumFun, tab, Sum.circuit]

theorem Sum.facts {max : ℕ} {G : Gadget F} (h1 : 1 ≤ max) (hm : 2 ^ Nat.size max < PyField.modulus F)
    (hG : PolyEval F [0, -1, 1] (Nat.size max) = .ok G) (hfit : Spec.Fits (Sum.circuit F max G)) :
    Facts (Sum.circuit F max G) (Spec.sumFun max) where
  toEncFacts := Sum.encFacts h1 hm
  lawful := Sum.lawful h1 hG hfit
  accept m e hmv he jr hj := by
    obtain ⟨v, rfl⟩ := Int.eq_ofNat_of_zero_le hmv.1
    have hv : v ≤ max := by exact_mod_cast hmv.2
    have he : encodeRangeCheckedInt F (v : Int) max = .ok e := he
    rw [encodeRangeCheckedInt_eq h1 hv] at he
    cases he
    have : jr = [] := List.length_eq_zero_iff.1 hj
    subst this
    rw [Sum.plain h1 hG hfit (by simp) le_rfl (one_lt_modulus F)]
    congr 1
    apply List.ext_getElem
    · simp [Sum.circuit]
    · intro i _ _
      rw [tab_getElem, List.getElem_replicate]
      exact bit_mul (coef_tab_bit (fun k _ => rcbit_bit _ _ _) _)

/-! ### SumVec -/

theorem SumVec.truncate_eq {length max cl : ℕ} (h1 : 1 ≤ max) (hmm : max < PyField.modulus F)
    (e : List F) (he : e.length = length * Nat.size max) :
    (SumVec.circuit F length max cl).truncate e = .ok (tab length fun i =>
      ∑ l ∈ range (Nat.size max), (rcw max l : F) * coef e (i * Nat.size max + l)) := by
  simp only [SumVec.circuit]
  rw [mapRes_pure _ (fun i => ∑ l ∈ range (Nat.size max), (rcw max l : F) *
      coef e (i * Nat.size max + l))]
  · rfl
  · intro i hi
    have hi : i < length := by simpa using hi
    have hle : (i + 1) * Nat.size max ≤ e.length := by
      rw [he]; exact Nat.mul_le_mul_right _ hi
    have hs : (slice e (i * Nat.size max) ((i + 1) * Nat.size max)).length = Nat.size max := by
      rw [slice_length _ _ _ hle, add_mul, one_mul]; omega
    rw [decodeRangeCheckedInt_eq h1 hmm _ hs]
    congr 1
    apply sum_congr rfl
    intro l hl
    have hl : l < Nat.size max := by simpa using hl
    have hlt : i * Nat.size max + l < e.length := by
      rw [add_mul, one_mul] at hle; omega
    rw [coef_of_lt (by omega), coef_of_lt hlt]
    simp [slice]

/-- The encoding of a vector. -/
def sumVecEnc (max : ℕ) (m : List Int) (k : ℕ) : F :=
  (rcbit max (m.getD (k / Nat.size max) 0).toNat (k % Nat.size max) : F)

theorem SumVec.encode_eq {length max cl : ℕ} (h1 : 1 ≤ max) {m : List Int}
    (hm : (Spec.sumVecFun length max).valid m) :
    (SumVec.circuit F length max cl).encode m =
      .ok (tab (length * Nat.size max) (sumVecEnc max m)) := by
  have hs := size_pos' h1
  simp only [SumVec.circuit]
  rw [raiseIf_of_not (by simpa using hm.1)]
  simp only [Except.ok_bind']
  obtain ⟨b, hb, hP⟩ := forFold_inv m ([] : List F) (fun encoded val => do
      raiseIf (val < 0 ∨ val > (max : Int))
        "entry of measurement vector is out of range"
      let e ← encodeRangeCheckedInt F val max
      return encoded ++ e)
    (fun i b => b = tab (i * Nat.size max) (sumVecEnc max m)) (by simp [tab]) (by
      rintro i hi _ rfl
      obtain ⟨h2, h3⟩ := hm.2 m[i] (List.getElem_mem _)
      rw [raiseIf_of_not (by omega)]
      simp only [Except.ok_bind']
      obtain ⟨v, hv⟩ := Int.eq_ofNat_of_zero_le h2
      have hvm : v ≤ max := by omega
      rw [hv, encodeRangeCheckedInt_eq h1 hvm]
      refine ⟨_, rfl, ?_⟩
      rw [add_mul, one_mul, tab_add]
      congr 1
      apply tab_congr
      intro l hl
      unfold sumVecEnc
      rw [show (i * Nat.size max + l) / Nat.size max = i by
          rw [mul_comm, Nat.mul_add_div hs, Nat.div_eq_of_lt hl]; rfl,
        show (i * Nat.size max + l) % Nat.size max = l by
          rw [mul_comm, Nat.mul_add_mod, Nat.mod_eq_of_lt hl],
        List.getD_eq_getElem?_getD, List.getElem?_eq_getElem hi, Option.getD_some, hv]
      rfl)
  refine (show _ = _ from hb).trans ?_
  rw [hP, hm.1]

theorem SumVec.encFacts {length max cl : ℕ} (h1 : 1 ≤ max)
    (hm : 2 ^ Nat.size max < PyField.modulus F) :
    EncFacts (SumVec.circuit F length max cl) (Spec.sumVecFun length max) where
  trunc es e h he := by
    have hmm : max < PyField.modulus F := lt_trans (Nat.lt_size_self _) hm
    refine ⟨_, _, SumVec.truncate_eq h1 hmm e he,
      fun i => SumVec.truncate_eq h1 hmm (es i) ((h.1 i).trans he), ?_, by simp [SumVec.circuit]⟩
    apply isSum_tab
    intro j _
    rw [sum_comm]
    apply sum_congr rfl
    intro l _
    rw [(isSum_iff.1 h).2, mul_sum]
  enc := by
    have hs := size_pos' h1
    have hmm : max < PyField.modulus F := lt_trans (Nat.lt_size_self _) hm
    refine ⟨fun m j => (m.getD j 0).toNat, id, ?_, ?_, ?_, ?_⟩
    · intro m hmv
      refine ⟨_, SumVec.encode_eq h1 hmv, by simp [SumVec.circuit], ?_⟩
      · rw [SumVec.truncate_eq h1 hmm _ (by simp)]
        congr 1
        apply tab_congr
        intro i hi
        have hi : i < length := hi
        obtain ⟨h2, h3⟩ := hmv.2 (m.getD i 0) (by
          rw [List.getD_eq_getElem?_getD, List.getElem?_eq_getElem (by rw [hmv.1]; exact hi)]
          exact List.getElem_mem _)
        have hv : (m.getD i 0).toNat ≤ max := by omega
        show _ = (((m.getD i 0).toNat : ℕ) : F)
        conv_rhs => rw [← sum_rcbit h1 hv]
        push_cast
        apply sum_congr rfl
        intro l hl
        have hl : l < Nat.size max := by simpa using hl
        have hlt : i * Nat.size max + l < length * Nat.size max := by
          have : (i + 1) * Nat.size max ≤ length * Nat.size max := Nat.mul_le_mul_right _ hi
          rw [add_mul, one_mul] at this; omega
        rw [coef_tab, if_pos hlt]
        unfold sumVecEnc
        rw [show (i * Nat.size max + l) / Nat.size max = i by
            rw [mul_comm, Nat.mul_add_div hs, Nat.div_eq_of_lt hl]; rfl,
          show (i * Nat.size max + l) % Nat.size max = l by
            rw [mul_comm, Nat.mul_add_mod, Nat.mod_eq_of_lt hl]]
    · intro v k hv; rfl
    · intro l _; rfl
    · intro ms _; rfl

theorem SumVec.facts {length max cl : ℕ} (hl : 1 ≤ length) (hcl : 1 ≤ cl) (h1 : 1 ≤ max)
    (hm : 2 ^ Nat.size max < PyField.modulus F)
    (hfit : Spec.Fits (SumVec.circuit F length max cl)) :
    Facts (SumVec.circuit F length max cl) (Spec.sumVecFun length max) where
  toEncFacts := SumVec.encFacts h1 hm
  lawful := SumVec.lawful hl hcl h1 hfit
  accept m e hmv he jr hj := by
    rw [SumVec.encode_eq h1 hmv] at he
    cases he
    rw [SumVec.plain hl hcl h1 hfit (by simp) hj,
      rangeSum_zero (coef_tab_bit fun k _ => by unfold sumVecEnc; exact rcbit_bit _ _ _)]
    rfl

/-! ### Histogram -/

theorem Histogram.encode_eq {length cl m : ℕ} (hm : m < length) :
    (Histogram.circuit F length cl).encode (m : Int) =
      .ok (tab length fun k => if k = m then 1 else 0) := by
  simp only [Histogram.circuit, setPy]
  rw [if_pos (by omega), show List.replicate length (0 : F) = tab length fun _ => 0 by simp [tab],
    Int.toNat_natCast, setI_tab hm]
  congr 1
  apply tab_congr
  intro k _
  rw [Function.update_apply]

theorem Histogram.encFacts {length cl : ℕ} :
    EncFacts (Histogram.circuit F length cl) (Spec.histogramFun length) where
  trunc es e h he := ⟨es, e, rfl, fun _ => rfl, h, he⟩
  enc := by
    refine ⟨fun m j => if j = m.toNat then 1 else 0, id, ?_, ?_, ?_, ?_⟩
    · intro m hmv
      obtain ⟨v, rfl⟩ := Int.eq_ofNat_of_zero_le hmv.1
      have hv : v < length := by exact_mod_cast hmv.2
      refine ⟨_, Histogram.encode_eq hv, by simp [Histogram.circuit], ?_⟩
      · simp only [Histogram.circuit]
        congr 1
        apply tab_congr
        intro j _
        simp
    · intro v k hv; rfl
    · intro l _; rfl
    · intro ms hms
      simp only [Spec.histogramFun, id, tab, Histogram.circuit]
      apply List.map_congr_left
      intro j _
      induction ms with
      | nil => rfl
      | cons m ms ih =>
        obtain ⟨v, hv⟩ := Int.eq_ofNat_of_zero_le (hms m (by simp)).1
        rw [List.countP_cons, ih fun m hm => hms m (by simp [hm]), List.map_cons, List.sum_cons,
          add_comm, hv]
        congr 1
        by_cases hj : j = v
        · simp [hj]
        · have hj' : ¬ v = j := fun h => hj h.symm
          simp [hj, hj']

theorem Histogram.facts {length cl : ℕ} (hl : 1 ≤ length) (hcl : 1 ≤ cl)
    (hfit : Spec.Fits (Histogram.circuit F length cl)) :
    Facts (Histogram.circuit F length cl) (Spec.histogramFun length) where
  toEncFacts := Histogram.encFacts
  lawful := Histogram.lawful hl hcl hfit
  accept m e hmv he jr hj := by
    obtain ⟨v, rfl⟩ := Int.eq_ofNat_of_zero_le hmv.1
    have hv : v < length := by exact_mod_cast hmv.2
    rw [Histogram.encode_eq hv] at he
    cases he
    rw [Histogram.plain hl hcl hfit (by simp) hj,
      rangeSum_zero (coef_tab_bit fun k _ => by split <;> simp)]
    have : ∑ j ∈ range length, coef (tab length fun k => if k = v then (1 : F) else 0) j = 1 := by
      rw [sum_congr rfl fun j hj => by rw [coef_tab, if_pos (by simpa using hj)]]
      simp [hv]
    rw [this, sub_self]
    rfl

/-! ### MultihotCountVec -/

/-- The encoding of a bit vector. -/
def multihotEnc (length mw : ℕ) (m : List Bool) : List F :=
  (tab length fun j => ((m.getD j false).toNat : F)) ++
    tab (Nat.size mw) fun l => (rcbit mw (m.count true) l : F)

theorem sum_toNat (m : List Bool) : (m.map Bool.toNat).sum = m.count true := by
  induction m with
  | nil => rfl
  | cons b m ih => cases b <;> simp [ih]; omega

theorem MultihotCountVec.encode_eq {length mw cl : ℕ} (h1 : 1 ≤ mw) {m : List Bool}
    (hm : (Spec.multihotFun length mw).valid m) :
    (MultihotCountVec.circuit F length mw cl).encode m = .ok (multihotEnc length mw m) := by
  have h2 := one_lt_modulus F
  simp only [MultihotCountVec.circuit]
  rw [raiseIf_of_not (by simpa using hm.1)]
  simp only [Except.ok_bind']
  rw [mapRes_pure _ (fun b : Bool => (b.toNat : F))]
  · simp only [Except.ok_bind']
    rw [sum_toNat, encodeRangeCheckedInt_eq h1 hm.2]
    simp only [Except.ok_bind']
    rw [Except.pure_eq']
    unfold multihotEnc
    congr 2
    apply List.ext_getElem
    · simp [hm.1]
    · intro i h1 h2
      rw [tab_getElem, List.getElem_map, List.getD_eq_getElem?_getD,
        List.getElem?_eq_getElem (by simpa using h1)]
      rfl
  · intro b _
    exact ofInt_nat (by cases b <;> simp <;> omega)

theorem sum_take_bits {length : ℕ} {m : List Bool} (hm : m.length = length) :
    ∑ j ∈ range length, (((m.getD j false).toNat : ℕ) : F) = (m.count true : F) := by
  subst hm
  induction m with
  | nil => simp
  | cons b m ih =>
    rw [List.length_cons, sum_range_succ']
    simp only [List.getD_cons_succ, List.getD_cons_zero]
    rw [ih, List.count_cons]
    cases b <;> simp

theorem MultihotCountVec.encFacts {length mw cl : ℕ} (h1 : 1 ≤ mw) :
    EncFacts (MultihotCountVec.circuit F length mw cl) (Spec.multihotFun length mw) where
  trunc es e h he := ⟨_, _, rfl, fun _ => rfl, isSum_take h length, by
    have : e.length = length + Nat.size mw := he
    simp [MultihotCountVec.circuit, this]⟩
  enc := by
    refine ⟨fun m j => (m.getD j false).toNat, id, ?_, ?_, ?_, ?_⟩
    · intro m hmv
      refine ⟨_, MultihotCountVec.encode_eq h1 hmv, by simp [MultihotCountVec.circuit, multihotEnc], ?_⟩
      · simp only [MultihotCountVec.circuit, multihotEnc]
        rw [List.take_left' (by simp)]
    · intro v k hv; rfl
    · intro l _; rfl
    · intro ms hms
      simp only [Spec.multihotFun, id, tab, MultihotCountVec.circuit]
      apply List.map_congr_left
      intro j _
      clear hms
      induction ms with
      | nil => rfl
      | cons m ms ih =>
        rw [List.countP_cons, ih, List.map_cons, List.sum_cons, add_comm]
        congr 1
        cases m.getD j false <;> simp

theorem MultihotCountVec.facts {length mw cl : ℕ} (hl : 1 ≤ length) (hcl : 1 ≤ cl) (h1 : 1 ≤ mw)
    (hmw : mw < PyField.modulus F)
    (hfit : Spec.Fits (MultihotCountVec.circuit F length mw cl)) :
    Facts (MultihotCountVec.circuit F length mw cl) (Spec.multihotFun length mw) where
  toEncFacts := MultihotCountVec.encFacts h1
  lawful := MultihotCountVec.lawful hl hcl h1 hmw hfit
  accept m e hmv he jr hj := by
    rw [MultihotCountVec.encode_eq h1 hmv] at he
    cases he
    rw [MultihotCountVec.plain hl hcl h1 hmw hfit (by simp [multihotEnc]) hj, rangeSum_zero]
    · unfold multihotEnc
      rw [List.take_left' (by simp), List.drop_left' (by simp), foldl_add, zero_add, tab_length,
        sum_congr rfl fun j hj => by rw [coef_tab, if_pos (by simpa using hj)],
        sum_take_bits hmv.1, sum_congr rfl fun j hj => by rw [coef_tab, if_pos (by simpa using hj)]]
      have := congrArg (Nat.cast : ℕ → F) (sum_rcbit h1 hmv.2)
      push_cast at this
      rw [this, sub_self]
      rfl
    · intro k
      unfold multihotEnc
      rw [coef_append]
      split
      · exact coef_tab_bit (fun k _ => by cases m.getD k false <;> simp) _
      · exact coef_tab_bit (fun k _ => rcbit_bit _ _ _) _

/-! ### the library -/

theorem Sum_ok {max : ℕ} {V : Valid F Int ℕ} (h : Sum F max = .ok V) :
    2 ^ Nat.size max < PyField.modulus F ∧
      ∃ G, PolyEval F [0, -1, 1] (Nat.size max) = .ok G ∧ V = Sum.circuit F max G := by
  unfold Sum at h
  simp only [Except.bind_eq_ok, raiseIf_eq_ok, decide_eq_false_iff_not] at h
  obtain ⟨-, h1, G, hG, h⟩ := h
  cases h
  exact ⟨by omega, G, hG, rfl⟩

theorem SumVec_ok {length max cl : ℕ} {V : Valid F (List Int) (List ℕ)}
    (h : SumVec F length max cl = .ok V) :
    1 ≤ length ∧ 1 ≤ cl ∧ 1 ≤ max ∧ 2 ^ Nat.size max < PyField.modulus F ∧
      V = SumVec.circuit F length max cl := by
  unfold SumVec at h
  simp only [Except.bind_eq_ok, raiseIf_eq_ok, decide_eq_false_iff_not] at h
  obtain ⟨-, h1, -, h2, -, h3, -, h4, h⟩ := h
  cases h
  exact ⟨by omega, by omega, by omega, by omega, rfl⟩

theorem Histogram_ok {length cl : ℕ} {V : Valid F Int (List ℕ)}
    (h : Histogram F length cl = .ok V) :
    1 ≤ length ∧ 1 ≤ cl ∧ V = Histogram.circuit F length cl := by
  unfold Histogram at h
  simp only [Except.bind_eq_ok, raiseIf_eq_ok, decide_eq_false_iff_not] at h
  obtain ⟨-, h1, -, h2, h⟩ := h
  cases h
  exact ⟨by omega, by omega, rfl⟩

theorem MultihotCountVec_ok {length mw cl : ℕ} {V : Valid F (List Bool) (List ℕ)}
    (h : MultihotCountVec F length mw cl = .ok V) :
    1 ≤ length ∧ 1 ≤ cl ∧ 1 ≤ mw ∧ mw ≤ length ∧ length < PyField.modulus F ∧
      V = MultihotCountVec.circuit F length mw cl := by
  unfold MultihotCountVec at h
  simp only [Except.bind_eq_ok, raiseIf_eq_ok, decide_eq_false_iff_not] at h
  obtain ⟨-, h1, -, h2, -, h3, -, h4, -, h5, h⟩ := h
  cases h
  exact ⟨by omega, by omega, by omega, by omega, by omega, rfl⟩

theorem Library.encFacts {Meas Agg : Type} {V : Valid F Meas Agg} {fn : Spec.Fun Meas Agg}
    (h : Spec.Library F V fn) : EncFacts V fn := by
  cases h with
  | count => exact Count.encFacts
  | sum h0 h =>
    obtain ⟨h1, G, hG, rfl⟩ := Sum_ok h
    exact Sum.encFacts h0 h1
  | sumVec h =>
    obtain ⟨h1, h2, h3, h4, rfl⟩ := SumVec_ok h
    exact SumVec.encFacts h3 h4
  | histogram _ h =>
    obtain ⟨h1, h2, rfl⟩ := Histogram_ok h
    exact Histogram.encFacts
  | multihot h =>
    obtain ⟨h1, h2, h3, h4, h5, rfl⟩ := MultihotCountVec_ok h
    exact MultihotCountVec.encFacts h3

theorem fits_single {Meas Agg : Type} {V : Valid F Meas Agg} {g : Gadget F} {c : ℕ}
    (hg : V.gadgets = [g]) (hc : V.gadgetCalls = [c])
    (h : gadgetPolyLen g.degree (2 ^ Nat.size c) ≤ NttField.genOrder F) : Spec.Fits V := by
  intro i g' c' p h1 h2 h3
  rw [hg] at h1
  rw [hc] at h2
  have hi : i = 0 := by
    by_contra hi
    rw [List.getElem?_eq_none (by simp; omega)] at h1; cases h1
  subst hi
  simp only [List.getElem?_cons_zero, Option.some.injEq] at h1 h2
  subst h1 h2
  unfold wirePolyLen at h3
  rw [nextPowerOf2_of_pos (by omega)] at h3
  simp only [Except.ok.injEq] at h3
  rw [← h3]
  simpa using h

theorem Library.facts {Meas Agg : Type} {V : Valid F Meas Agg} {fn : Spec.Fun Meas Agg}
    (h : Spec.Library F V fn) (hfit : Spec.Fits V) : Facts V fn := by
  cases h with
  | count => exact Count.facts hfit
  | sum h0 h =>
    obtain ⟨h1, G, hG, rfl⟩ := Sum_ok h
    exact Sum.facts h0 h1 hG hfit
  | sumVec h =>
    obtain ⟨h1, h2, h3, h4, rfl⟩ := SumVec_ok h
    exact SumVec.facts h1 h2 h3 h4 hfit
  | histogram _ h =>
    obtain ⟨h1, h2, rfl⟩ := Histogram_ok h
    exact Histogram.facts h1 h2 hfit
  | multihot h =>
    obtain ⟨h1, h2, h3, h4, h5, rfl⟩ := MultihotCountVec_ok h
    exact MultihotCountVec.facts h1 h2 h3 (by omega) hfit

/-! ### soundness of the circuits -/

/-- If some entry is not a bit, few joint randomness vectors make the range check vanish. -/
theorem rangeSum_count {n cl : ℕ} (hcl : 1 ≤ cl) {meas : List F} (hm : meas.length = n)
    (hbad : ∃ x ∈ meas, x ≠ 0 ∧ x ≠ 1) :
    Set.ncard {jr : Fin (numCalls n cl) → F | rangeSum cl (numCalls n cl) meas (List.ofFn jr) = 0} ≤
      cl * Fintype.card F ^ (numCalls n cl - 1) := by
  classical
  obtain ⟨x, hx, hx0, hx1⟩ := hbad
  obtain ⟨k, hk, rfl⟩ := List.getElem_of_mem hx
  have hlt : k / cl < numCalls n cl := by
    rw [Nat.div_lt_iff_lt_mul hcl]
    exact lt_of_lt_of_le (hm ▸ hk) (numCalls_mul hcl)
  apply ncard_le_of_fibre (fun jr => rangeSum cl (numCalls n cl) meas (List.ofFn jr) = 0) ⟨k / cl, hlt⟩
  intro f
  let i0 : Fin (numCalls n cl) := ⟨k / cl, hlt⟩
  let c : ℕ → ℕ → F := fun i j => coef meas (i * cl + j) * (coef meas (i * cl + j) - 1)
  let p : Polynomial F := (∑ j ∈ range cl, Polynomial.C (c (k / cl) j) * Polynomial.X ^ (j + 1)) +
    Polynomial.C (∑ i ∈ (range (numCalls n cl)).erase (k / cl), ∑ j ∈ range cl,
      coef (List.ofFn f) i ^ (j + 1) * c i j)
  have hc : c (k / cl) (k % cl) ≠ 0 := by
    have e : k / cl * cl + k % cl = k := by rw [mul_comm]; exact Nat.div_add_mod k cl
    simp only [c, e, coef_of_lt hk]
    exact mul_ne_zero hx0 (sub_ne_zero.2 hx1)
  have hmod : k % cl < cl := Nat.mod_lt _ hcl
  have hp0 : p ≠ 0 := by
    intro h
    have : p.coeff (k % cl + 1) = c (k / cl) (k % cl) := by
      simp only [p, Polynomial.coeff_add, Polynomial.coeff_C, Nat.succ_ne_zero, if_false, add_zero,
        Polynomial.finsetSum_coeff, Polynomial.coeff_C_mul, Polynomial.coeff_X_pow]
      rw [sum_eq_single (k % cl)]
      · simp
      · intro b _ hb
        rw [if_neg (by omega), mul_zero]
      · intro h; exact absurd (mem_range.2 hmod) h
    rw [h, Polynomial.coeff_zero] at this
    exact hc this.symm
  have hpd : p.natDegree ≤ cl := by
    apply Polynomial.natDegree_add_le_of_degree_le
    · apply Polynomial.natDegree_sum_le_of_forall_le
      intro j hj
      refine (Polynomial.natDegree_C_mul_X_pow_le _ _).trans ?_
      have : j < cl := by simpa using hj
      omega
    · rw [Polynomial.natDegree_C]; omega
  refine ⟨p.roots.toFinset, ?_, ?_⟩
  · exact (Multiset.toFinset_card_le _).trans ((Polynomial.card_roots' p).trans hpd)
  · intro x hx
    rw [Multiset.mem_toFinset, Polynomial.mem_roots hp0]
    show Polynomial.eval x p = 0
    rw [← hx]
    unfold rangeSum
    rw [← add_sum_erase _ _ (mem_range.2 hlt)]
    simp only [p, Polynomial.eval_add, Polynomial.eval_finsetSum, Polynomial.eval_mul,
      Polynomial.eval_C, Polynomial.eval_pow, Polynomial.eval_X]
    congr 1
    · apply sum_congr rfl
      intro j _
      rw [show coef (List.ofFn (Function.update f i0 x)) (k / cl) = x by
        rw [show k / cl = ((i0 : Fin _) : ℕ) from rfl, Valid.coef_ofFn, Function.update_self]]
      simp only [c]; ring
    · apply sum_congr rfl
      intro i hi
      obtain ⟨h1, h2⟩ := mem_erase.1 hi
      have h2 : i < numCalls n cl := by simpa using h2
      have : coef (List.ofFn (Function.update f i0 x)) i = coef (List.ofFn f) i := by
        rw [show i = ((⟨i, h2⟩ : Fin _) : ℕ) from rfl, Valid.coef_ofFn, Valid.coef_ofFn, Function.update_of_ne]
        intro h; exact h1 (congrArg Fin.val h)
      rw [this]

theorem exists_not_bit {v : List F} (h : ¬ Spec.Bits v) : ∃ x ∈ v, x ≠ 0 ∧ x ≠ 1 := by
  unfold Spec.Bits at h
  push Not at h
  exact h

/-- A vector of bits is the image of a list of booleans. -/
theorem bits_bool (v : List F) (hb : Spec.Bits v) :
    ∃ m : List Bool, v = m.map (fun b => if b then 1 else 0) := by
  induction v with
  | nil => exact ⟨[], rfl⟩
  | cons x v ih =>
    obtain ⟨m, rfl⟩ := ih fun y hy => hb y (by simp [hy])
    rcases hb x (by simp) with rfl | rfl
    · exact ⟨false :: m, by simp⟩
    · exact ⟨true :: m, by simp⟩

theorem sum_bool (m : List Bool) :
    ∑ j ∈ range m.length, coef (m.map fun b => if b then (1 : F) else 0) j =
      (m.count true : F) := by
  induction m with
  | nil => simp
  | cons b m ih =>
    rw [List.length_cons, sum_range_succ']
    have : ∀ j, coef ((b :: m).map fun b => if b then (1 : F) else 0) (j + 1) =
        coef (m.map fun b => if b then (1 : F) else 0) j := by intro j; simp [coef]
    simp only [this]
    rw [ih, List.count_cons]
    cases b <;> simp [coef]

theorem count_one_hot (m : List Bool) (h : m.count true = 1) :
    ∃ i < m.length, m = tab m.length fun k => decide (k = i) := by
  induction m with
  | nil => simp at h
  | cons b m ih =>
    cases b
    · obtain ⟨i, hi, hm⟩ := ih (by simpa using h)
      refine ⟨i + 1, by simpa using hi, ?_⟩
      rw [List.length_cons, tab_succ']
      conv_lhs => rw [hm]
      simp
    · refine ⟨0, by simp, ?_⟩
      rw [List.length_cons, tab_succ']
      have : m.count true = 0 := by simpa using h
      congr 1
      apply List.ext_getElem (by simp)
      intro i h1 h2
      rw [tab_getElem]
      have : m[i] ≠ true := by
        intro hc
        have := List.count_eq_zero.1 this
        exact this (hc ▸ List.getElem_mem h1)
      simpa using this

end
end Vdaf
