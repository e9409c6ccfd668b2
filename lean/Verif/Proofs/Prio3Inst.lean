import Verif.Proofs.Prio3Sound
import Verif.Proofs.Prio3Codec

/-! The instantiations of Prio3; robustness; aggregation. -/

set_option linter.unusedSectionVars false

namespace Vdaf
open Finset

theorem Prio3.init_ok {X : Xof} {F Meas Agg : Type} {id shares n : ℕ} {V : Valid F Meas Agg}
    {P : Prio3 X F Meas Agg} : Prio3.init id X shares V n = .ok P ↔
      ∃ pl, V.proofLen = .ok pl ∧ 2 ≤ shares ∧ shares < 256 ∧ P = ⟨id, shares, n, V, pl⟩ := by
  unfold Prio3.init
  rw [Except.bind_eq_ok]
  refine exists_congr fun pl => and_congr_right fun _ => ?_
  unfold raiseIf
  by_cases h : 2 ≤ shares ∧ shares < 256
  · simp [h, eq_comm]
  · simp only [h, not_false_eq_true, decide_true, ↓reduceIte]
    constructor
    · intro h; cases h
    · rintro ⟨h1, h2, -⟩; exact absurd ⟨h1, h2⟩ h

theorem Spec.Instance.wf {F : Type} [NttField F] {Meas Agg : Type} {prims : Prims} {fuel : ℕ}
    {P : Prio3 (XofTurboShake128 prims fuel) F Meas Agg} {fn : Spec.Fun Meas Agg}
    (I : Spec.Instance P fn) : P.WF := by
  obtain ⟨pl, h1, h2, h3, h4⟩ := Prio3.init_ok.1 I.init
  refine ⟨I.id, h2, h3, I.shares, I.proofs, ?_, (Library.facts I.library I.fits).lawful, .turbo _ _ _⟩
  rw [h1]
  congr 1
  rw [h4]

theorem Spec.Instance.of_init {F : Type} [NttField F] {Meas Agg : Type} {prims : Prims} {fuel : ℕ}
    {id shares n : ℕ} {V : Valid F Meas Agg}
    {P : Prio3 (XofTurboShake128 prims fuel) F Meas Agg} {fn : Spec.Fun Meas Agg}
    (hP : Prio3.init id (XofTurboShake128 prims fuel) shares V n = .ok P)
    (hid : id < 2 ^ 32) (hn : n < 256) (hs : shares < PyField.modulus F)
    (hV : Spec.Library F V fn) (hfit : Spec.Fits V) :
    Spec.Instance P fn ∧ P.flp = V ∧ P.shares = shares := by
  have hP' := hP
  obtain ⟨pl, h1, h2, h3, rfl⟩ := Prio3.init_ok.1 hP
  exact ⟨⟨hV, hP', hfit, hid, hn, hs⟩, rfl, rfl⟩

theorem Prio3.init_shares {X : Xof} {F Meas Agg : Type} {id shares n : ℕ} {V : Valid F Meas Agg}
    {P : Prio3 X F Meas Agg} (h : Prio3.init id X shares V n = .ok P) : shares < 256 := by
  obtain ⟨pl, h1, h2, h3, -⟩ := Prio3.init_ok.1 h
  exact h3

theorem numCalls_le (n c : ℕ) : numCalls n c ≤ n := by
  unfold numCalls
  rcases Nat.eq_zero_or_pos c with rfl | hc
  · simp
  · rw [Nat.div_le_iff_le_mul_add_pred hc]
    have : n ≤ c * n := Nat.le_mul_of_pos_left n hc
    omega

/-- The capacity for gadgets of degree 2. -/
theorem fits_degree2 {F : Type} [NttField F] {Meas Agg : Type} {V : Valid F Meas Agg} {g : Gadget F}
    {c k : ℕ} (hg : V.gadgets = [g]) (hc : V.gadgetCalls = [c]) (hd : g.degree = 2) (h : c < 2 ^ k)
    (hF : 2 ^ (k + 1) ≤ NttField.genOrder F) : Spec.Fits V := by
  refine fits_single hg hc ?_
  rw [hd]
  unfold gadgetPolyLen
  have h1 : Nat.size c ≤ k := Nat.size_le.2 h
  have h2 : 2 ^ Nat.size c ≤ 2 ^ k := Nat.pow_le_pow_right (by decide) h1
  rw [pow_succ] at hF
  omega

theorem instance_count {prims : Prims} {fuel shares : ℕ}
    {P : Prio3 (XofTurboShake128 prims fuel) Field64 Int Nat}
    (h : Prio3Count prims fuel shares = .ok P) : Spec.Instance P Spec.countFun ∧ P.shares = shares := by
  have hs := Prio3.init_shares h
  obtain ⟨h1, -, h2⟩ := Spec.Instance.of_init h (by decide) (by decide)
    (lt_trans hs (by decide +kernel)) .count (fits_single rfl rfl (by decide))
  exact ⟨h1, h2⟩

theorem instance_sum {prims : Prims} {fuel shares max : ℕ} (hmax : 0 < max)
    {P : Prio3 (XofTurboShake128 prims fuel) Field64 Int Nat}
    (h : Prio3Sum prims fuel shares max = .ok P) :
    Spec.Instance P (Spec.sumFun max) ∧ P.shares = shares := by
  unfold Prio3Sum at h
  rw [Except.bind_eq_ok] at h
  obtain ⟨V, hV, h⟩ := h
  have hs := Prio3.init_shares h
  have hfit : Spec.Fits V := by
    have hV' := hV
    unfold Sum at hV'
    rw [Except.bind_eq_ok] at hV'
    obtain ⟨_, h1, hV'⟩ := hV'
    rw [Except.bind_eq_ok] at hV'
    obtain ⟨g, h2, hV'⟩ := hV'
    cases hV'
    have hd : g.degree = 2 := by
      obtain ⟨p, h3, h2⟩ := Except.bind_eq_ok.1 h2
      have : p = [0, -1, 1] := by
        have : polyEvalStrip [0, -1, 1] ([0, -1, 1] : List Int).length = .ok [0, -1, 1] := by decide
        rw [this] at h3
        cases h3; rfl
      subst this
      obtain ⟨_, h4, h2⟩ := Except.bind_eq_ok.1 h2
      obtain ⟨w, h5, h2⟩ := Except.bind_eq_ok.1 h2
      obtain ⟨n, h6, h2⟩ := Except.bind_eq_ok.1 h2
      cases h2
      rfl
    have hb : 2 ^ Nat.size max < 2 ^ 64 := by
      have := raiseIf_eq_ok.1 h1
      have h7 : 2 ^ Nat.size max < PyField.modulus Field64 := by simpa using this
      exact lt_trans h7 (by decide +kernel)
    have hb' : Nat.size max < 64 := (Nat.pow_lt_pow_iff_right (by decide)).1 hb
    exact fits_degree2 (k := 6) rfl rfl hd hb' (by decide)
  obtain ⟨h1, -, h2⟩ := Spec.Instance.of_init h (by decide) (by decide)
    (lt_trans hs (by decide +kernel)) (.sum hmax hV) hfit
  exact ⟨h1, h2⟩

theorem fits_sumVec {F : Type} [NttField F] {length max cl k : ℕ} {V : Valid F (List Int) (List ℕ)}
    (h : SumVec F length max cl = .ok V) (hl : length * Nat.size max < 2 ^ k)
    (hF : 2 ^ (k + 1) ≤ NttField.genOrder F) : Spec.Fits V := by
  unfold SumVec at h
  simp only [Except.bind_eq_ok] at h
  obtain ⟨_, -, _, -, _, -, _, -, h⟩ := h
  cases h
  exact fits_degree2 (k := k) rfl rfl rfl (lt_of_le_of_lt (numCalls_le _ _) hl) hF

theorem instance_sumVec {prims : Prims} {fuel shares length max cl : ℕ}
    (hl : length * Nat.size max < 2 ^ 65)
    {P : Prio3 (XofTurboShake128 prims fuel) Field128 (List Int) (List Nat)}
    (h : Prio3SumVec prims fuel shares length max cl = .ok P) :
    Spec.Instance P (Spec.sumVecFun length max) ∧ P.shares = shares := by
  unfold Prio3SumVec at h
  rw [Except.bind_eq_ok] at h
  obtain ⟨V, hV, h⟩ := h
  have hs := Prio3.init_shares h
  obtain ⟨h1, -, h2⟩ := Spec.Instance.of_init h (by decide) (by decide)
    (lt_trans hs (by decide +kernel)) (.sumVec hV) (fits_sumVec hV hl (by decide))
  exact ⟨h1, h2⟩

theorem instance_histogram {prims : Prims} {fuel shares length cl : ℕ} (hl : length < 2 ^ 65)
    {P : Prio3 (XofTurboShake128 prims fuel) Field128 Int (List Nat)}
    (h : Prio3Histogram prims fuel shares length cl = .ok P) :
    Spec.Instance P (Spec.histogramFun length) ∧ P.shares = shares := by
  unfold Prio3Histogram at h
  rw [Except.bind_eq_ok] at h
  obtain ⟨V, hV, h⟩ := h
  have hs := Prio3.init_shares h
  have hfit : Spec.Fits V := by
    have hV' := hV
    unfold Histogram at hV'
    simp only [Except.bind_eq_ok] at hV'
    obtain ⟨_, -, _, -, hV'⟩ := hV'
    cases hV'
    exact fits_degree2 (k := 65) rfl rfl rfl (lt_of_le_of_lt (numCalls_le _ _) hl) (by decide)
  obtain ⟨h1, -, h2⟩ := Spec.Instance.of_init h (by decide) (by decide)
    (lt_trans hs (by decide +kernel)) (.histogram (lt_trans hl (by decide +kernel)) hV) hfit
  exact ⟨h1, h2⟩

theorem instance_multihot {prims : Prims} {fuel shares length mw cl : ℕ}
    (hl : length + Nat.size mw < 2 ^ 65)
    {P : Prio3 (XofTurboShake128 prims fuel) Field128 (List Bool) (List Nat)}
    (h : Prio3MultihotCountVec prims fuel shares length mw cl = .ok P) :
    Spec.Instance P (Spec.multihotFun length mw) ∧ P.shares = shares := by
  unfold Prio3MultihotCountVec at h
  rw [Except.bind_eq_ok] at h
  obtain ⟨V, hV, h⟩ := h
  have hs := Prio3.init_shares h
  have hfit : Spec.Fits V := by
    have hV' := hV
    unfold MultihotCountVec at hV'
    simp only [Except.bind_eq_ok] at hV'
    obtain ⟨_, -, _, -, _, -, _, -, _, -, hV'⟩ := hV'
    cases hV'
    exact fits_degree2 (k := 65) rfl rfl rfl (lt_of_le_of_lt (numCalls_le _ _) hl) (by decide)
  obtain ⟨h1, -, h2⟩ := Spec.Instance.of_init h (by decide) (by decide)
    (lt_trans hs (by decide +kernel)) (.multihot hV) hfit
  exact ⟨h1, h2⟩

theorem instance_multiproof {prims : Prims} {fuel shares : ℕ} {F : Type} [NttField F]
    {numProofs length max cl : ℕ} (hn : numProofs < 256) (hsh : shares < PyField.modulus F) {k : ℕ}
    (hl : length * Nat.size max < 2 ^ k) (hF : 2 ^ (k + 1) ≤ NttField.genOrder F)
    {P : Prio3 (XofTurboShake128 prims fuel) F (List Int) (List Nat)}
    (h : Prio3SumVecWithMultiproof prims fuel shares F numProofs length max cl = .ok P) :
    Spec.Instance P (Spec.sumVecFun length max) ∧ P.shares = shares := by
  unfold Prio3SumVecWithMultiproof at h
  rw [Except.bind_eq_ok] at h
  obtain ⟨V, hV, h⟩ := h
  obtain ⟨h1, -, h2⟩ := Spec.Instance.of_init h (by decide) hn hsh (.sumVec hV) (fits_sumVec hV hl hF)
  exact ⟨h1, h2⟩

namespace Prio3
variable {X : Xof} {F : Type} [NttField F] {Meas Agg : Type} {P : Prio3 X F Meas Agg}

theorem aggregate_eq (outs : List (List F)) :
    Spec.aggregate P.vdaf () outs =
      if ∀ v ∈ outs, v.length = P.flp.outputLen then .ok (tab P.flp.outputLen fun j => colsum outs j)
      else .error (.value "mismatched vector sizes") := by
  unfold Spec.aggregate
  have h0 : P.vdaf.aggInit () = .ok (tab P.flp.outputLen fun _ => (0 : F)) := by
    show Except.ok (fieldZeros F P.flp.outputLen) = _
    congr 1
    apply List.ext_getElem (by simp [fieldZeros])
    intro i h1 h2
    simp [fieldZeros, tab_getElem]
  rw [h0]
  simp only [Except.ok_bind']
  have := vecAdd_foldl outs (n := P.flp.outputLen) (fun _ => (0 : F))
  simp only [zero_add] at this
  exact this

theorem merge_eq (as : List (List F)) : P.vdaf.merge () as = Spec.aggregate P.vdaf () as := rfl

theorem aggregate_perm {l l' : List (List F)} (h : l.Perm l') :
    Spec.aggregate P.vdaf () l = Spec.aggregate P.vdaf () l' := by
  rw [aggregate_eq, aggregate_eq]
  simp only [h.mem_iff, colsum_perm h]

theorem aggregate_flatten (bs : List (List (List F))) :
    (do
      let as ← mapRes (Spec.aggregate P.vdaf ()) bs
      P.vdaf.merge () as) = Spec.aggregate P.vdaf () bs.flatten := by
  by_cases hall : ∀ b ∈ bs, ∀ v ∈ b, v.length = P.flp.outputLen
  · rw [mapRes_pure (Spec.aggregate P.vdaf ()) (fun b => tab P.flp.outputLen fun j => colsum b j) bs
      (fun b hb => by rw [aggregate_eq, if_pos (hall b hb)])]
    simp only [Except.ok_bind']
    rw [merge_eq, aggregate_eq, aggregate_eq, if_pos (by simp), if_pos (by
      intro v hv
      obtain ⟨b, hb, hv⟩ := List.mem_flatten.1 hv
      exact hall b hb v hv)]
    congr 1
    apply tab_congr
    intro j hj
    clear hall
    induction bs with
    | nil => rfl
    | cons b bs ih =>
      rw [List.flatten_cons, colsum_append, ← ih]
      simp [colsum, coef_tab, hj]
  · rw [aggregate_eq (outs := bs.flatten), if_neg (fun h => hall fun b hb v hv =>
      h v (List.mem_flatten.2 ⟨b, hb, hv⟩))]
    have : mapRes (Spec.aggregate P.vdaf ()) bs = .error (.value "mismatched vector sizes") := by
      induction bs with
      | nil => simp at hall
      | cons b bs ih =>
        rw [mapRes_cons, aggregate_eq]
        by_cases hb : ∀ v ∈ b, v.length = P.flp.outputLen
        · rw [if_pos hb, ih (fun h => hall fun c hc => by
            rcases List.mem_cons.1 hc with rfl | hc
            · exact hb
            · exact h c hc)]
          rfl
        · rw [if_neg hb]; rfl
    rw [this]; rfl

end Prio3
end Vdaf
