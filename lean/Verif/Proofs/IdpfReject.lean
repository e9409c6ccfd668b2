import Verif.Proofs.Idpf

/-! Which arguments `gen` rejects. -/

namespace Vdaf
namespace Idpf
variable {I : Idpf} {prims : Prims} {fuel : ℕ} {ctx nonce : Bytes}

/-- Running out of fuel, or `ValueError` -/
def ValueOrFuel (e : Err) : Prop := e = .fuel ∨ ∃ m, e = .value m

theorem genLevel_any (hf : fuel < 2 ^ 120) {alpha : List Bool} {betaInner : List (List Field64)}
    {betaLeaf : List Field255} (hc : CtxOk ctx) {st : GenState} (h0 : st.seed.1.length = 16)
    (h1 : st.seed.2.length = 16) {level : ℕ} {bit : Bool} (ha : alpha[level]? = some bit)
    {b : List (Fk (I.currentField level))}
    (hb : betaAt betaInner betaLeaf level (I.currentField level) = .ok b) :
    Good ValueOrFuel (I.genLevel prims fuel alpha betaInner betaLeaf ctx nonce st level)
      fun st' => st'.seed.1.length = 16 ∧ st'.seed.2.length = 16 ∧ b.length = I.valueLen := by
  by_cases hbl : b.length = I.valueLen
  · refine ((genLevel_good hf hc h0 h1 ha hb hbl).weaken fun e he => .inl he).mono ?_
    rintro st' - ⟨h2, h3, -⟩
    exact ⟨h2, h3, hbl⟩
  · unfold genLevel
    rw [getI_of_some ha]; simp only [Except.ok_bind']
    obtain ⟨s0, t0, e0, l00, l01⟩ := I.extend_ok prims fuel level nonce h0 hc
    obtain ⟨s1, t1, e1, l10, l11⟩ := I.extend_ok prims fuel level nonce h1 hc
    rw [e0]; simp only [Except.ok_bind']
    rw [e1]; simp only [Except.ok_bind']
    set scw := xor (pick s0 !bit) (pick s1 !bit) with hscw
    have lcw : scw.length = 16 := by
      rw [hscw, xor_length, pick_length l00 l01, pick_length l10 l11]; rfl
    set tcw := (Bool.xor (Bool.xor t0.1 t1.1) (!bit), Bool.xor (Bool.xor t0.2 t1.2) bit) with htcw
    have k0 : (genKeep s0 t0 st.ctrl.1 bit scw tcw).1.length = 16 :=
      child_length (cw := ⟨scw, tcw, ⟨.inner, []⟩⟩) l00 l01 lcw
    have k1 : (genKeep s1 t1 st.ctrl.2 bit scw tcw).1.length = 16 :=
      child_length (cw := ⟨scw, tcw, ⟨.inner, []⟩⟩) l10 l11 lcw
    refine ((I.convert_good prims fuel hf level nonce k0 hc).weaken fun e he => .inl he).bind ?_
    rintro ⟨seed0, w0⟩ c0 ⟨m0, m1⟩
    refine ((I.convert_good prims fuel hf level nonce k1 hc).weaken fun e he => .inl he).bind ?_
    rintro ⟨seed1, w1⟩ c1 ⟨m2, m3⟩
    simp only
    rw [hb]; simp only [Except.ok_bind']
    rw [raiseIf_of (by simpa using hbl)]
    exact Good.error (.inr ⟨_, rfl⟩)

/-- For any values, if `gen` returns, then they all had the right length. -/
theorem gen_any (hf : fuel < 2 ^ 120) {alpha : List Bool} {betaInner : List (List Field64)}
    {betaLeaf : List Field255} {rand : Bytes} (hc : CtxOk ctx) (ha : alpha.length = I.bits)
    (hi : betaInner.length = I.bits - 1) (hr : rand.length = 32) (hn : nonce.length = 16) (hb : 0 < I.bits) :
    Good ValueOrFuel (I.gen prims fuel alpha betaInner betaLeaf ctx nonce rand)
      fun _ => (∀ x ∈ betaInner, x.length = I.valueLen) ∧ betaLeaf.length = I.valueLen := by
  unfold gen
  rw [raiseIf_of_not (by simpa using ha)]; simp only [Except.ok_bind']
  rw [raiseIf_of_not (by simpa using hi)]; simp only [Except.ok_bind']
  rw [raiseIf_of_not (by simpa [RAND_SIZE] using hr)]; simp only [Except.ok_bind']
  rw [raiseIf_of_not (by simpa [NONCE_SIZE] using hn)]; simp only [Except.ok_bind']
  refine (Good.forFold_range (E := ValueOrFuel) I.bits _ _
    (fun n st => st.seed.1.length = 16 ∧ st.seed.2.length = 16 ∧
      (∀ ℓ < n, ∀ b, betaAt betaInner betaLeaf ℓ (I.currentField ℓ) = .ok b → b.length = I.valueLen)) ?_ ?_).bind ?_
  · exact ⟨by simp [hr], by simp [hr], fun ℓ h => absurd h (by omega)⟩
  · rintro n hn st ⟨h1, h2, h3⟩
    have hbt : ∃ b, betaAt betaInner betaLeaf n (I.currentField n) = .ok b := by
      by_cases h : n < I.bits - 1
      · rw [currentField_inner h]
        exact ⟨_, getI_of_lt (show n < betaInner.length by omega)⟩
      · rw [currentField_leaf h]
        exact ⟨_, rfl⟩
    obtain ⟨b, hbt⟩ := hbt
    refine (genLevel_any hf hc h1 h2 (List.getElem?_eq_getElem (by omega)) hbt).mono ?_
    rintro st' - ⟨h4, h5, h6⟩
    refine ⟨h4, h5, fun ℓ hℓ b' hb' => ?_⟩
    rcases Nat.lt_succ_iff_lt_or_eq.1 hℓ with h | rfl
    · exact h3 ℓ h b' hb'
    · rw [hbt] at hb'
      cases hb'
      exact h6
  · rintro st - ⟨-, -, h⟩
    refine Good.ok ⟨fun x hx => ?_, ?_⟩
    · obtain ⟨ℓ, hℓ, rfl⟩ := List.mem_iff_getElem.1 hx
      have := h ℓ (by omega)
      rw [currentField_inner (show ℓ < I.bits - 1 by omega)] at this
      exact this _ (getI_of_lt hℓ)
    · have := h (I.bits - 1) (by omega)
      rw [currentField_leaf (show ¬ I.bits - 1 < I.bits - 1 by omega)] at this
      exact this _ rfl

theorem gen_sizes {alpha : List Bool} {betaInner : List (List Field64)} {betaLeaf : List Field255} {rand : Bytes}
    (h : alpha.length ≠ I.bits ∨ betaInner.length ≠ I.bits - 1 ∨ rand.length ≠ 32 ∨ nonce.length ≠ 16) :
    ∃ m, I.gen prims fuel alpha betaInner betaLeaf ctx nonce rand = .error (.value m) := by
  unfold gen
  by_cases h1 : alpha.length = I.bits
  swap
  · rw [raiseIf_of (by simpa using h1)]; exact ⟨_, rfl⟩
  rw [raiseIf_of_not (by simpa using h1)]; simp only [Except.ok_bind']
  by_cases h2 : betaInner.length = I.bits - 1
  swap
  · rw [raiseIf_of (by simpa using h2)]; exact ⟨_, rfl⟩
  rw [raiseIf_of_not (by simpa using h2)]; simp only [Except.ok_bind']
  by_cases h3 : rand.length = 32
  swap
  · rw [raiseIf_of (by simpa [RAND_SIZE] using h3)]; exact ⟨_, rfl⟩
  rw [raiseIf_of_not (by simpa [RAND_SIZE] using h3)]; simp only [Except.ok_bind']
  by_cases h4 : nonce.length = 16
  swap
  · rw [raiseIf_of (by simpa [NONCE_SIZE] using h4)]; exact ⟨_, rfl⟩
  exact absurd h (by simp [h1, h2, h3, h4])

end Idpf
end Vdaf
