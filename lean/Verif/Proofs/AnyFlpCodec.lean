import Verif.Spec.AnyFlp
import Verif.Proofs.Prio3Codec

/-! The encodings of Prio3 over an arbitrary FLP.  The proofs follow `Verif.Proofs.Prio3Codec`. -/

set_option linter.unusedSectionVars false

namespace Vdaf

namespace Prio3Of
variable {X : Xof} {F : Type} [NttField F] {Meas Agg : Type} {P : Prio3Of X F Meas Agg}

theorem decodeBlind_ok {b rest : Bytes} {bl : Option Bytes} :
    P.decodeBlind b = .ok (bl, rest) ↔ Spec.Of.OptSeed P bl ∧ b = optBytes bl ++ rest := by
  unfold decodeBlind
  split
  · next h =>
    rw [Except.bind_eq_ok]
    constructor
    · rintro ⟨⟨x, y⟩, h1, h2⟩
      cases h2
      obtain ⟨rfl, hl⟩ := front_eq_ok.1 h1
      exact ⟨⟨h, hl⟩, rfl⟩
    · rintro ⟨h1, rfl⟩
      cases bl with
      | none => simp only [Spec.Of.OptSeed] at h1; omega
      | some x => exact ⟨(x, rest), front_eq_ok.2 ⟨rfl, h1.2⟩, rfl⟩
  · next h =>
    constructor
    · intro h1; cases h1
      exact ⟨by simp only [Spec.Of.OptSeed]; omega, rfl⟩
    · rintro ⟨h1, rfl⟩
      cases bl with
      | none => rfl
      | some x => exact absurd h1.1 h

theorem decodeInputShare_ok {j : ℕ} {b : Bytes} {s : Prio3InputShare F} :
    P.decodeInputShare j b = .ok s ↔
      Spec.Of.InputShareShape P j s ∧ P.encodeInputShare s = .ok b := by
  unfold decodeInputShare
  split
  · next hj =>
    constructor
    · intro h
      rw [Except.bind_eq_ok] at h
      obtain ⟨⟨a1, b1⟩, h1, h⟩ := h
      dsimp only at h
      obtain ⟨rfl, l1⟩ := front_eq_ok.1 h1
      rw [Except.bind_eq_ok] at h
      obtain ⟨⟨a2, b2⟩, h2, h⟩ := h
      dsimp only at h
      obtain ⟨rfl, l2⟩ := front_eq_ok.1 h2
      rw [Except.bind_eq_ok] at h
      obtain ⟨m, h3, h⟩ := h
      rw [Except.bind_eq_ok] at h
      obtain ⟨p, h4, h⟩ := h
      rw [Except.bind_eq_ok] at h
      obtain ⟨⟨bl, rest⟩, h5, h⟩ := h
      dsimp only at h
      rw [Except.bind_eq_ok] at h
      obtain ⟨_, h6, h⟩ := h
      cases h
      rw [decodeVec_eq_ok] at h3 h4
      subst h3 h4
      obtain ⟨hs, rfl⟩ := decodeBlind_ok.1 h5
      have hrest : rest = [] := by simpa [raiseIf] using h6
      subst hrest
      rw [mul_assoc] at l2
      rw [encAll_length_iff] at l1 l2
      refine ⟨⟨hj, l1, l2, hs⟩, ?_⟩
      unfold encodeInputShare
      dsimp only
      rw [pyAssert_of' l2, encodeVec_eq, encodeVec_eq]
      simp
    · rintro ⟨hs, he⟩
      cases s with
      | helper s bl => exact absurd hj hs.1
      | leader m p bl =>
        obtain ⟨-, l1, l2, hs⟩ := hs
        unfold encodeInputShare at he
        dsimp only at he
        rw [pyAssert_of' l2, encodeVec_eq, encodeVec_eq] at he
        cases he
        rw [List.append_assoc, front_append' (encAll_length_iff.2 l1)]
        simp only [Except.ok_bind']
        rw [front_append' (by rw [mul_assoc]; exact encAll_length_iff.2 l2)]
        simp only [Except.ok_bind']
        rw [decodeVec_encAll, decodeVec_encAll]
        simp only [Except.ok_bind']
        rw [decodeBlind_ok.2 ⟨hs, (List.append_nil _).symm⟩]
        rfl
  · next hj =>
    constructor
    · intro h
      rw [Except.bind_eq_ok] at h
      obtain ⟨⟨a1, b1⟩, h1, h⟩ := h
      dsimp only at h
      obtain ⟨rfl, l1⟩ := front_eq_ok.1 h1
      rw [Except.bind_eq_ok] at h
      obtain ⟨⟨bl, rest⟩, h5, h⟩ := h
      dsimp only at h
      rw [Except.bind_eq_ok] at h
      obtain ⟨_, h6, h⟩ := h
      cases h
      obtain ⟨hs, rfl⟩ := decodeBlind_ok.1 h5
      have hrest : rest = [] := by simpa [raiseIf] using h6
      subst hrest
      refine ⟨⟨hj, l1, hs⟩, ?_⟩
      simp [encodeInputShare]
    · rintro ⟨hs, he⟩
      cases s with
      | leader m p bl => exact absurd hs.1 hj
      | helper s bl =>
        obtain ⟨-, l1, hs⟩ := hs
        cases he
        rw [front_append' l1]
        simp only [Except.ok_bind']
        rw [decodeBlind_ok.2 ⟨hs, (List.append_nil _).symm⟩]
        rfl

theorem decodeVerifierShare_ok {st : List F × Option Bytes} {b : Bytes} {s : List F × Option Bytes} :
    P.decodeVerifierShare st b = .ok s ↔
      Spec.Of.VerifierShareShape P s ∧ P.encodeVerifierShare s = .ok b := by
  unfold decodeVerifierShare
  constructor
  · intro h
    rw [Except.bind_eq_ok] at h
    obtain ⟨⟨a1, b1⟩, h1, h⟩ := h
    dsimp only at h
    obtain ⟨rfl, l1⟩ := front_eq_ok.1 h1
    rw [Except.bind_eq_ok] at h
    obtain ⟨m, h3, h⟩ := h
    rw [Except.bind_eq_ok] at h
    obtain ⟨⟨bl, rest⟩, h5, h⟩ := h
    dsimp only at h
    rw [Except.bind_eq_ok] at h
    obtain ⟨_, h6, h⟩ := h
    cases h
    rw [decodeVec_eq_ok] at h3
    subst h3
    obtain ⟨hs, rfl⟩ := decodeBlind_ok.1 h5
    have hrest : rest = [] := by simpa [raiseIf] using h6
    subst hrest
    rw [mul_assoc, encAll_length_iff] at l1
    refine ⟨⟨l1, hs⟩, ?_⟩
    unfold encodeVerifierShare
    dsimp only
    rw [pyAssert_of' l1, encodeVec_eq]
    simp
  · obtain ⟨m, bl⟩ := s
    rintro ⟨⟨l1, hs⟩, he⟩
    unfold encodeVerifierShare at he
    dsimp only at he l1
    rw [pyAssert_of' l1, encodeVec_eq] at he
    cases he
    rw [front_append' (by rw [mul_assoc]; exact encAll_length_iff.2 l1)]
    simp only [Except.ok_bind']
    rw [decodeVec_encAll]
    simp only [Except.ok_bind']
    rw [decodeBlind_ok.2 ⟨hs, (List.append_nil _).symm⟩]
    rfl

/-- The loop of `decode_public_share`. -/
theorem partsLoop_ok {n k : ℕ} {parts : List Bytes} {b rest : Bytes} :
    forFold (List.range n) (([] : List Bytes), b) (fun (x : List Bytes × Bytes) _ => do
      let (part, encoded) ← front k x.2
      return (x.1 ++ [part], encoded)) = .ok (parts, rest) ↔
      parts.length = n ∧ (∀ p ∈ parts, p.length = k) ∧ b = concat parts ++ rest := by
  induction n generalizing parts rest with
  | zero =>
    constructor
    · intro h; cases h; simp [concat]
    · rintro ⟨h1, -, rfl⟩
      have := List.length_eq_zero_iff.1 h1
      subst this
      simp [concat]
  | succ n ih =>
    rw [List.range_succ, forFold_append, Except.bind_eq_ok]
    constructor
    · rintro ⟨⟨ps, r⟩, h1, h2⟩
      obtain ⟨l, hp, rfl⟩ := ih.1 h1
      rw [forFold_cons] at h2
      dsimp only at h2
      obtain ⟨s, h3, h2⟩ := Except.bind_eq_ok.1 h2
      obtain ⟨⟨a, r'⟩, h4, h3⟩ := Except.bind_eq_ok.1 h3
      cases h3; cases h2
      obtain ⟨rfl, la⟩ := front_eq_ok.1 h4
      refine ⟨by simp [l], ?_, by simp [concat]⟩
      intro p hp'
      rcases List.mem_append.1 hp' with h | h
      · exact hp p h
      · rw [List.mem_singleton.1 h]; exact la
    · rintro ⟨h1, h2, rfl⟩
      rcases List.eq_nil_or_concat' parts with rfl | ⟨ps, p, rfl⟩
      · simp at h1
      · refine ⟨(ps, p ++ rest), ih.2 ⟨by simpa using h1, fun q hq => h2 q (by simp [hq]), by simp [concat]⟩, ?_⟩
        rw [forFold_cons]
        dsimp only
        rw [front_append' (h2 p (by simp))]
        rfl

theorem decodePublicShare_ok (hj : 0 < P.flp.jointRandLen) {b : Bytes} {s : Option (List Bytes)} :
    P.decodePublicShare b = .ok s ↔
      Spec.Of.PublicShareShape P s ∧ encodePublicShare s = .ok b := by
  unfold decodePublicShare
  rw [if_neg (by omega)]
  constructor
  · intro h
    rw [Except.bind_eq_ok] at h
    obtain ⟨⟨parts, rest⟩, h1, h⟩ := h
    dsimp only at h
    rw [Except.bind_eq_ok] at h
    obtain ⟨_, h6, h⟩ := h
    cases h
    obtain ⟨l, hp, rfl⟩ := partsLoop_ok.1 h1
    have hrest : rest = [] := by simpa [raiseIf] using h6
    subst hrest
    exact ⟨⟨hj, l, hp⟩, by simp [encodePublicShare]⟩
  · rintro ⟨hs, he⟩
    cases s with
    | none => simp only [Spec.Of.PublicShareShape] at hs; omega
    | some parts =>
      obtain ⟨-, l, hp⟩ := hs
      cases he
      have := (partsLoop_ok (n := P.shares) (k := X.seedSize) (parts := parts) (rest := [])).2
        ⟨l, hp, (List.append_nil _).symm⟩
      simp only at this ⊢
      rw [this]
      rfl

end Prio3Of
end Vdaf
