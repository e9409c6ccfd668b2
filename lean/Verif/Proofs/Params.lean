import Verif.Proofs.Reuse

/-! Aggregators that disagree with the Client on the parameters of SumVec -/

namespace Vdaf
open Finset

namespace Prio3
variable {X : Xof} {F : Type} [NttField F]

theorem sumVec_params {l1 m1 l2 m2 cl : ℕ} (h : l1 * Nat.size m1 = l2 * Nat.size m2) :
    SumVec.circuit F l2 m2 cl = { SumVec.circuit F l1 m1 cl with
      outputLen := (SumVec.circuit F l2 m2 cl).outputLen
      encode := (SumVec.circuit F l2 m2 cl).encode
      truncate := (SumVec.circuit F l2 m2 cl).truncate
      decode := (SumVec.circuit F l2 m2 cl).decode } := by
  unfold SumVec.circuit
  rw [h]

theorem params {prims : Prims} {fuel id shares proofs l1 m1 l2 m2 cl : ℕ} {V1 V2 : Valid F (List Int) (List ℕ)}
    {P1 P2 : Prio3 (XofTurboShake128 prims fuel) F (List Int) (List ℕ)} (h1 : SumVec F l1 m1 cl = .ok V1)
    (h2 : SumVec F l2 m2 cl = .ok V2) (h : l1 * Nat.size m1 = l2 * Nat.size m2)
    (hP1 : Prio3.init id _ shares V1 proofs = .ok P1) (hP2 : Prio3.init id _ shares V2 proofs = .ok P2)
    (I : Spec.Instance P1 (Spec.sumVecFun l1 m1)) (hp : 0 < proofs)
    {vk ctx nonce : Bytes} {pub : Option (List Bytes)} {ish : ℕ → Prio3InputShare F}
    {st sh : ℕ → List F × Option Bytes} {msg : Option Bytes}
    (hv : Spec.VerifySucceeds P1 vk ctx nonce pub ish st sh msg) :
    ∃ st', Spec.VerifySucceeds P2 vk ctx nonce pub ish st' sh msg ∧
      ∀ j < shares, ∀ ms ps bl, Spec.Expands P1 ctx j (ish j) ms ps bl → V2.truncate ms = .ok (st' j).1 := by
  obtain ⟨pl, e1, -, -, rfl⟩ := Prio3.init_ok.1 hP1
  obtain ⟨pl', e1', -, -, rfl⟩ := Prio3.init_ok.1 hP2
  obtain ⟨-, -, -, -, rfl⟩ := SumVec_ok h1
  have hL := Library.encFacts (.sumVec h2)
  obtain ⟨-, -, -, -, rfl⟩ := SumVec_ok h2
  have W := I.wf
  have hN := W.shares_ge
  have hsl := W.shares_lt
  dsimp only at hN hsl
  obtain ⟨msf, psf, blf, jrs, qrs, g1, g2, g3, g4⟩ := joint_of_success (by dsimp only; omega) hv
  dsimp only at g1 g4
  obtain ⟨jr', qr', -, -, hlen, -⟩ := first_query W hp g1 hv
  dsimp only at hlen
  have hms := isSum_range hlen
  obtain ⟨os, o, -, ho, -⟩ := hL.trunc _ _ hms (by rw [tab_length]; exact h)
  have hplen : pl = pl' := by
    rw [sumVec_params h] at e1'
    exact Except.ok.inj (e1.symm.trans e1')
  subst hplen
  refine ⟨fun j => (if hj : j < shares then os ⟨j, hj⟩ else [], (st j).2), ⟨fun j hj => ?_, ?_, fun j hj => ?_⟩, ?_⟩
  · have := hv.1 j hj
    dsimp only at hj ⊢
    rw [dif_pos hj]
    have ht := ho ⟨j, hj⟩
    rw [sumVec_params h] at ht ⊢
    unfold verifyInit at this ⊢
    have gj := g1 j hj
    obtain ⟨⟨ms, ps, bl⟩, a1, this⟩ := Except.bind_eq_ok.1 this
    obtain ⟨o', a2, this⟩ := Except.bind_eq_ok.1 this
    obtain ⟨⟨jrs, c, p⟩, a3, this⟩ := Except.bind_eq_ok.1 this
    obtain ⟨qrs, a4, this⟩ := Except.bind_eq_ok.1 this
    obtain ⟨w, a5, this⟩ := Except.bind_eq_ok.1 this
    rw [gj] at a1
    have a1 := Except.ok.inj a1
    have hm : msf j = ms := congrArg Prod.fst a1
    have h6 := Except.ok.inj this
    have h7 : st j = (o', c) := (congrArg Prod.fst h6).symm
    have h8 : sh j = (w, p) := (congrArg Prod.snd h6).symm
    refine Except.bind_eq_ok.2 ⟨(ms, ps, bl), gj.trans (congrArg Except.ok a1), ?_⟩
    refine Except.bind_eq_ok.2 ⟨os ⟨j, hj⟩, by rw [hm] at ht; exact ht, ?_⟩
    refine Except.bind_eq_ok.2 ⟨(jrs, c, p), a3, ?_⟩
    refine Except.bind_eq_ok.2 ⟨qrs, a4, ?_⟩
    refine Except.bind_eq_ok.2 ⟨w, a5, ?_⟩
    rw [h7, h8]
    rfl
  · have := hv.2.1
    rw [sumVec_params h]
    exact this
  · obtain ⟨r, hr⟩ := hv.2.2 j hj
    rw [verifyNext_ok_iff.1 ⟨r, hr⟩]
    exact verifyNext_ok_iff.2 rfl
  · intro j hj ms ps bl he
    have gj := g1 j hj
    have := expandInputShare_of W.id W.proofs (by omega) he
    rw [gj] at this
    have hm : msf j = ms := congrArg Prod.fst (Except.ok.inj this)
    dsimp only
    rw [dif_pos hj, ← hm]
    exact ho ⟨j, hj⟩

end Prio3
end Vdaf
