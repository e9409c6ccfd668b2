import Verif.Proofs.Shamir
import Verif.Proofs.FlpProps
import Verif.Proofs.Encode
import Mathlib.Algebra.Module.BigOperators
import Mathlib.Algebra.BigOperators.Fin

namespace Vdaf.Shamir
open Finset

/-- A map that is additive up to constants commutes with affine combinations, as the field is prime. -/
theorem affine_of_additive {F X Y : Type} [PyField F] [AddCommGroup X] [Module F X] [AddCommGroup Y] [Module F Y]
    (Q R : X → Y) (h : ∀ x y, Q (x + y) = R x + R y) (n : ℕ) (l : ℕ → F) (hl : ∑ k ∈ range n, l k = 1)
    (x : ℕ → X) : Q (∑ k ∈ range n, l k • x k) = ∑ k ∈ range n, l k • Q (x k) := by
  have hQ : ∀ x, Q x = R x + R 0 := fun x => by rw [← h, add_zero]
  let D : X →+ Y :=
    { toFun := fun x => R x - R 0
      map_zero' := by simp
      map_add' := fun x y => by
        have := h x y
        rw [hQ (x + y)] at this
        rw [sub_add_sub_comm, ← this]
        abel }
  have hD : ∀ x, Q x = D x + Q 0 := fun x => by
    rw [hQ x, hQ 0]
    show _ = R x - R 0 + _
    abel
  have hsm : ∀ (c : F) (x : X), D (c • x) = c • D x := by
    intro c x
    rw [← PyField.natCast_toNat c, Nat.cast_smul_eq_nsmul, Nat.cast_smul_eq_nsmul, map_nsmul]
  rw [hD, map_sum]
  have : Q 0 = ∑ k ∈ range n, l k • Q 0 := by rw [← Finset.sum_smul, hl, one_smul]
  rw [this, ← Finset.sum_add_distrib]
  apply Finset.sum_congr rfl
  intro k _
  rw [hsm, ← smul_add, ← hD]

variable {F : Type} [NttField F] {Meas Agg : Type} {V : Valid F Meas Agg}

theorem two_lt_mod (F : Type) [NttField F] : 2 < PyField.modulus F := by
  by_contra hcon
  have h1 := one_lt_modulus F
  have h2 : PyField.modulus F = 2 := by omega
  have hg := NttField.orderOf_gen (F := F)
  have hpos := NttField.logOrder_pos (F := F)
  have hpow : NttField.genOrder F = 2 ^ NttField.logOrder F := NttField.genOrder_eq
  have hne : (2 : ℕ) ≤ NttField.genOrder F := by
    rw [hpow]; calc 2 = 2 ^ 1 := rfl
      _ ≤ _ := Nat.pow_le_pow_right (by norm_num) hpos
  have hcase : ∀ x : F, x = 0 ∨ x = 1 := by
    intro x
    have := PyField.toNat_lt x
    rw [h2] at this
    have hx := PyField.natCast_toNat x
    rcases (by omega : PyField.toNat x = 0 ∨ PyField.toNat x = 1) with h | h
    · left; rw [← hx, h]; simp
    · right; rw [← hx, h]; simp
  rcases hcase (NttField.gen : F) with h | h
  · have hp : (NttField.gen : F) ^ NttField.genOrder F = 1 := by rw [← hg]; exact pow_orderOf_eq_one _
    rw [h, zero_pow (by omega)] at hp
    exact zero_ne_one hp
  · rw [h, orderOf_one] at hg
    omega

theorem isSum_two {n : ℕ} (f g : ℕ → F) :
    Spec.IsSum (fun i : Fin 2 => tab n (if i = 0 then f else g)) (tab n (f + g)) :=
  isSum_tab fun j _ => by simp

theorem query_affine (h : V.Lawful) {qr jr : List F} (hqr : qr.length = V.queryRandLen)
    (hjr : jr.length = V.jointRandLen) (hb : ¬ Spec.BadTestPoint V qr) (n : ℕ) (l : ℕ → F)
    (hl : ∑ k ∈ range n, l k = 1) (ms πs : ℕ → ℕ → F) :
    ∃ vs : ℕ → ℕ → F,
      (∀ k, V.query (tab V.measLen (ms k)) (tab (V.off V.num) (πs k)) qr jr 1 = .ok (tab V.verifierLen (vs k))) ∧
      V.query (tab V.measLen fun i => ∑ k ∈ range n, l k * ms k i)
        (tab (V.off V.num) fun i => ∑ k ∈ range n, l k * πs k i) qr jr 1 =
        .ok (tab V.verifierLen fun i => ∑ k ∈ range n, l k * vs k i) := by
  have tot : ∀ N, 1 ≤ N → N < PyField.modulus F → ∀ x : (ℕ → F) × (ℕ → F), ∃ v,
      V.query (tab V.measLen x.1) (tab (V.off V.num) x.2) qr jr N = .ok v ∧ v.length = V.verifierLen := by
    intro N h1 h2 x
    rcases h.query_total (meas := tab V.measLen x.1) (π := tab (V.off V.num) x.2) (by simp)
      (h.proofLen_iff.2 (by simp)) hqr hjr h1 h2 with ⟨hb', _⟩ | ⟨_, hv⟩
    · exact absurd hb' hb
    · exact hv
  choose q1 hq1 hl1 using tot 1 le_rfl (one_lt_modulus F)
  choose q2 hq2 hl2 using tot 2 (by norm_num) (two_lt_mod F)
  have hadd : ∀ x y, (fun i => coef (q1 (x + y)) i) = (fun i => coef (q2 x) i) + fun i => coef (q2 y) i := by
    intro x y
    rcases h.query_sum (N := 2) (by norm_num) (two_lt_mod F) (isSum_two (n := V.measLen) x.1 y.1)
      (isSum_two (n := V.off V.num) x.2 y.2) (by simp) (by simp) hqr hjr with ⟨he, _⟩ | ⟨v, vs, e1, e2, e3⟩
    · have := hq1 (x + y)
      simp only [Prod.fst_add, Prod.snd_add] at this
      rw [he] at this
      cases this
    · have h1 := hq1 (x + y)
      simp only [Prod.fst_add, Prod.snd_add] at h1
      rw [e1] at h1
      cases h1
      have h0 := e2 0
      have h1 := e2 1
      simp only [if_true, one_ne_zero, if_false, Fin.isValue] at h0 h1
      rw [hq2 x] at h0
      rw [hq2 y] at h1
      have h0 := Except.ok.inj h0
      have h1 := Except.ok.inj h1
      funext i
      rw [(isSum_iff.1 e3).2 i, Fin.sum_univ_two, ← h0, ← h1]
      rfl
  have key := affine_of_additive (F := F) (fun x i => coef (q1 x) i) (fun x i => coef (q2 x) i) hadd n l hl
    fun k => (ms k, πs k)
  have self : ∀ x, q1 x = tab V.verifierLen fun i => coef (q1 x) i := by
    intro x
    apply list_eq_of_coef
    · rw [hl1, tab_length]
    · intro j hj
      rw [coef_tab, if_pos (by rw [← hl1 x]; exact hj)]
  refine ⟨fun k i => coef (q1 (ms k, πs k)) i, fun k => by rw [hq1 (ms k, πs k), ← self], ?_⟩
  have := hq1 (∑ k ∈ range n, l k • (ms k, πs k))
  have e1 : (∑ k ∈ range n, l k • (ms k, πs k)).1 = fun i => ∑ k ∈ range n, l k * ms k i := by
    funext i
    simp [Prod.fst_sum, Finset.sum_apply]
  have e2 : (∑ k ∈ range n, l k • (ms k, πs k)).2 = fun i => ∑ k ∈ range n, l k * πs k i := by
    funext i
    simp [Prod.snd_sum, Finset.sum_apply]
  rw [e1, e2] at this
  rw [this, self]
  congr 1
  apply tab_congr
  intro i _
  have := congrFun key i
  simp only [Finset.sum_apply, Pi.smul_apply, smul_eq_mul] at this
  exact this

theorem trunc_affine {fn : Spec.Fun Meas Agg} (hV : Spec.Library F V fn) (n : ℕ) (l : ℕ → F)
    (hl : ∑ k ∈ range n, l k = 1) (ms : ℕ → ℕ → F) :
    ∃ os : ℕ → ℕ → F, (∀ k, V.truncate (tab V.measLen (ms k)) = .ok (tab V.outputLen (os k))) ∧
      V.truncate (tab V.measLen fun i => ∑ k ∈ range n, l k * ms k i) =
        .ok (tab V.outputLen fun i => ∑ k ∈ range n, l k * os k i) := by
  have hT := (Library.encFacts hV).trunc (ι := Fin 2)
  have tot : ∀ x : ℕ → F, ∃ v, V.truncate (tab V.measLen x) = .ok v ∧ v.length = V.outputLen := by
    intro x
    obtain ⟨os, o, h1, -, -, h2⟩ := hT _ _ (isSum_two (n := V.measLen) x 0) (by simp)
    rw [add_zero] at h1
    exact ⟨o, h1, h2⟩
  choose q hq hlen using tot
  have hadd : ∀ x y, (fun i => coef (q (x + y)) i) = (fun i => coef (q x) i) + fun i => coef (q y) i := by
    intro x y
    obtain ⟨os, o, h1, h2, h3, -⟩ := hT _ _ (isSum_two (n := V.measLen) x y) (by simp)
    rw [hq] at h1
    cases h1
    have h0 := h2 0
    have h1 := h2 1
    simp only [if_true, one_ne_zero, if_false, Fin.isValue] at h0 h1
    rw [hq x] at h0
    rw [hq y] at h1
    have h0 := Except.ok.inj h0
    have h1 := Except.ok.inj h1
    funext i
    rw [(isSum_iff.1 h3).2 i, Fin.sum_univ_two, ← h0, ← h1]
    rfl
  have key := affine_of_additive (F := F) (fun x i => coef (q x) i) (fun x i => coef (q x) i) hadd n l hl ms
  have self : ∀ x, q x = tab V.outputLen fun i => coef (q x) i := by
    intro x
    apply list_eq_of_coef
    · rw [hlen, tab_length]
    · intro j hj
      rw [coef_tab, if_pos (by rw [← hlen x]; exact hj)]
  refine ⟨fun k i => coef (q (ms k)) i, fun k => by rw [hq (ms k), ← self], ?_⟩
  have := hq (∑ k ∈ range n, l k • ms k)
  have e1 : (∑ k ∈ range n, l k • ms k) = fun i => ∑ k ∈ range n, l k * ms k i := by
    funext i
    simp [Finset.sum_apply]
  rw [e1] at this
  rw [this, self]
  congr 1
  apply tab_congr
  intro i _
  have := congrFun key i
  simp only [Finset.sum_apply, Pi.smul_apply, smul_eq_mul] at this
  rw [e1] at this
  exact this

end Vdaf.Shamir
