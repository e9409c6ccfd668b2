import Verif.Proofs.Poplar1Run
import Verif.Proofs.Count
import Mathlib.Algebra.Polynomial.Roots
import Mathlib.Algebra.Polynomial.Degree.Lemmas
import Mathlib.Algebra.Polynomial.Degree.SmallDegree

/-! Soundness of the Poplar1 sketch. -/

set_option linter.unusedSectionVars false

namespace Vdaf
open Finset

section
variable {F : Type} [Field F]

open Polynomial in
theorem quad_roots (a b c : F) (h : a ≠ 0) : ∃ s : Finset F, s.card ≤ 2 ∧ ∀ x, a * x ^ 2 + b * x + c = 0 → x ∈ s := by
  classical
  have hdeg := natDegree_quadratic (b := b) (c := c) h
  have h0 : C a * X ^ 2 + C b * X + C c ≠ 0 := by
    intro h1
    rw [h1] at hdeg
    simp at hdeg
  refine ⟨(C a * X ^ 2 + C b * X + C c).roots.toFinset, ?_, fun x hx => ?_⟩
  · exact (Multiset.toFinset_card_le _).trans ((card_roots' _).trans hdeg.le)
  · rw [Multiset.mem_toFinset, mem_roots h0]
    simpa [IsRoot] using hx

/-- The value that is zero if verification succeeds, as a function of the verification randomness -/
def sigmaF {n : ℕ} (d h : Fin n → F) (a b c A B : F) (r : Fin n → F) : F :=
  (a + ∑ i, d i * r i) ^ 2 - (b + ∑ i, d i * r i ^ 2) - (c + ∑ i, h i * r i) + A * (a + ∑ i, d i * r i) + B

theorem sum_update {n : ℕ} (e : Fin n → F) (g : F → F) (r : Fin n → F) (i : Fin n) (x : F) :
    ∑ k, e k * g (Function.update r i x k) = e i * g x + ∑ k ∈ univ.erase i, e k * g (r k) := by
  classical
  rw [← add_sum_erase univ _ (mem_univ i), Function.update_self]
  congr 1
  refine sum_congr rfl fun k hk => ?_
  rw [Function.update_of_ne (ne_of_mem_erase hk)]

theorem sigmaF_update {n : ℕ} (d h : Fin n → F) (a b c A B : F) (r : Fin n → F) (i : Fin n) (x : F) :
    sigmaF d h a b c A B (Function.update r i x) =
      (d i ^ 2 - d i) * x ^ 2 + (d i * (2 * (a + ∑ k ∈ univ.erase i, d k * r k) + A) - h i) * x +
      ((a + ∑ k ∈ univ.erase i, d k * r k) ^ 2 - (b + ∑ k ∈ univ.erase i, d k * r k ^ 2) -
        (c + ∑ k ∈ univ.erase i, h k * r k) + A * (a + ∑ k ∈ univ.erase i, d k * r k) + B) := by
  unfold sigmaF
  rw [sum_update d (fun y => y), sum_update d (fun y => y ^ 2), sum_update h (fun y => y)]
  ring

theorem sigmaF_card [Fintype F] {n : ℕ} (h2 : (2 : F) ≠ 0) (d h : Fin n → F) (a b c A B : F)
    (h0 : ¬ ∀ i, d i = 0) (h1 : ¬ ∃ i0, ∀ i, d i = if i = i0 then 1 else 0) :
    Set.ncard {r : Fin n → F | sigmaF d h a b c A B r = 0} ≤ 2 * Fintype.card F ^ (n - 1) := by
  classical
  by_cases hq : ∃ i, d i ^ 2 - d i ≠ 0
  · obtain ⟨i, hi⟩ := hq
    refine ncard_le_of_fibre _ i 2 fun f => ?_
    obtain ⟨s, hs, hs'⟩ := quad_roots (d i ^ 2 - d i) _ _ hi
    refine ⟨s, hs, fun x hx => hs' x ?_⟩
    rw [sigmaF_update] at hx
    exact hx
  · push Not at hq
    have hbit : ∀ i, d i = 0 ∨ d i = 1 := by
      intro i
      have : d i * (d i - 1) = 0 := by rw [← hq i]; ring
      rcases mul_eq_zero.1 this with h | h
      · exact .inl h
      · exact .inr (sub_eq_zero.1 h)
    obtain ⟨i, hi⟩ : ∃ i, d i = 1 := by
      by_contra hn
      push Not at hn
      exact h0 fun i => (hbit i).resolve_right (hn i)
    obtain ⟨j, hji, hj⟩ : ∃ j, j ≠ i ∧ d j = 1 := by
      by_contra hn
      push Not at hn
      refine h1 ⟨i, fun k => ?_⟩
      by_cases hk : k = i
      · rw [if_pos hk, hk, hi]
      · rw [if_neg hk]
        exact (hbit k).resolve_right (hn k hk)
    -- the coefficient of `r i`
    set L : (Fin n → F) → F := fun r => 2 * (a + ∑ k ∈ univ.erase i, d k * r k) + A - h i with hL
    have hLi : ∀ r x, L (Function.update r i x) = L r := by
      intro r x
      simp only [hL]
      rw [sum_congr rfl fun k hk => by rw [Function.update_of_ne (ne_of_mem_erase hk)]]
    have hLj : ∀ r x, L (Function.update r j x) =
        2 * x + (2 * (a + ∑ k ∈ (univ.erase i).erase j, d k * r k) + A - h i) := by
      intro r x
      simp only [hL]
      rw [← add_sum_erase (univ.erase i) _ (mem_erase.2 ⟨hji, mem_univ j⟩), Function.update_self, hj,
        sum_congr rfl fun k hk => by rw [Function.update_of_ne (ne_of_mem_erase hk)]]
      ring
    have c1 : Set.ncard {r : Fin n → F | L r = 0} ≤ 1 * Fintype.card F ^ (n - 1) := by
      refine ncard_le_of_fibre _ j 1 fun f => ?_
      refine ⟨{-(2 * (a + ∑ k ∈ (univ.erase i).erase j, d k * f k) + A - h i) / 2}, by simp, fun x hx => ?_⟩
      rw [hLj] at hx
      rw [mem_singleton, eq_div_iff h2]
      linear_combination hx
    have c2 : Set.ncard {r : Fin n → F | L r ≠ 0 ∧ sigmaF d h a b c A B r = 0} ≤ 1 * Fintype.card F ^ (n - 1) := by
      refine ncard_le_of_fibre _ i 1 fun f => ?_
      refine ⟨{-((a + ∑ k ∈ univ.erase i, d k * f k) ^ 2 - (b + ∑ k ∈ univ.erase i, d k * f k ^ 2) -
        (c + ∑ k ∈ univ.erase i, h k * f k) + A * (a + ∑ k ∈ univ.erase i, d k * f k) + B) / L f}, by simp,
        fun x hx => ?_⟩
      rw [hLi, sigmaF_update] at hx
      rw [mem_singleton, eq_div_iff hx.1]
      have := hx.2
      rw [hi] at this
      simp only [hL]
      linear_combination this
    calc Set.ncard {r : Fin n → F | sigmaF d h a b c A B r = 0}
        ≤ Set.ncard ({r : Fin n → F | L r = 0} ∪ {r : Fin n → F | L r ≠ 0 ∧ sigmaF d h a b c A B r = 0}) := by
          refine Set.ncard_le_ncard (fun r hr => ?_) (Set.toFinite _)
          by_cases hl : L r = 0
          · exact .inl hl
          · exact .inr ⟨hl, hr⟩
      _ ≤ _ := Set.ncard_union_le _ _
      _ ≤ _ := Nat.add_le_add c1 c2
      _ = _ := by ring

end

namespace Poplar1
variable {P : Poplar1} {prims : Prims} {fuel : ℕ}

theorem sigma_eq_sigmaF {κ : Kind} {n : ℕ} (d h : ℕ → Fk κ) (r : List (Fk κ)) (hr : r.length = n) (a b c A B : Fk κ) :
    sigma r.length d h (fun i => coef r i) a b c A B =
      sigmaF (fun i : Fin n => d i) (fun i => h i) a b c A B fun i => coef r i := by
  subst hr
  unfold sigma sigmaF
  rw [Fin.sum_univ_eq_sum_range fun i => d i * coef r i, Fin.sum_univ_eq_sum_range fun i => d i * coef r i ^ 2,
    Fin.sum_univ_eq_sum_range fun i => h i * coef r i]

theorem two_ne_zero' (κ : Kind) : (2 : Fk κ) ≠ 0 := by
  intro h
  have h2 := two_lt_modulus κ
  have := toNat_natCast_mod (F := Fk κ) 2
  rw [Nat.mod_eq_of_lt h2] at this
  push_cast at this
  rw [h, toNat_zero] at this
  cases this

theorem verifyRand_eq {vk ctx nonce : Bytes} {level n : ℕ} {r : List (Fk (P.idpf.currentField level))}
    (h : P.verifyRand prims fuel vk ctx nonce level n = .ok r) :
    Spec.poplar1VerifyRand P prims fuel vk ctx nonce level n = .ok r := by
  unfold verifyRand at h
  rw [Except.bind_eq_ok] at h
  obtain ⟨tag, h1, h⟩ := h
  rw [Except.bind_eq_ok] at h
  obtain ⟨lv, h2, h⟩ := h
  obtain ⟨-, -, rfl⟩ := Prio3.tag_ok_iff.1 h1
  have hl : level < 256 ^ 2 := by
    obtain ⟨v, hv, hv', -⟩ := toBeBytes_eq_ok.1 h2
    rw [Nat.cast_injective hv]
    exact hv'
  rw [toBeBytes_nat hl] at h2
  cases h2
  have : (natToLe level 2).reverse = [UInt8.ofNat (level / 2 ^ 8), UInt8.ofNat level] := by
    simp only [natToLe, List.reverse_cons, List.reverse_nil, List.nil_append, List.cons_append, List.cons.injEq, and_true]
    constructor <;> (apply UInt8.toNat_inj.1; simp)
  rw [this] at h
  exact h

/-- The facts of `InitRun` that do not depend on the verification key -/
structure Fixed (P : Poplar1) (prims : Prims) (fuel : ℕ) (ctx : Bytes) (level : ℕ)
    (prefixes : List (List Bool)) (nonce : Bytes) (pub : List CorrectionWord) (s0 s1 : Poplar1InputShare)
    (v0 v1 : List (List (Fk (P.idpf.currentField level)))) (corr0 corr1 : Fk (P.idpf.currentField level) × _ × _)
    (A0 B0 A1 B1 : Fk (P.idpf.currentField level)) : Prop where
  eval0 : P.idpf.eval prims fuel (0 : ℕ) pub s0.key level prefixes ctx nonce = .ok v0
  eval1 : P.idpf.eval prims fuel (1 : ℕ) pub s1.key level prefixes ctx nonce = .ok v1
  corr0 : P.corrShares prims fuel ctx 0 level nonce s0.corrSeed = .ok [corr0.1, corr0.2.1, corr0.2.2]
  corr1 : P.corrShares prims fuel ctx 1 level nonce s1.corrSeed = .ok [corr1.1, corr1.2.1, corr1.2.2]
  ab0 : abShares level s0.corrInner s0.corrLeaf _ = [A0, B0]
  ab1 : abShares level s1.corrInner s1.corrLeaf _ = [A1, B1]

theorem succeeds_iff {vk ctx nonce : Bytes} {level : ℕ} {prefixes : List (List Bool)} {pub : List CorrectionWord}
    {s0 s1 : Poplar1InputShare} {out0 out1 : FieldVec}
    (h : Spec.Poplar1Succeeds P prims fuel vk ctx (level, prefixes) nonce pub s0 s1 out0 out1) :
    ∃ v0 v1 corr0 corr1 A0 B0 A1 B1 r,
      Fixed P prims fuel ctx level prefixes nonce pub s0 s1 v0 v1 corr0 corr1 A0 B0 A1 B1 ∧
      P.verifyRand prims fuel vk ctx nonce level prefixes.length = .ok r ∧
      out0 = ⟨_, tab r.length fun i => ent v0 i 0⟩ ∧ out1 = ⟨_, tab r.length fun i => ent v1 i 0⟩ ∧
      sigma r.length (fun i => tot v0 v1 i 0) (fun i => tot v0 v1 i 1) (fun i => coef r i)
        (corr0.1 + corr1.1) (corr0.2.1 + corr1.2.1) (corr0.2.2 + corr1.2.2) (A0 + A1) (B0 + B1) = 0 := by
  obtain ⟨st0, sh0, st1, sh1, m, st0', sh0', st1', sh1', m', h0, h1, hm, n0, n1, hm', o0, o1⟩ := h
  obtain ⟨v0, corr0, A0, B0, r, R0, rfl, rfl⟩ := (verifyInit_iff (by decide)).1 h0
  obtain ⟨v1, corr1, A1, B1, r', R1, rfl, rfl⟩ := (verifyInit_iff (by decide)).1 h1
  have := R0.rand.symm.trans R1.rand
  cases this
  rw [message_three] at hm
  cases hm
  rw [next_evaluate] at n0 n1
  cases n0
  cases n1
  rw [message_one] at hm'
  split at hm'
  · next hz =>
    cases hm'
    cases o0
    cases o1
    refine ⟨v0, v1, corr0, corr1, A0, B0, A1, B1, r,
      ⟨R0.eval, R1.eval, R0.corr, R1.corr, R0.ab, R1.ab⟩, R0.rand, rfl, rfl, ?_⟩
    rw [← hz]
    exact (sigma_eq v0 v1 r corr0.1 corr0.2.1 corr0.2.2 corr1.1 corr1.2.1 corr1.2.2 A0 B0 A1 B1).symm
  · cases hm'

theorem zeroOrUnit_of {F : Type} [Zero F] [One F] {n : ℕ} {f : ℕ → F}
    (h : (∀ i : Fin n, f i = 0) ∨ ∃ i0 : Fin n, ∀ i : Fin n, f i = if i = i0 then 1 else 0) :
    Spec.ZeroOrUnit (tab n f) := by
  unfold Spec.ZeroOrUnit
  rw [tab_length]
  rcases h with h | ⟨i0, h⟩
  · left
    refine List.ext_getElem (by simp) fun i hi hi' => ?_
    rw [tab_getElem, List.getElem_replicate]
    exact h ⟨i, by simpa using hi⟩
  · right
    refine ⟨i0, i0.2, List.ext_getElem (by simp) fun i hi hi' => ?_⟩
    rw [tab_getElem, List.getElem_set, List.getElem_replicate]
    have := h ⟨i, by simpa using hi⟩
    dsimp only at this
    rw [this]
    by_cases hii : (i0 : ℕ) = i
    · rw [if_pos hii, if_pos (Fin.ext hii.symm)]
    · rw [if_neg hii, if_neg]
      intro h
      exact hii (congrArg Fin.val h).symm

section
variable (P : Poplar1) (prims : Prims) (fuel : ℕ) (ctx : Bytes) (level : ℕ) (prefixes : List (List Bool)) (nonce : Bytes)
  (pub : List CorrectionWord) (s0 s1 : Poplar1InputShare)

/-- The values at the prefixes are zero, or 1 at one of them and 0 at the others. -/
def GoodValues {F : Type} [Zero F] [One F] (n : ℕ) (d : ℕ → F) : Prop :=
  (∀ i : Fin n, d i = 0) ∨ ∃ i0 : Fin n, ∀ i : Fin n, d i = if i = i0 then 1 else 0

/-- The verification randomness for which verification succeeds although the output is wrong -/
def badRand : Set (Fin prefixes.length → Fk (P.idpf.currentField level)) :=
  {r | ∃ v0 v1 corr0 corr1 A0 B0 A1 B1,
    Fixed P prims fuel ctx level prefixes nonce pub s0 s1 v0 v1 corr0 corr1 A0 B0 A1 B1 ∧
    ¬ GoodValues prefixes.length (fun i => tot v0 v1 i 0) ∧
    sigmaF (fun i : Fin prefixes.length => tot v0 v1 i 0) (fun i => tot v0 v1 i 1) (corr0.1 + corr1.1)
      (corr0.2.1 + corr1.2.1) (corr0.2.2 + corr1.2.2) (A0 + A1) (B0 + B1) r = 0}

theorem badRand_card : (badRand P prims fuel ctx level prefixes nonce pub s0 s1).ncard ≤
    2 * PyField.modulus (Fk (P.idpf.currentField level)) ^ (prefixes.length - 1) := by
  classical
  by_cases he : ∃ r, r ∈ badRand P prims fuel ctx level prefixes nonce pub s0 s1
  · obtain ⟨r, v0, v1, corr0, corr1, A0, B0, A1, B1, H, hg, -⟩ := he
    have hsub : badRand P prims fuel ctx level prefixes nonce pub s0 s1 ⊆
        {r | sigmaF (fun i : Fin prefixes.length => tot v0 v1 i 0) (fun i => tot v0 v1 i 1)
        (corr0.1 + corr1.1) (corr0.2.1 + corr1.2.1) (corr0.2.2 + corr1.2.2) (A0 + A1) (B0 + B1) r = 0} := by
      rintro r' ⟨v0', v1', corr0', corr1', A0', B0', A1', B1', H', -, hs⟩
      have e0 := H.eval0.symm.trans H'.eval0
      have e1 := H.eval1.symm.trans H'.eval1
      have e2 := H.corr0.symm.trans H'.corr0
      have e3 := H.corr1.symm.trans H'.corr1
      have e4 := H.ab0.symm.trans H'.ab0
      have e5 := H.ab1.symm.trans H'.ab1
      simp only [Except.ok.injEq, List.cons.injEq, and_true] at e0 e1 e2 e3 e4 e5
      rw [Set.mem_ofPred_eq, e0, e1, e2.1, e2.2.1, e2.2.2, e3.1, e3.2.1, e3.2.2, e4.1, e4.2, e5.1, e5.2]
      exact hs
    refine (Set.ncard_le_ncard hsub (Set.toFinite _)).trans ?_
    rw [← card_eq]
    exact sigmaF_card (two_ne_zero' _) _ _ _ _ _ _ _ (fun h => hg (.inl h)) (fun h => hg (.inr h))
  · have : badRand P prims fuel ctx level prefixes nonce pub s0 s1 = ∅ :=
      Set.eq_empty_iff_forall_notMem.2 fun r hr => he ⟨r, hr⟩
    rw [this, Set.ncard_empty]
    exact Nat.zero_le _

variable {P prims fuel ctx level prefixes nonce pub s0 s1}

theorem good_or_badRand {vk : Bytes} {out0 out1 : FieldVec}
    (h : Spec.Poplar1Succeeds P prims fuel vk ctx (level, prefixes) nonce pub s0 s1 out0 out1) :
    ∃ (u0 u1 u : List (Fk (P.idpf.currentField level)))
      (r : Fin prefixes.length → Fk (P.idpf.currentField level)),
      out0 = ⟨_, u0⟩ ∧ out1 = ⟨_, u1⟩ ∧ Spec.IsSum ![u0, u1] u ∧ u.length = prefixes.length ∧
      P.verifyRand prims fuel vk ctx nonce level prefixes.length = .ok (List.ofFn r) ∧
      (Spec.ZeroOrUnit u ∨ r ∈ badRand P prims fuel ctx level prefixes nonce pub s0 s1) := by
  classical
  set n := prefixes.length with hn
  obtain ⟨v0, v1, corr0, corr1, A0, B0, A1, B1, r, H, hr, rfl, rfl, hs⟩ := succeeds_iff h
  have lr : r.length = n := verifyRand_length hr
  rw [sigma_eq_sigmaF _ _ _ lr] at hs
  refine ⟨_, _, tab n fun i => tot v0 v1 i 0, fun i => coef r i, rfl, rfl, ?_, by simp [hn], ?_, ?_⟩
  · refine isSum_iff.2 ⟨fun i => ?_, fun j => ?_⟩
    · fin_cases i <;> simp [lr]
    · simp only [Fin.sum_univ_two, Matrix.cons_val_zero, Matrix.cons_val_one, coef_tab, lr]
      by_cases hj : j < n
      · simp only [if_pos hj]; rfl
      · simp only [if_neg hj, add_zero]
  · rw [hr]
    congr 1
    refine List.ext_getElem (by simp only [List.length_ofFn, lr]; exact hn.symm ▸ rfl) fun i hi hi' => ?_
    rw [List.getElem_ofFn, coef_of_lt hi]
  · by_cases hg : GoodValues n (fun i => tot v0 v1 i 0)
    · exact .inl (zeroOrUnit_of hg)
    · exact .inr ⟨v0, v1, corr0, corr1, A0, B0, A1, B1, H, hg, hs⟩

end
end Poplar1
end Vdaf
