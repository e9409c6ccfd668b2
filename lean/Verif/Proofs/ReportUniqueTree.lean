import Verif.Proofs.Idpf

/-!
# Auxiliary results for C93: the public share and the keys determine the point and the values
-/

namespace Vdaf
namespace Idpf
variable {I : Idpf} {prims : Prims} {fuel : ℕ} {alpha alpha' : List Bool}
  {beta beta' : (level : ℕ) → List (Fk (I.currentField level))} {ctx nonce key0 key1 : Bytes} {n : ℕ}
  {pub : List CorrectionWord} {N N' : ℕ → (Bytes × Bytes) × (Bool × Bool)}

theorem GenRun.unique (h : GenRun I prims fuel alpha beta ctx nonce key0 key1 n pub N)
    (h' : GenRun I prims fuel alpha' beta' ctx nonce key0 key1 n pub N') :
    ∀ ℓ ≤ n, N ℓ = N' ℓ ∧ (N ℓ).2.1 ≠ (N ℓ).2.2 ∧ ∀ k < ℓ, alpha[k]? = alpha'[k]? ∧ beta k = beta' k := by
  intro ℓ
  induction ℓ with
  | zero =>
    intro _
    rw [h.zero, h'.zero]
    simp
  | succ ℓ ih =>
    intro hℓ
    obtain ⟨hN, hc, hk⟩ := ih (by omega)
    obtain ⟨bit, cw, ha, hp, hs⟩ := h.step ℓ (by omega)
    obtain ⟨bit', cw', ha', hp', hs'⟩ := h'.step ℓ (by omega)
    rw [hp] at hp'
    cases hp'
    rw [← hN] at hs'
    have hb : bit = bit' := by
      by_contra hne
      have hne : bit' = !bit := by cases bit <;> cases bit' <;> simp_all
      subst hne
      obtain ⟨y0, y1, e0, e1, -⟩ := hs'.on hc
      rw [hs.off hc, e1] at e0
      simp only [Except.ok.injEq, Prod.mk.injEq] at e0
      exact hs'.ctrl_ne hc e0.2.1.symm
    subst hb
    obtain ⟨y0, y1, e0, e1, -, -, e2⟩ := hs.on hc
    obtain ⟨y0', y1', e0', e1', -, -, e2'⟩ := hs'.on hc
    rw [e0] at e0'
    rw [e1] at e1'
    simp only [Except.ok.injEq, Prod.mk.injEq] at e0' e1'
    obtain ⟨a1, a2, rfl⟩ := e0'
    obtain ⟨b1, b2, rfl⟩ := e1'
    refine ⟨Prod.ext (Prod.ext a1 b1) (Prod.ext a2 b2), hs.ctrl_ne hc, fun k hk' => ?_⟩
    rcases Nat.lt_succ_iff_lt_or_eq.1 hk' with hlt | rfl
    · exact hk k hlt
    · exact ⟨by rw [ha, ha'], by rw [← e2, ← e2']⟩

theorem GenRun.alpha_eq (h : GenRun I prims fuel alpha beta ctx nonce key0 key1 n pub N)
    (h' : GenRun I prims fuel alpha' beta' ctx nonce key0 key1 n pub N') (ha : alpha.length = n)
    (ha' : alpha'.length = n) : alpha = alpha' := by
  apply List.ext_getElem?
  intro i
  by_cases hi : i < n
  · exact ((h.unique h' n le_rfl).2.2 i hi).1
  · rw [List.getElem?_eq_none (by omega), List.getElem?_eq_none (by omega)]

end Idpf
end Vdaf
