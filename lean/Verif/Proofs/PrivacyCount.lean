import Verif.Proofs.PrivacyGuess

/-! How often the coalition evaluates the oracle at a secret input. -/

set_option linter.unusedSectionVars false

namespace Vdaf
open Finset
open Spec (secretInputs runWith tag seedAt bytesAt Coins Transcript FreshCoins batchSecrets QueryReply QueryMove
  QueryStrategy coinsOf oracles)
attribute [local instance] bytesFintype

namespace Prio3
variable {F : Type} [NttField F] {Meas Agg : Type} {prims : Prims} {fuel : ℕ}
variable (P : Prio3 (XofTurboShake128 prims fuel) F Meas Agg) (ctx : Bytes) (h n : ℕ) (nonces : ℕ → Bytes)

open Classical in
variable {n} in
/-- The seeds without the secret ones -/
noncomputable def publicSeeds (X : Seeds P n) : Seeds P n := fun k i =>
  if SecretIdx P h i then List.Vector.replicate 32 0 else X k i

open Classical in
variable {n} in
/-- Seeds with the given public ones -/
noncomputable def canonSeeds (X : Seeds P n) : Seeds P n :=
  if hx : ∃ X', FreshCoins P h n (coinsAt nonces X') ∧ publicSeeds P h X' = X then hx.choose else X

open Classical in
variable {n} in
/-- An oracle that takes the values at the secret inputs from `Q` -/
noncomputable def mixedSecrets {N : ℕ} (X : Seeds P n) (T : Bytes → ℕ → UInt8)
    (Q : Site F h n P.flp.jointRandLen P.flp.measLen → Fin N → UInt8) : Bytes → ℕ → UInt8 := fun x =>
  if hx : ∃ s, pos P ctx h n (coinsAt nonces X) s = x then withHead (fun _ => 0) (Q hx.choose) else T x

variable {P ctx h n nonces} {vk : Bytes} {m : ℕ → Meas} {σ : QueryStrategy F}

theorem canon_spec {X : Seeds P n} (hf : FreshCoins P h n (coinsAt nonces X)) :
    FreshCoins P h n (coinsAt nonces (canonSeeds P h nonces (publicSeeds P h X))) ∧
      ∀ k i, ¬ SecretIdx P h i.1 → canonSeeds P h nonces (publicSeeds P h X) k i = X k i := by
  have hx : ∃ X', FreshCoins P h n (coinsAt nonces X') ∧ publicSeeds P h X' = publicSeeds P h X := ⟨X, hf, rfl⟩
  unfold canonSeeds
  rw [dif_pos hx]
  refine ⟨hx.choose_spec.1, fun k i hi => ?_⟩
  have := congrFun (congrFun hx.choose_spec.2 k) i
  unfold publicSeeds at this
  rwa [if_neg hi, if_neg hi] at this

section
variable (W : P.WF) (hctx : ctx.length + 8 < 2 ^ 16)
include W hctx

theorem mixed_pos {N : ℕ} {X : Seeds P n} (hf : FreshCoins P h n (coinsAt nonces X)) (T : Bytes → ℕ → UInt8)
    (Q : Site F h n P.flp.jointRandLen P.flp.measLen → Fin N → UInt8) (s) :
    mixedSecrets P ctx h nonces X T Q (pos P ctx h n (coinsAt nonces X) s) = withHead (fun _ => 0) (Q s) := by
  have hx : ∃ s', pos P ctx h n (coinsAt nonces X) s' = pos P ctx h n (coinsAt nonces X) s := ⟨s, rfl⟩
  unfold mixedSecrets
  rw [dif_pos hx]
  congr 2
  exact pos_inj W hctx hf hx.choose_spec

omit W hctx in
theorem mixed_other {N : ℕ} {X : Seeds P n} (T : Bytes → ℕ → UInt8)
    (Q : Site F h n P.flp.jointRandLen P.flp.measLen → Fin N → UInt8) {x : Bytes}
    (hx : x ∉ batchSecrets P ctx h n (coinsAt nonces X)) : mixedSecrets P ctx h nonces X T Q x = T x := by
  unfold mixedSecrets
  rw [dif_neg fun hc => hx ((mem_batchSecrets ..).2 hc)]

variable (hh : h < P.shares) (hvk : vk.length = 32) {N : ℕ}
  (hN : fuel * PyField.encSize F ≤ N) (hN' : 32 ≤ N) (hn : ∀ k < n, (nonces k).length = 16)
  {a : ℕ → List F} (he : ∀ k < n, P.flp.encode (m k) = .ok (a k)) (ha : ∀ k < n, (a k).length = P.flp.measLen)
include hh hvk hN hN' hn he ha

/-- The first move that hits a secret input does not depend on the secret seeds. -/
theorem hit_ideal {X : Seeds P n} (hf : FreshCoins P h n (coinsAt nonces X)) {T T' : Bytes → ℕ → UInt8}
    {Q : Site F h n P.flp.jointRandLen P.flp.measLen → Fin N → UInt8}
    (hT : ∀ x ∉ batchSecrets P ctx h n (coinsAt nonces X), T' x = T x)
    (hQ : ∀ s (i : Fin N), Q s i = T (pos P ctx h n (coinsAt nonces X) s) i) {t : ℕ}
    {s : Site F h n P.flp.jointRandLen P.flp.measLen}
    (hs : FirstHit P ctx h n vk m σ (coinsAt nonces X) T t s) :
    QueryAt P ctx h n vk m σ (coinsAt nonces (canonSeeds P h nonces (publicSeeds P h X)))
      (mixedSecrets P ctx h nonces (canonSeeds P h nonces (publicSeeds P h X)) T' Q) T' t
      (pos P ctx h n (coinsAt nonces X) s) := by
  obtain ⟨⟨os, vs, h1, R, outs, h2, h3⟩, h4⟩ := hs
  obtain ⟨c1, c2⟩ := canon_spec hf
  refine ⟨os, vs, ?_, R, outs, ?_, h3⟩
  · refine sees_transport W hctx hh hvk hN hN' hn c2 ?_ ?_ he ha h1
    · intro x hx
      rw [mixed_other _ _ fun ⟨_, _, hc⟩ => hx _ _ hc]
      exact hT x fun ⟨_, _, hc⟩ => hx _ _ hc
    · intro s i hi
      rw [mixed_pos W hctx c1]
      unfold withHead
      rw [dif_pos hi]
      exact hQ s ⟨i, hi⟩
  · rw [← h2]
    refine (playQ_congr (D := batchSecrets P ctx h n (coinsAt nonces X)) (fun x hx => (hT x hx).symm) ?_).symm
    intro t' ht R' outs' hp x hx hq
    obtain ⟨s', rfl⟩ := (mem_batchSecrets ..).1 hx
    exact h4 t' ht s' ⟨os, vs, h1, R', outs', hp, hq⟩

theorem hit_count {S : Set Bytes} [Fintype S]
    (hS : ∀ X : Seeds P n, batchSecrets P ctx h n (coinsAt nonces X) ⊆ S) (t : ℕ) (k : Fin n) (i : Fin P.numSeeds)
    (hi : SecretIdx P h i) :
    Set.ncard {y : Seeds P n × (S → Fin N → UInt8) | FreshCoins P h n (coinsAt nonces y.1) ∧
        ∃ s, siteReport P h n s = k ∧ siteIdx P h s = i ∧
          FirstHit P ctx h n vk m σ (coinsAt nonces y.1) (glue prims S y.2) t s} * Fintype.card Key ≤
      Fintype.card (Seeds P n × (S → Fin N → UInt8)) := by
  classical
  set A := S → Fin N → UInt8
  let Q := Site F h n P.flp.jointRandLen P.flp.measLen → Fin N → UInt8
  have : Fintype (Site F h n P.flp.jointRandLen P.flp.measLen) := Fintype.ofFinite _
  have hin : ∀ (X : Seeds P n) s, pos P ctx h n (coinsAt nonces X) s ∈ S := fun X s =>
    hS X ((mem_batchSecrets ..).2 ⟨s, rfl⟩)
  let swapA : Seeds P n → A → Q → A := fun X f g x =>
    if hx : ∃ s, pos P ctx h n (coinsAt nonces X) s = x.1 then g hx.choose else f x
  let swapQ : Seeds P n → A → Q := fun X f s => f ⟨_, hin X s⟩
  let upd : Seeds P n → Key → Seeds P n := fun X key => Function.update X k (Function.update (X k) i key)
  have hupd : ∀ X key, publicSeeds P h (upd X key) = publicSeeds P h X := by
    intro X key
    funext k' i'
    unfold publicSeeds
    split
    · rfl
    · next hi' =>
      by_cases hk : k' = k
      · subst hk
        simp only [upd, Function.update_self]
        rw [Function.update_of_ne]
        rintro rfl
        exact hi' hi
      · simp only [upd]
        rw [Function.update_of_ne hk]
  have hsA : ∀ X, FreshCoins P h n (coinsAt nonces X) → ∀ f g s, swapA X f g ⟨_, hin X s⟩ = g s := by
    intro X hf f g s
    have hx : ∃ s', pos P ctx h n (coinsAt nonces X) s' = pos P ctx h n (coinsAt nonces X) s := ⟨s, rfl⟩
    simp only [swapA]
    rw [dif_pos hx]
    congr 1
    exact pos_inj W hctx hf hx.choose_spec
  let B : Set (Seeds P n × A) := {y | FreshCoins P h n (coinsAt nonces y.1) ∧
        ∃ s, siteReport P h n s = k ∧ siteIdx P h s = i ∧
          FirstHit P ctx h n vk m σ (coinsAt nonces y.1) (glue prims S y.2) t s}
  have hideal : ∀ X f g, FreshCoins P h n (coinsAt nonces X) → ∀ s,
      FirstHit P ctx h n vk m σ (coinsAt nonces X) (glue prims S f) t s →
      QueryAt P ctx h n vk m σ (coinsAt nonces (canonSeeds P h nonces (publicSeeds P h X)))
        (mixedSecrets P ctx h nonces (canonSeeds P h nonces (publicSeeds P h X)) (glue prims S (swapA X f g)) (swapQ X f))
        (glue prims S (swapA X f g)) t (pos P ctx h n (coinsAt nonces X) s) := by
    intro X f g hf s hs
    refine hit_ideal W hctx hh hvk hN hN' hn he ha hf (T := glue prims S f) ?_ ?_ hs
    · intro x hx
      unfold glue
      split
      · next hm =>
        congr 1
        simp only [swapA]
        rw [dif_neg]
        rintro ⟨s, hs⟩
        exact hx ((mem_batchSecrets ..).2 ⟨s, hs⟩)
      · rfl
    · intro s i
      have := glue_mem prims S f ⟨_, hin X s⟩
      simp only at this
      rw [this]
      unfold withHead
      rw [dif_pos i.2]
  have hinj : Set.InjOn (fun x : (Seeds P n × A) × Key × Q =>
      ((upd x.1.1 x.2.1, swapA x.1.1 x.1.2 x.2.2), swapQ x.1.1 x.1.2)) (B ×ˢ Set.univ) := by
    rintro ⟨⟨X, f⟩, key, g⟩ ⟨⟨hf, s, hs1, hs2, hs3⟩, -⟩ ⟨⟨X', f'⟩, key', g'⟩ ⟨⟨hf', s', hs1', hs2', hs3'⟩, -⟩ he
    simp only [Prod.mk.injEq] at he
    obtain ⟨⟨e0, e1⟩, e2⟩ := he
    simp only at hf hf' hs3 hs3'
    have i1 := hideal X f g hf s hs3
    have i2 := hideal X' f' g' hf' s' hs3'
    rw [← hupd X key, e0, hupd X' key', e1, e2] at i1
    have hp := pos_seed hctx (i1.unique i2)
    rw [hs1, hs2, hs1', hs2'] at hp
    have hp' : X k i = X' k i := by
      rw [seedAt_coins nonces X k i.2, seedAt_coins nonces X' k i.2] at hp
      exact Subtype.ext hp
    have hkey : key = key' := by
      have := congrFun (congrFun e0 k) i
      simpa only [upd, Function.update_self] using this
    have hX : X = X' := by
      funext k' i'
      by_cases hk : k' = k
      · subst hk
        by_cases hi' : i' = i
        · subst hi'
          exact hp'
        · have := congrFun (congrFun e0 k') i'
          simpa only [upd, Function.update_self, Function.update_of_ne hi'] using this
      · have := congrFun (congrFun e0 k') i'
        simpa only [upd, Function.update_of_ne hk] using this
    subst hX hkey
    have eg : g = g' := by
      funext s
      rw [← hsA X hf f g s, ← hsA X hf f' g' s, e1]
    subst eg
    have ef : f = f' := by
      funext x
      by_cases hx : ∃ s, pos P ctx h n (coinsAt nonces X) s = x.1
      · obtain ⟨s, hs⟩ := hx
        have hm : x = ⟨_, hin X s⟩ := Subtype.ext hs.symm
        rw [hm]
        exact congrFun e2 s
      · have := congrFun e1 x
        simp only [swapA] at this
        rwa [dif_neg hx, dif_neg hx] at this
    rw [ef]
  have h1 := Set.ncard_le_ncard_of_injOn _ (fun x _ => Set.mem_univ _) hinj (Set.toFinite _)
  rw [Set.ncard_prod, Set.ncard_univ, Set.ncard_univ, Nat.card_prod, Nat.card_prod, Nat.card_eq_fintype_card,
    Nat.card_eq_fintype_card (α := Q), Nat.card_eq_fintype_card, ← mul_assoc] at h1
  have : 0 < Fintype.card Q := Fintype.card_pos
  exact Nat.le_of_mul_le_mul_right h1 this

end

/-- How often two reports have a seed in common -/
theorem collision_count {k l : Fin n} (hkl : k ≠ l) (i : Fin P.numSeeds) :
    Set.ncard {X : Seeds P n | X k i = X l i} * Fintype.card Key ≤ Fintype.card (Seeds P n) := by
  classical
  have hinj : Set.InjOn (fun x : Seeds P n × Key => Function.update x.1 k (Function.update (x.1 k) i x.2))
      ({X : Seeds P n | X k i = X l i} ×ˢ Set.univ) := by
    rintro ⟨X, key⟩ ⟨h1, -⟩ ⟨X', key'⟩ ⟨h2, -⟩ he
    simp only at he h1 h2
    have hl := congrFun (congrFun he l) i
    rw [Function.update_of_ne hkl.symm, Function.update_of_ne hkl.symm] at hl
    have hkey : key = key' := by
      have := congrFun (congrFun he k) i
      simpa only [Function.update_self] using this
    have hX : X = X' := by
      funext k' i'
      by_cases hk : k' = k
      · subst hk
        by_cases hi' : i' = i
        · subst hi'
          exact h1.trans (hl.trans h2.symm)
        · have := congrFun (congrFun he k') i'
          simpa only [Function.update_self, Function.update_of_ne hi'] using this
      · have := congrFun (congrFun he k') i'
        simpa only [Function.update_of_ne hk] using this
    rw [hX, hkey]
  have h1 := Set.ncard_le_ncard_of_injOn _ (fun x _ => Set.mem_univ _) hinj (Set.toFinite _)
  rwa [Set.ncard_prod, Set.ncard_univ, Set.ncard_univ, Nat.card_eq_fintype_card, Nat.card_eq_fintype_card] at h1

end Prio3
end Vdaf
