import Verif.Proofs.PrivacyModified

/-! The advantage of the coalition in the random oracle model. -/

set_option linter.unusedSectionVars false

namespace Vdaf
open Finset
open Spec (secretInputs runWith withOracle tag seedAt bytesAt Coins Transcript FreshCoins batchSecrets QueryReply QueryMove
  QueryStrategy coinsOf oracles queryView attackView batchesBy TotalOf Reply worlds viewProbability)
attribute [local instance] bytesFintype

theorem ncard_family_le {α ι : Type} [Finite α] [Fintype ι] (E : ι → Set α) {b : ℚ}
    (h : ∀ i, ((E i).ncard : ℚ) ≤ b) : (Set.ncard {x | ∃ i, x ∈ E i} : ℚ) ≤ Fintype.card ι * b := by
  have h1 : {x | ∃ i, x ∈ E i} = ⋃ i ∈ (Finset.univ : Finset ι), E i := by
    ext x
    simp
  rw [h1]
  refine le_trans (Nat.cast_le.2 (Finset.set_ncard_biUnion_le Finset.univ E)) ?_
  push_cast
  refine (sum_le_sum fun i _ => h i).trans (le_of_eq ?_)
  rw [sum_const, Finset.card_univ, nsmul_eq_mul]

namespace Prio3
variable {F : Type} [NttField F] {Meas Agg : Type} {prims : Prims} {fuel : ℕ}
  {P : Prio3 (XofTurboShake128 prims fuel) F Meas Agg} {ctx : Bytes} {h n : ℕ} {nonces : ℕ → Bytes} {vk : Bytes}
  {σ : QueryStrategy F} {q : ℕ}

theorem card_key : (Fintype.card Key : ℚ) = 2 ^ 256 := by
  have hb : Fintype.card UInt8 = 256 := by
    rw [← Nat.card_eq_fintype_card, Nat.card_congr ⟨UInt8.toFin, UInt8.ofFin, fun _ => rfl, fun _ => rfl⟩, Nat.card_fin]
  rw [card_vector, hb]
  norm_num

/-- At most three seeds are secret. -/
theorem secret_card [Fintype {i : Fin P.numSeeds // SecretIdx P h i}] :
    Fintype.card {i : Fin P.numSeeds // SecretIdx P h i} ≤ 3 := by
  have hinj : Function.Injective fun x : {i : Fin P.numSeeds // SecretIdx P h i} =>
      (⟨x.1.1, by
        rcases x.2 with ⟨-, h⟩ | h | ⟨-, h⟩ <;> simp [h]⟩ : ({shareIdx P h, proveIdx P, blindIdx P h} : Finset ℕ)) := by
    intro x y e
    exact Subtype.ext (Fin.ext (Subtype.mk.inj e))
  have h1 := Fintype.card_le_of_injective _ hinj
  rw [Fintype.card_coe] at h1
  exact h1.trans Finset.card_le_three

/-- The choices of the random bytes and of the oracle -/
theorem ncard_worlds {S : Set Bytes} [Fintype S] {N : ℕ} (p : ((Fin n → Bytes) × (Bytes → ℕ → UInt8)) → Prop) :
    {x ∈ worlds P n S N | p x}.ncard =
      Set.ncard {y : Seeds P n × (S → Fin N → UInt8) | p (fun k => flatSeeds (y.1 k), glue prims S y.2)} := by
  symm
  refine Set.ncard_congr (fun y _ => (fun k => flatSeeds (y.1 k), glue prims S y.2)) ?_ ?_ ?_
  · rintro ⟨X, f⟩ hy
    refine ⟨⟨fun k => flatSeeds_length (X k), ?_⟩, hy⟩
    rw [← glue_range]
    exact ⟨f, rfl⟩
  · rintro ⟨X, f⟩ ⟨X', f'⟩ - - e
    obtain ⟨e1, e2⟩ := Prod.mk.inj e
    rw [Prod.mk.injEq]
    exact ⟨funext fun k => flatSeeds_injective (congrFun e1 k), glue_injective prims S e2⟩
  · rintro ⟨r, T⟩ ⟨⟨h1, h2⟩, h3⟩
    simp only at h1 h2 h3
    rw [← glue_range] at h2
    obtain ⟨f, rfl⟩ := h2
    have : ∀ k, ∃ x : Fin P.numSeeds → Key, flatSeeds x = r k := fun k => flatSeeds_surj (h1 k)
    choose X hX using this
    obtain rfl : r = fun k => flatSeeds (X k) := funext fun k => (hX k).symm
    exact ⟨(X, f), h3, rfl⟩

section
variable (W : P.WF) (hctx : ctx.length + 8 < 2 ^ 16) (hh : h < P.shares)
include W hctx hh

/-- Two reports seldom have a secret seed in common. -/
theorem stale_bound (A : Type) [Fintype A] (hn : ∀ k < n, (nonces k).length = 16) :
    (Set.ncard {y : Seeds P n × A | ¬ FreshCoins P h n (coinsAt nonces y.1)} : ℚ) ≤
      3 * n ^ 2 / 2 ^ 256 * Fintype.card (Seeds P n × A) := by
  classical
  let ι := Fin n × Fin n × {i : Fin P.numSeeds // SecretIdx P h i}
  let E : ι → Set (Seeds P n × A) := fun x => {y | x.1 ≠ x.2.1 ∧ y.1 x.1 x.2.2.1 = y.1 x.2.1 x.2.2.1}
  have hE : ∀ x, ((E x).ncard : ℚ) ≤ Fintype.card (Seeds P n × A) / 2 ^ 256 := by
    rintro ⟨k, l, i⟩
    by_cases hkl : k = l
    · have : E (k, l, i) = ∅ := by
        ext y
        simp [E, hkl]
      rw [this]
      simp only [Set.ncard_empty, Nat.cast_zero]
      positivity
    · have : E (k, l, i) = {X : Seeds P n | X k i.1 = X l i.1} ×ˢ Set.univ := by
        ext y
        simp [E, hkl]
      rw [this, Set.ncard_prod, Set.ncard_univ, Nat.card_eq_fintype_card (α := A), Fintype.card_prod, le_div_iff₀ (by norm_num),
        ← card_key]
      have := collision_count (P := P) hkl i.1
      push_cast
      rw [mul_right_comm]
      exact mul_le_mul_of_nonneg_right (by exact_mod_cast this) (by positivity)
  have h1 := ncard_family_le E hE
  refine le_trans (Nat.cast_le.2 (Set.ncard_le_ncard ?_ (Set.toFinite _))) (h1.trans ?_)
  · rintro ⟨X, f⟩ hX
    simp only [Set.mem_ofPred_eq] at hX
    by_contra hno
    simp only [Set.mem_ofPred_eq, not_exists] at hno
    have hs := W.shares_ge
    have hne : ∀ (k l : Fin n), k ≠ l → ∀ i (hi : SecretIdx P h i),
        seedAt P (coinsAt nonces X k).rand i ≠ seedAt P (coinsAt nonces X l).rand i := by
      intro k l hkl i hi e
      have hlt := secretIdx_lt hs hh hi
      rw [seedAt_coins nonces X k hlt, seedAt_coins nonces X l hlt] at e
      exact hno (k, l, ⟨⟨i, hlt⟩, hi⟩) ⟨hkl, Subtype.ext e⟩
    refine hX ⟨fun k hk => ⟨hn k hk, ?_⟩, fun k hk l hl hkl => ⟨fun h0 => ?_, ?_, fun h0 => .inl ?_⟩⟩
    · rw [coinsAt_rand nonces X ⟨k, hk⟩, flatSeeds_length]
      rfl
    · exact hne ⟨k, hk⟩ ⟨l, hl⟩ (by simpa using hkl) _ (.inl ⟨h0, rfl⟩)
    · rw [prove_eq, prove_eq]
      exact hne ⟨k, hk⟩ ⟨l, hl⟩ (by simpa using hkl) _ (.inr (.inl rfl))
    · exact hne ⟨k, hk⟩ ⟨l, hl⟩ (by simpa using hkl) _ (.inr (.inr ⟨h0, rfl⟩))
  · have h3 : (Fintype.card {i : Fin P.numSeeds // SecretIdx P h i} : ℚ) ≤ 3 := by exact_mod_cast secret_card
    simp only [ι, Fintype.card_prod, Fintype.card_fin, Nat.cast_mul]
    have h0 : (0 : ℚ) ≤ n * n * (Fintype.card (Seeds P n) * Fintype.card A / 2 ^ 256) := by positivity
    calc _ = Fintype.card {i : Fin P.numSeeds // SecretIdx P h i} *
          ((n : ℚ) * n * (Fintype.card (Seeds P n) * Fintype.card A / 2 ^ 256)) := by ring
      _ ≤ 3 * ((n : ℚ) * n * (Fintype.card (Seeds P n) * Fintype.card A / 2 ^ 256)) :=
        mul_le_mul_of_nonneg_right h3 h0
      _ = _ := by ring

variable (hvk : vk.length = 32) {N : ℕ}
  (hN : fuel * PyField.encSize F ≤ N) (hN' : 32 ≤ N) (hn : ∀ k < n, (nonces k).length = 16)
  {S : Set Bytes} [Fintype S] (hS : ∀ X : Seeds P n, batchSecrets P ctx h n (coinsAt nonces X) ⊆ S)
include hvk hN hN' hn hS

/-- The coalition seldom evaluates the oracle at a secret input. -/
theorem secretHit_bound {m : ℕ → Meas} {a : ℕ → List F} (he : ∀ k < n, P.flp.encode (m k) = .ok (a k))
    (ha : ∀ k < n, (a k).length = P.flp.measLen) :
    (Set.ncard {y : Seeds P n × (S → Fin N → UInt8) | FreshCoins P h n (coinsAt nonces y.1) ∧ ∃ t < q, ∃ s,
        FirstHit P ctx h n vk m σ (coinsAt nonces y.1) (glue prims S y.2) t s} : ℚ) ≤
      3 * n * q / 2 ^ 256 * Fintype.card (Seeds P n × (S → Fin N → UInt8)) := by
  classical
  let ι := Fin q × Fin n × {i : Fin P.numSeeds // SecretIdx P h i}
  let E : ι → Set (Seeds P n × (S → Fin N → UInt8)) := fun x => {y | FreshCoins P h n (coinsAt nonces y.1) ∧
        ∃ s, siteReport P h n s = x.2.1 ∧ siteIdx P h s = x.2.2.1 ∧
          FirstHit P ctx h n vk m σ (coinsAt nonces y.1) (glue prims S y.2) x.1 s}
  have hE : ∀ x, ((E x).ncard : ℚ) ≤ Fintype.card (Seeds P n × (S → Fin N → UInt8)) / 2 ^ 256 := by
    rintro ⟨t, k, i⟩
    rw [le_div_iff₀ (by norm_num), ← card_key]
    exact_mod_cast hit_count W hctx hh hvk hN hN' hn he ha (σ := σ) hS t.1 k i.1 i.2
  have h1 := ncard_family_le E hE
  refine le_trans (Nat.cast_le.2 (Set.ncard_le_ncard ?_ (Set.toFinite _))) (h1.trans ?_)
  · rintro ⟨X, f⟩ ⟨hX, t, ht, s, hs⟩
    have hi := siteIdx_secret (P := P) s
    exact ⟨(⟨t, ht⟩, siteReport P h n s, ⟨⟨siteIdx P h s, secretIdx_lt W.shares_ge hh hi⟩, hi⟩), hX, s, rfl, rfl, hs⟩
  · have h3 : (Fintype.card {i : Fin P.numSeeds // SecretIdx P h i} : ℚ) ≤ 3 := by exact_mod_cast secret_card
    simp only [ι, Fintype.card_prod (Fin q), Fintype.card_prod (Fin n), Fintype.card_fin, Nat.cast_mul]
    have hz : (0 : ℚ) ≤ Fintype.card (Seeds P n × (S → Fin N → UInt8)) := Nat.cast_nonneg _
    generalize (Fintype.card (Seeds P n × (S → Fin N → UInt8)) : ℚ) = z at *
    have h0 : (0 : ℚ) ≤ q * n * (z / 2 ^ 256) := by positivity
    calc _ = Fintype.card {i : Fin P.numSeeds // SecretIdx P h i} * ((q : ℚ) * n * (z / 2 ^ 256)) := by ring
      _ ≤ 3 * ((q : ℚ) * n * (z / 2 ^ 256)) := mul_le_mul_of_nonneg_right h3 h0
      _ = _ := by ring

/-- Unless it does, what it sees does not depend on the secret values. -/
theorem real_modified {m : ℕ → Meas} {a : ℕ → List F} (he : ∀ k < n, P.flp.encode (m k) = .ok (a k))
    (ha : ∀ k < n, (a k).length = P.flp.measLen) {E : Set (List (Transcript F) × List (QueryReply F))}
    {rs : ℕ → Coins} {T : Bytes → ℕ → UInt8} (hno : ¬ ∃ t < q, ∃ s, FirstHit P ctx h n vk m σ rs T t s) :
    (∃ v ∈ E, queryView (runWith P T) vk ctx h n m rs σ q = .ok v) ↔ Modified P vk ctx h n m rs σ q E T := by
  unfold Modified
  have hq : ∀ t < q, ∀ s, ¬ QueryAt P ctx h n vk m σ rs T T t (pos P ctx h n rs s) := by
    intro t
    induction t using Nat.strong_induction_on with
    | _ t ih =>
      intro ht s hs
      exact hno ⟨t, ht, s, hs, fun t' ht' => ih t' ht' (by omega)⟩
  refine exists_congr fun v => and_congr_right fun _ => ?_
  rw [queryView_ok W hctx hh he ha]
  refine exists_congr fun os => exists_congr fun vs => and_congr_right fun hsees => and_congr_right fun hv => ?_
  rw [hv, playQ_congr (D := batchSecrets P ctx h n rs) (ans' := maskAt (batchSecrets P ctx h n rs) T)]
  · intro x hx
    unfold maskAt
    rw [if_neg hx]
  · intro t ht R outs hp x hx hqx
    obtain ⟨s, rfl⟩ := (mem_batchSecrets ..).1 hx
    exact hq t ht s ⟨os, vs, hsees, R, outs, hp, hqx⟩

end

theorem advantage {K : Spec.Task Meas Agg} (I : Spec.CustomInstance P K) (hvk : vk.length = 32)
    (hctx : ctx.length + 8 < 2 ^ 16) {N : ℕ} (hh : h < P.shares) (hN : 32 ≤ N)
    (hN' : fuel * PyField.encSize F ≤ N) (hn : ∀ k < n, (nonces k).length = 16) {S : Set Bytes} (hfin : S.Finite)
    (hS : ∀ rand nonce : Bytes, rand.length = P.randSize → nonce.length = 16 → secretInputs P rand ctx nonce h ⊆ S)
    {m0 m1 : ℕ → Meas} (hm0 : ∀ k < n, K.valid (m0 k)) (hm1 : ∀ k < n, K.valid (m1 k))
    {E : Set (List (Transcript F) × List (QueryReply F))}
    (htot : ∀ v ∈ E, ∀ B ∈ batchesBy (σ v.1) v.2, (∀ k ∈ B, k < n) →
      ∃ tot, TotalOf P.flp (B.map m0) tot ∧ TotalOf P.flp (B.map m1) tot) :
    viewProbability P vk ctx h n m0 nonces σ q S N E ≤
      viewProbability P vk ctx h n m1 nonces σ q S N E + (6 * n * q + 3 * n ^ 2) / 2 ^ 256 := by
  classical
  have : Fintype S := hfin.fintype
  obtain ⟨a0, b0, x1, x2, -⟩ := encodings I n hm0
  obtain ⟨a1, b1, y1, y2, -⟩ := encodings I n hm1
  have W := I.wf
  have hS' : ∀ X : Seeds P n, batchSecrets P ctx h n (coinsAt nonces X) ⊆ S := by
    rintro X x ⟨k, hk, hx⟩
    refine hS _ _ ?_ (hn k hk) hx
    rw [coinsAt_rand nonces X ⟨k, hk⟩, flatSeeds_length]
    rfl
  let Y := Seeds P n × (S → Fin N → UInt8)
  let Real : (ℕ → Meas) → Set Y := fun m => {y | ∃ v ∈ E,
    queryView (runWith P (glue prims S y.2)) vk ctx h n m (coinsAt nonces y.1) σ q = .ok v}
  let Mod : (ℕ → Meas) → Set Y := fun m => {y | FreshCoins P h n (coinsAt nonces y.1) ∧
    Modified P vk ctx h n m (coinsAt nonces y.1) σ q E (glue prims S y.2)}
  let Bad : (ℕ → Meas) → Set Y := fun m => {y | FreshCoins P h n (coinsAt nonces y.1) ∧ ∃ t < q, ∃ s,
        FirstHit P ctx h n vk m σ (coinsAt nonces y.1) (glue prims S y.2) t s}
  let NF : Set Y := {y | ¬ FreshCoins P h n (coinsAt nonces y.1)}
  have hprob : ∀ m, viewProbability P vk ctx h n m nonces σ q S N E = ((Real m).ncard : ℚ) / Fintype.card Y := by
    intro m
    unfold viewProbability
    have hall := ncard_worlds (P := P) (n := n) (S := S) (N := N) fun _ => True
    simp only [and_true, Set.ofPred_mem_eq] at hall
    rw [ncard_worlds, hall]
    congr 2
    rw [← Nat.card_eq_fintype_card, ← Set.ncard_univ]
    congr 1
  have hmod : (Mod m0).ncard = (Mod m1).ncard := by
    have : ∀ m, (Mod m).ncard = ∑ X : Seeds P n, Set.ncard {f | (X, f) ∈ Mod m} := fun m => ncard_pairs W hctx (Mod m)
    rw [this, this]
    refine Finset.sum_congr rfl fun X _ => ?_
    by_cases hX : FreshCoins P h n (coinsAt nonces X)
    · have := modified_eq I (σ := σ) (q := q) hvk hctx hh hN hN' hX hm0 hm1 hfin (hS' X) htot
      rw [ncard_glue, ncard_glue] at this
      have hm : ∀ m, {f | (X, f) ∈ Mod m} = {f | Modified P vk ctx h n m (coinsAt nonces X) σ q E (glue prims S f)} :=
        fun m => Set.ext fun f => ⟨fun h => h.2, fun h => ⟨hX, h⟩⟩
      rw [hm, hm, this]
    · have hm : ∀ m, {f | (X, f) ∈ Mod m} = ∅ := fun m => Set.ext fun f => ⟨fun h => hX h.1, fun h => h.elim⟩
      rw [hm, hm]
  have hb0 := secretHit_bound (q := q) (σ := σ) W hctx hh hvk hN' hN hn hS' x1 x2
  have hb1 := secretHit_bound (q := q) (σ := σ) W hctx hh hvk hN' hN hn hS' y1 y2
  have hnf := stale_bound W hctx hh (S → Fin N → UInt8) hn
  have hsub0 : Real m0 ⊆ {y | y ∈ {y | y ∈ Mod m0 ∨ y ∈ Bad m0} ∨ y ∈ NF} := by
    intro y hy
    by_cases hf : FreshCoins P h n (coinsAt nonces y.1)
    swap
    · exact .inr hf
    refine .inl ?_
    by_cases hb : ∃ t < q, ∃ s, FirstHit P ctx h n vk m0 σ (coinsAt nonces y.1) (glue prims S y.2) t s
    · exact .inr ⟨hf, hb⟩
    · exact .inl ⟨hf, (real_modified W hctx hh hvk hN' hN hn hS' x1 x2 hb).1 hy⟩
  have hsub1 : Mod m1 ⊆ {y | y ∈ Real m1 ∨ y ∈ Bad m1} := by
    rintro y ⟨hf, hy⟩
    by_cases hb : ∃ t < q, ∃ s, FirstHit P ctx h n vk m1 σ (coinsAt nonces y.1) (glue prims S y.2) t s
    · exact .inr ⟨hf, hb⟩
    · exact .inl ((real_modified W hctx hh hvk hN' hN hn hS' y1 y2 hb).2 hy)
  have h0 := (Nat.cast_le (α := ℚ)).2 (Set.ncard_le_ncard hsub0 (Set.toFinite _))
  have h1 := (Nat.cast_le (α := ℚ)).2 (Set.ncard_le_ncard hsub1 (Set.toFinite _))
  have h0 := h0.trans (ncard_or_le _ _ (ncard_or_le _ _ le_rfl hb0) hnf)
  have h1 := h1.trans (ncard_or_le _ _ le_rfl hb1)
  rw [hprob, hprob]
  have hY : (0 : ℚ) < Fintype.card Y := by
    have : 0 < Fintype.card Y := Fintype.card_pos_iff.2 ⟨(fun _ _ => List.Vector.replicate 32 0, fun _ _ => 0)⟩
    exact_mod_cast this
  rw [hmod] at h0
  rw [div_add' _ _ _ hY.ne', div_le_div_iff_of_pos_right hY]
  refine (h0.trans (add_le_add_left (add_le_add_left h1 _) _)).trans (le_of_eq ?_)
  ring

end Prio3
end Vdaf
