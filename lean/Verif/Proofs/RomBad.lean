import Verif.Proofs.RomPair

/-! The events in which the Client is lucky with the seed and the parts of the joint randomness. -/

set_option linter.unusedSectionVars false

namespace Vdaf.Prio3
open Finset
open Spec (tag runWith withOracle OracleMove OracleReply OracleStrategy EncodedReport oracleRun oracleRespond sentNonces
  decodeReport acceptsEncoded accepts measShares oracleInputs)
attribute [local instance] bytesFintype
variable {F : Type} [NttField F] {Meas Agg : Type} {prims : Prims} {fuel : ℕ}
  {P : Prio3 (XofTurboShake128 prims fuel) F Meas Agg} {T T' : Bytes → ℕ → UInt8}

section
variable (P) (vk ctx : Bytes) (σ : OracleStrategy)

/-- Input `i` for a part in move `t`, which did not matter before -/
def Fresh7 (T : Bytes → ℕ → UInt8) (t i : ℕ) (m : Bytes) : Prop :=
  (inp7 P T ctx (moveAt P T vk ctx σ t))[i]? = some m ∧ m ∈ R7 P ctx ∧ m ∉ Seen P T vk ctx σ t

/-- Input `i` for a seed in move `t`, which did not matter before -/
def Fresh6 (T : Bytes → ℕ → UInt8) (t i : ℕ) (m : Bytes) : Prop :=
  (inp6 P T ctx (moveAt P T vk ctx σ t))[i]? = some m ∧ m ∈ R6 P ctx ∧ m ∉ Seen P T vk ctx σ t

/-- Two parts are equal. -/
def Coll7 (T : Bytes → ℕ → UInt8) (t i t' i' : ℕ) : Prop :=
  ∃ u v, Fresh7 P vk ctx σ T t i u ∧ t' ≤ t ∧ (inp7 P T ctx (moveAt P T vk ctx σ t'))[i']? = some v ∧ v ≠ u ∧
    headOf T u = headOf T v

/-- Two seeds are equal. -/
def Coll6 (T : Bytes → ℕ → UInt8) (t i t' i' : ℕ) : Prop :=
  ∃ u v, Fresh6 P vk ctx σ T t i u ∧ t' ≤ t ∧ (inp6 P T ctx (moveAt P T vk ctx σ t'))[i']? = some v ∧ v ≠ u ∧
    headOf T u = headOf T v

/-- A seed is one that was used before. -/
def Late6 (T : Bytes → ℕ → UInt8) (t i t' : ℕ) : Prop :=
  ∃ u, Fresh6 P vk ctx σ T t i u ∧ t' < t ∧ moveAt P T vk ctx σ t' = .query (jrPos P ctx (headOf T u))

/-- A part is one that was used before. -/
def Late7 (T : Bytes → ℕ → UInt8) (t i t' i' : ℕ) : Prop :=
  ∃ u, Fresh7 P vk ctx σ T t i u ∧ t' < t ∧ ∃ (parts : List Bytes) (j : ℕ) (b : Bytes) (ms : List F) (nonce : Bytes),
    j < P.shares ∧ b.length = 32 ∧ nonce.length = 16 ∧ u = partPos P ctx j b ms nonce ∧
    parts.length = P.shares ∧ (∀ p ∈ parts, p.length = 32) ∧
    (inp6 P T ctx (moveAt P T vk ctx σ t'))[i']? = some (seedPos P ctx parts) ∧ parts[j]? = some (headOf T u)

end

section
variable (W : P.WF) {vk ctx : Bytes} (hctx : ctx.length + 8 < 2 ^ 16) (hvk : vk.length = 32) {σ : OracleStrategy}
include W hctx hvk

theorem AgreeOn.seen7 {t : ℕ} (A : AgreeOn P ctx T T' (Seen P T vk ctx σ t)) {k : ℕ} (hk : k ≤ t) :
    inp7 P T' ctx (moveAt P T' vk ctx σ k) = inp7 P T ctx (moveAt P T vk ctx σ k) := by
  rw [(A.seen W hctx hvk).2.1 k hk, A.at7 W hctx hvk]

theorem AgreeOn.seen6 {t : ℕ} (A : AgreeOn P ctx T T' (Seen P T vk ctx σ t)) {k : ℕ} (hk : k < t) :
    inp6 P T' ctx (moveAt P T' vk ctx σ k) = inp6 P T ctx (moveAt P T vk ctx σ k) := by
  rw [(A.seen W hctx hvk).2.1 k hk.le, A.at6 W hctx hvk]
  exact fun m hm => A.on m ⟨k, hk, .inl hm⟩

theorem AgreeOn.now6 {t : ℕ} (A : AgreeOn P ctx T T' (Seen P T vk ctx σ t)) {m0 : Bytes} (h6 : m0 ∈ R6 P ctx)
    (hoff : ∀ m, m ≠ m0 → T' m = T m) :
    inp6 P T' ctx (moveAt P T' vk ctx σ t) = inp6 P T ctx (moveAt P T vk ctx σ t) := by
  rw [(A.seen W hctx hvk).2.1 t le_rfl]
  cases hmv : moveAt P T vk ctx σ t with
  | query => rfl
  | submit e =>
    rw [A.at6 W hctx hvk]
    intro m hm
    apply hoff
    rintro rfl
    exact R7_not_R6 W hctx hvk (submit_in7 hm) h6

theorem AgreeOn.fresh7 {t i : ℕ} {m : Bytes} (A : AgreeOn P ctx T T' (Seen P T vk ctx σ t))
    (h : Fresh7 P vk ctx σ T t i m) : Fresh7 P vk ctx σ T' t i m :=
  ⟨by rw [A.seen7 W hctx hvk le_rfl]; exact h.1, h.2.1, by rw [(A.seen W hctx hvk).2.2.2 t le_rfl]; exact h.2.2⟩

theorem AgreeOn.fresh6 {t i : ℕ} {m : Bytes} (A : AgreeOn P ctx T T' (Seen P T vk ctx σ t))
    (hoff : ∀ m', m' ≠ m → T' m' = T m') (h : Fresh6 P vk ctx σ T t i m) : Fresh6 P vk ctx σ T' t i m :=
  ⟨by rw [A.now6 W hctx hvk h.2.1 hoff]; exact h.1, h.2.1, by rw [(A.seen W hctx hvk).2.2.2 t le_rfl]; exact h.2.2⟩

variable {S : Set Bytes} [Fintype S] (hS : oracleInputs P vk ctx ⊆ S) {N : ℕ} (hN : 32 ≤ N)
include hS hN

theorem coll7_bound (t i t' i' : ℕ) :
    (Set.ncard {f : S → Fin N → UInt8 | Coll7 P vk ctx σ (glue prims S f) t i t' i'} : ℚ) ≤
      1 / 2 ^ 256 * Fintype.card (S → Fin N → UInt8) := by
  classical
  have key := pair_bound (prims := prims) hN (fun (f : S → Fin N → UInt8) m => Fresh7 P vk ctx σ (glue prims S f) t i m)
    (fun f h => ∃ u v, Fresh7 P vk ctx σ (glue prims S f) t i u ∧ t' ≤ t ∧
      (inp7 P (glue prims S f) ctx (moveAt P (glue prims S f) vk ctx σ t'))[i']? = some v ∧ v ≠ u ∧
        h = headOf (glue prims S f) v) ?_ ?_ ?_ ?_
  · refine le_trans ?_ key
    refine Nat.cast_le.2 (Set.ncard_le_ncard ?_ (Set.toFinite _))
    rintro f ⟨u, v, h1, h2, h3, h4, h5⟩
    exact ⟨⟨u, hS (R7_inputs h1.2.1)⟩, h1, u, v, h1, h2, h3, h4, h5⟩
  · intro f m m' h h'
    exact Subtype.ext (Option.some.inj (h.1.symm.trans h'.1))
  · intro f m y h
    exact (agree_glue W hctx hvk f y (.inl h.2.1) h.2.2).fresh7 W hctx hvk h
  · rintro f h h' ⟨u, v, h1, h2, h3, h4, rfl⟩ ⟨u', v', k1, k2, k3, k4, rfl⟩
    rw [Option.some.inj (h3.symm.trans k3)]
  · rintro f m y h hm ⟨u, v, h1, h2, h3, h4, rfl⟩
    have A := agree_glue W hctx hvk (N := N) f y (.inl hm.2.1) hm.2.2
    have hu : (m : Bytes) = u := Option.some.inj ((A.fresh7 W hctx hvk hm).1.symm.trans h1.1)
    rw [A.seen7 W hctx hvk h2] at h3
    refine ⟨u, v, hu ▸ hm, h2, h3, h4, headOf_congr (glue_upd f m y ?_)⟩
    rw [hu]
    exact h4

theorem coll6_bound (t i t' i' : ℕ) :
    (Set.ncard {f : S → Fin N → UInt8 | Coll6 P vk ctx σ (glue prims S f) t i t' i'} : ℚ) ≤
      1 / 2 ^ 256 * Fintype.card (S → Fin N → UInt8) := by
  classical
  have key := pair_bound (prims := prims) hN (fun (f : S → Fin N → UInt8) m => Fresh6 P vk ctx σ (glue prims S f) t i m)
    (fun f h => ∃ u v, Fresh6 P vk ctx σ (glue prims S f) t i u ∧ t' ≤ t ∧
      (inp6 P (glue prims S f) ctx (moveAt P (glue prims S f) vk ctx σ t'))[i']? = some v ∧ v ≠ u ∧
        h = headOf (glue prims S f) v) ?_ ?_ ?_ ?_
  · refine le_trans ?_ key
    refine Nat.cast_le.2 (Set.ncard_le_ncard ?_ (Set.toFinite _))
    rintro f ⟨u, v, h1, h2, h3, h4, h5⟩
    exact ⟨⟨u, hS (R6_inputs h1.2.1)⟩, h1, u, v, h1, h2, h3, h4, h5⟩
  · intro f m m' h h'
    exact Subtype.ext (Option.some.inj (h.1.symm.trans h'.1))
  · intro f m y h
    exact (agree_glue W hctx hvk f y (.inr h.2.1) h.2.2).fresh6 W hctx hvk (fun m' h' => glue_upd f m y h') h
  · rintro f h h' ⟨u, v, h1, h2, h3, h4, rfl⟩ ⟨u', v', k1, k2, k3, k4, rfl⟩
    rw [Option.some.inj (h3.symm.trans k3)]
  · rintro f m y h hm ⟨u, v, h1, h2, h3, h4, rfl⟩
    have A := agree_glue W hctx hvk (N := N) f y (.inr hm.2.1) hm.2.2
    have hu : (m : Bytes) = u := Option.some.inj
      ((A.fresh6 W hctx hvk (fun m' h' => glue_upd f m y h') hm).1.symm.trans h1.1)
    have h3' : (inp6 P (glue prims S f) ctx (moveAt P (glue prims S f) vk ctx σ t'))[i']? = some v := by
      rcases h2.lt_or_eq with h2 | rfl
      · rw [A.seen6 W hctx hvk h2] at h3
        exact h3
      · rw [A.now6 W hctx hvk hm.2.1 (fun m' h' => glue_upd f m y h')] at h3
        exact h3
    refine ⟨u, v, hu ▸ hm, h2, h3', h4, headOf_congr (glue_upd f m y ?_)⟩
    rw [hu]
    exact h4

theorem late6_bound (t i t' : ℕ) :
    (Set.ncard {f : S → Fin N → UInt8 | Late6 P vk ctx σ (glue prims S f) t i t'} : ℚ) ≤
      1 / 2 ^ 256 * Fintype.card (S → Fin N → UInt8) := by
  classical
  have key := pair_bound (prims := prims) hN (fun (f : S → Fin N → UInt8) m => Fresh6 P vk ctx σ (glue prims S f) t i m)
    (fun f h => h.length = 32 ∧ t' < t ∧ moveAt P (glue prims S f) vk ctx σ t' = .query (jrPos P ctx h)) ?_ ?_ ?_ ?_
  · refine le_trans ?_ key
    refine Nat.cast_le.2 (Set.ncard_le_ncard ?_ (Set.toFinite _))
    rintro f ⟨u, h1, h2, h3⟩
    exact ⟨⟨u, hS (R6_inputs h1.2.1)⟩, h1, headOf_length _, h2, h3⟩
  · intro f m m' h h'
    exact Subtype.ext (Option.some.inj (h.1.symm.trans h'.1))
  · intro f m y h
    exact (agree_glue W hctx hvk f y (.inr h.2.1) h.2.2).fresh6 W hctx hvk (fun m' h' => glue_upd f m y h') h
  · rintro f h h' ⟨h1, -, h2⟩ ⟨k1, -, k2⟩
    rw [h2] at k2
    exact jr_inj W hctx hvk (by rw [h1]; norm_num) (by rw [k1]; norm_num) (OracleMove.query.inj k2)
  · rintro f m y h hm ⟨h1, h2, h3⟩
    have A := agree_glue W hctx hvk (N := N) f y (.inr hm.2.1) hm.2.2
    rw [(A.seen W hctx hvk).2.1 t' h2.le] at h3
    exact ⟨h1, h2, h3⟩

theorem late7_bound (t i t' i' : ℕ) :
    (Set.ncard {f : S → Fin N → UInt8 | Late7 P vk ctx σ (glue prims S f) t i t' i'} : ℚ) ≤
      1 / 2 ^ 256 * Fintype.card (S → Fin N → UInt8) := by
  classical
  have key := pair_bound (prims := prims) hN (fun (f : S → Fin N → UInt8) m => Fresh7 P vk ctx σ (glue prims S f) t i m)
    (fun f h => ∃ u, Fresh7 P vk ctx σ (glue prims S f) t i u ∧ t' < t ∧
      ∃ (parts : List Bytes) (j : ℕ) (b : Bytes) (ms : List F) (nonce : Bytes),
      j < P.shares ∧ b.length = 32 ∧ nonce.length = 16 ∧ u = partPos P ctx j b ms nonce ∧
      parts.length = P.shares ∧ (∀ p ∈ parts, p.length = 32) ∧
      (inp6 P (glue prims S f) ctx (moveAt P (glue prims S f) vk ctx σ t'))[i']? = some (seedPos P ctx parts) ∧
        parts[j]? = some h) ?_ ?_ ?_ ?_
  · refine le_trans ?_ key
    refine Nat.cast_le.2 (Set.ncard_le_ncard ?_ (Set.toFinite _))
    rintro f ⟨u, h1, h2⟩
    exact ⟨⟨u, hS (R7_inputs h1.2.1)⟩, h1, u, h1, h2⟩
  · intro f m m' h h'
    exact Subtype.ext (Option.some.inj (h.1.symm.trans h'.1))
  · intro f m y h
    exact (agree_glue W hctx hvk f y (.inl h.2.1) h.2.2).fresh7 W hctx hvk h
  · rintro f h h' ⟨u, h1, -, ps, j, b, ms, n, g1, g2, g3, g4, g5, g6, g7, g8⟩
      ⟨u', h1', -, ps', j', b', ms', n', k1, k2, k3, k4, k5, k6, k7, k8⟩
    have e1 := Option.some.inj (h1.1.symm.trans h1'.1)
    rw [g4, k4] at e1
    obtain ⟨rfl, -⟩ := partPos_inj W hctx hvk g1 k1 g2 k2 g3 k3 e1
    have e2 := Option.some.inj (g7.symm.trans k7)
    rw [seedPos_inj W hctx hvk g5 g6 k5 k6 e2, k8] at g8
    exact (Option.some.inj g8).symm
  · rintro f m y h hm ⟨u, h1, h2, ps, j, b, ms, n, g1, g2, g3, g4, g5, g6, g7, g8⟩
    have A := agree_glue W hctx hvk (N := N) f y (.inl hm.2.1) hm.2.2
    have hu : (m : Bytes) = u := Option.some.inj ((A.fresh7 W hctx hvk hm).1.symm.trans h1.1)
    rw [A.seen6 W hctx hvk h2] at g7
    exact ⟨u, hu ▸ hm, h2, ps, j, b, ms, n, g1, g2, g3, g4, g5, g6, g7, g8⟩

end

/-! ### All of them together -/

section
variable (P) (vk ctx : Bytes) (σ : OracleStrategy)

/-- The Client is lucky. -/
def Bad (T : Bytes → ℕ → UInt8) (q : ℕ) : Prop :=
  ∃ t < q, ∃ t' < q,
    (∃ i < P.shares, ∃ i' < P.shares, Coll7 P vk ctx σ T t i t' i') ∨
    (∃ i < P.shares + 1, ∃ i' < P.shares + 1, Coll6 P vk ctx σ T t i t' i') ∨
    (∃ i < P.shares + 1, Late6 P vk ctx σ T t i t') ∨
    ∃ i < P.shares, ∃ i' < P.shares + 1, Late7 P vk ctx σ T t i t' i'

end

theorem ncard_exists_le {α : Type} [Finite α] (n : ℕ) (E : ℕ → Set α) {b : ℚ}
    (h : ∀ i < n, ((E i).ncard : ℚ) ≤ b) : (Set.ncard {x | ∃ i < n, x ∈ E i} : ℚ) ≤ n * b := by
  have h1 : {x | ∃ i < n, x ∈ E i} = ⋃ i ∈ Finset.range n, E i := by
    ext x
    simp
  rw [h1]
  refine le_trans (Nat.cast_le.2 (Finset.set_ncard_biUnion_le (Finset.range n) E)) ?_
  push_cast
  refine (sum_le_sum fun i hi => h i (Finset.mem_range.1 hi)).trans (le_of_eq ?_)
  rw [sum_const, Finset.card_range, nsmul_eq_mul]

theorem ncard_or_le {α : Type} [Finite α] (E E' : Set α) {b b' : ℚ} (h : (E.ncard : ℚ) ≤ b) (h' : (E'.ncard : ℚ) ≤ b') :
    (Set.ncard {x | x ∈ E ∨ x ∈ E'} : ℚ) ≤ b + b' := by
  have : {x | x ∈ E ∨ x ∈ E'} = E ∪ E' := rfl
  rw [this]
  refine le_trans (Nat.cast_le.2 (Set.ncard_union_le E E')) ?_
  push_cast
  exact add_le_add h h'

section
variable (W : P.WF) {vk ctx : Bytes} (hctx : ctx.length + 8 < 2 ^ 16) (hvk : vk.length = 32) {σ : OracleStrategy}
include W hctx hvk

theorem bad_bound {S : Set Bytes} [Fintype S] (hS : oracleInputs P vk ctx ⊆ S) {N : ℕ} (hN : 32 ≤ N) (q : ℕ) :
    (Set.ncard {f : S → Fin N → UInt8 | Bad P vk ctx σ (glue prims S f) q} : ℚ) ≤
      3 * (q * (P.shares + 1)) ^ 2 / 2 ^ 256 * Fintype.card (S → Fin N → UInt8) := by
  have hc : (0 : ℚ) ≤ Fintype.card (S → Fin N → UInt8) := Nat.cast_nonneg _
  have h7 : ∀ t t', (Set.ncard {f : S → Fin N → UInt8 | ∃ i < P.shares, f ∈ {f | ∃ i' < P.shares, f ∈ {f |
      Coll7 P vk ctx σ (glue prims S f) t i t' i'}}} : ℚ) ≤ _ := fun t t' =>
    ncard_exists_le _ _ fun i _ => ncard_exists_le _ _ fun i' _ => coll7_bound W hctx hvk hS hN t i t' i'
  have h6 : ∀ t t', (Set.ncard {f : S → Fin N → UInt8 | ∃ i < P.shares + 1, f ∈ {f | ∃ i' < P.shares + 1, f ∈ {f |
      Coll6 P vk ctx σ (glue prims S f) t i t' i'}}} : ℚ) ≤ _ := fun t t' =>
    ncard_exists_le _ _ fun i _ => ncard_exists_le _ _ fun i' _ => coll6_bound W hctx hvk hS hN t i t' i'
  have l6 : ∀ t t', (Set.ncard {f : S → Fin N → UInt8 | ∃ i < P.shares + 1, f ∈ {f |
      Late6 P vk ctx σ (glue prims S f) t i t'}} : ℚ) ≤ _ := fun t t' =>
    ncard_exists_le _ _ fun i _ => late6_bound W hctx hvk hS hN t i t'
  have l7 : ∀ t t', (Set.ncard {f : S → Fin N → UInt8 | ∃ i < P.shares, f ∈ {f | ∃ i' < P.shares + 1, f ∈ {f |
      Late7 P vk ctx σ (glue prims S f) t i t' i'}}} : ℚ) ≤ _ := fun t t' =>
    ncard_exists_le _ _ fun i _ => ncard_exists_le _ _ fun i' _ => late7_bound W hctx hvk hS hN t i t' i'
  have key := ncard_exists_le q _ fun t _ => ncard_exists_le q _ fun t' _ =>
    ncard_or_le _ _ (h7 t t') (ncard_or_le _ _ (h6 t t') (ncard_or_le _ _ (l6 t t') (l7 t t')))
  refine key.trans ?_
  push_cast
  have hs : (0 : ℚ) ≤ P.shares := Nat.cast_nonneg _
  have hq : (0 : ℚ) ≤ q := Nat.cast_nonneg _
  have e : (P.shares : ℚ) * P.shares + (P.shares + 1) * (P.shares + 1) + (P.shares + 1) + P.shares * (P.shares + 1) ≤
      3 * (P.shares + 1) ^ 2 := by nlinarith
  have e2 := mul_le_mul_of_nonneg_left e (show 0 ≤ (q : ℚ) * q * (1 / 2 ^ 256 * Fintype.card (S → Fin N → UInt8)) by positivity)
  refine le_trans (le_of_eq ?_) (e2.trans (le_of_eq ?_)) <;> ring

end
end Vdaf.Prio3
