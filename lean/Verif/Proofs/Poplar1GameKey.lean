import Verif.Proofs.Poplar1GameMain

/-! The Client of Poplar1 does not guess the verification key. -/

set_option linter.unusedSectionVars false

namespace Vdaf.Poplar1
open Finset
open Spec (tag withOracle Poplar1Move Poplar1Reply Poplar1Strategy EncodedReport poplar1Run poplar1Respond previousParams
  poplar1Outputs verifyRandInput verifyRandInputs oracles)
open Prio3 (Key zeroKey)
attribute [local instance] bytesFintype
variable {P : Poplar1} {prims : Prims} {fuel : ℕ} {T T' : Bytes → ℕ → UInt8}

/-- A nonce and a level -/
abbrev Place := List.Vector UInt8 16 × Fin (2 ^ 16)

/-- The input of the oracle for the verification randomness -/
def posAt (vk ctx : Bytes) (d : Place) : Bytes := verifyRandInput vk ctx d.1.1 d.2

theorem posAt_mem (vk ctx : Bytes) (d : Place) : posAt vk ctx d ∈ verifyRandInputs vk ctx := ⟨d.1.1, d.2, d.1.2, d.2.2, rfl⟩

theorem mem_posAt {vk ctx m : Bytes} (h : m ∈ verifyRandInputs vk ctx) : ∃ d, m = posAt vk ctx d := by
  obtain ⟨n, l, hn, hl, rfl⟩ := h
  exact ⟨(⟨n, hn⟩, ⟨l, hl⟩), rfl⟩

theorem posAt_inj {vk vk' ctx : Bytes} {d d' : Place} (hctx : ctx.length + 8 < 2 ^ 16) (hvk : vk.length = 32)
    (hvk' : vk'.length = 32) (h : posAt vk ctx d = posAt vk' ctx d') : vk = vk' ∧ d = d' := by
  obtain ⟨h1, h2, h3⟩ := position_inj hctx hvk hvk' d.1.2 d'.1.2 d.2.2 d'.2.2 h
  exact ⟨h1, Prod.ext (Subtype.ext h2) (Fin.ext h3)⟩

theorem zeroKey_length : zeroKey.length = 32 := by simp [zeroKey]

section
variable (P prims fuel) (ctx : Bytes)

/-- An oracle that takes the verification randomness from `Q` -/
noncomputable def mixed (T : Bytes → ℕ → UInt8) (Q : Place → ℕ → UInt8) : Bytes → ℕ → UInt8 := fun m =>
  open Classical in if h : ∃ d, m = posAt zeroKey ctx d then Q h.choose else T m

/-- The reply to a move if the verification randomness is taken from `Q` -/
noncomputable def idealRespond (T : Bytes → ℕ → UInt8) (Q : Place → ℕ → UInt8) (hist : List (Poplar1Move × Poplar1Reply)) :
    Poplar1Move → Poplar1Reply
  | .query m => .output (T m)
  | .submit e a => poplar1Respond P (withOracle prims (mixed ctx T Q)) fuel zeroKey ctx hist (.submit e a)

/-- The run if the verification randomness is taken from `Q` -/
noncomputable def idealRun (T : Bytes → ℕ → UInt8) (Q : Place → ℕ → UInt8) (σ : Poplar1Strategy) :
    ℕ → List (Poplar1Move × Poplar1Reply)
  | 0 => []
  | q + 1 =>
    let hist := idealRun T Q σ q
    let move := σ (hist.map Prod.snd)
    hist ++ [(move, idealRespond P prims fuel ctx T Q hist move)]

/-- Move `t` is the first one that evaluates the oracle at an input for the verification randomness. -/
def FirstGuess (σ : Poplar1Strategy) (t : ℕ) (vk : Bytes) (T : Bytes → ℕ → UInt8) : Prop :=
  (∃ d, moveAt P prims fuel T vk ctx σ t = .query (posAt vk ctx d)) ∧
    ∀ k < t, ∀ d, moveAt P prims fuel T vk ctx σ k ≠ .query (posAt vk ctx d)

end

section
variable {ctx : Bytes} (hctx : ctx.length + 8 < 2 ^ 16)
include hctx

theorem mixed_at (T : Bytes → ℕ → UInt8) (Q : Place → ℕ → UInt8) (d : Place) : mixed ctx T Q (posAt zeroKey ctx d) = Q d := by
  have hx : ∃ d', posAt zeroKey ctx d = posAt zeroKey ctx d' := ⟨d, rfl⟩
  unfold mixed
  rw [dif_pos hx]
  congr 1
  exact (posAt_inj hctx zeroKey_length zeroKey_length hx.choose_spec).2.symm

omit hctx in
theorem mixed_off (T : Bytes → ℕ → UInt8) (Q : Place → ℕ → UInt8) {m : Bytes} (h : ∀ d, m ≠ posAt zeroKey ctx d) :
    mixed ctx T Q m = T m := by
  unfold mixed
  rw [dif_neg]
  rintro ⟨d, hd⟩
  exact h d hd

theorem turbo_ne_posAt {vk s d b : Bytes} (hvk : vk.length = 32) (hs : s.length < 2 ^ 8) (hd : d.length < 2 ^ 16)
    (hne : d ≠ tag 6 4 ctx) (x : Place) : turboInput s d b ≠ posAt vk ctx x := by
  intro h
  have hd' : (tag 6 4 ctx).length < 2 ^ 16 := by rw [Prio3.tag_length]; omega
  exact hne (turboInput_inj hd hd' hs (by omega) h).2.1

theorem chunks_head {κ : Kind} {N : ℕ} (hN : fuel * 32 ≤ N) (base base' : ℕ → UInt8) (y : Fin N → UInt8) :
    chunksOf (Fk κ) fuel (withHead base y) = chunksOf (Fk κ) fuel (withHead base' y) := by
  have hs : PyField.encSize (Fk κ) ≤ 32 := by cases κ <;> decide
  unfold chunksOf
  refine List.map_congr_left fun i hi => ?_
  unfold Spec.bytesAt
  refine List.map_congr_left fun j hj => ?_
  have h1 := List.mem_range.1 hi
  have h2 := List.mem_range.1 hj
  have h3 : i * PyField.encSize (Fk κ) + j < N := by
    have : (i + 1) * PyField.encSize (Fk κ) ≤ fuel * PyField.encSize (Fk κ) := Nat.mul_le_mul_right _ h1
    have := Nat.mul_le_mul_left fuel hs
    rw [Nat.add_mul] at *
    omega
  unfold withHead
  rw [dif_pos h3, dif_pos h3]

theorem ideal_run {vk : Bytes} (hvk : vk.length = 32) {σ : Poplar1Strategy} {Q : Place → ℕ → UInt8}
    (hT : ∀ m, (∀ d, m ≠ posAt vk ctx d) → T' m = T m)
    (hQ : ∀ κ d, chunksOf (Fk κ) fuel (Q d) = chunksOf (Fk κ) fuel (T (posAt vk ctx d))) {t : ℕ}
    (hno : ∀ k < t, ∀ d, moveAt P prims fuel T vk ctx σ k ≠ .query (posAt vk ctx d)) :
    idealRun P prims fuel ctx T' Q σ t = poplar1Run P (withOracle prims T) fuel vk ctx σ t := by
  induction t with
  | zero => rfl
  | succ t ih =>
    have ih := ih fun k hk => hno k (by omega)
    simp only [idealRun, Spec.poplar1Run, ih]
    congr 3
    have hm : moveAt P prims fuel T vk ctx σ t = σ ((poplar1Run P (withOracle prims T) fuel vk ctx σ t).map Prod.snd) := rfl
    have hno := hno t (by omega)
    rw [hm] at hno
    cases hmv : σ ((poplar1Run P (withOracle prims T) fuel vk ctx σ t).map Prod.snd) with
    | query m =>
      simp only [idealRespond, Spec.poplar1Respond, withOracle, if_true]
      rw [hT m]
      rintro d rfl
      exact hno d hmv
    | submit e a =>
      simp only [idealRespond]
      by_cases hc : e.nonce.length = 16 ∧ isValid a (previousParams e.nonce (poplar1Run P (withOracle prims T) fuel vk ctx σ t)) =
          .ok true
      · rw [respond_submit hc, respond_submit hc]
        have hsame : ∀ s d b, s.length < 2 ^ 8 → d.length < 2 ^ 16 → d ≠ tag 6 4 ctx →
            mixed ctx T' Q (turboInput s d b) = T (turboInput s d b) := by
          intro s d b h1 h2 h3
          rw [mixed_off T' Q fun x => turbo_ne_posAt hctx zeroKey_length h1 h2 h3 x]
          exact hT _ fun x => turbo_ne_posAt hctx hvk h1 h2 h3 x
        have hev : a.1 < 2 ^ 16 → ∀ κ n r, Ev (Fk κ) fuel n (mixed ctx T' Q (verifyRandInput zeroKey ctx e.nonce a.1)) r ↔
            Ev (Fk κ) fuel n (T (verifyRandInput vk ctx e.nonce a.1)) r := by
          intro hl κ n r
          have h1 := mixed_at hctx T' Q (⟨e.nonce, hc.1⟩, ⟨a.1, hl⟩)
          have h2 := hQ κ (⟨e.nonce, hc.1⟩, ⟨a.1, hl⟩)
          unfold posAt at h1 h2
          unfold Ev
          rw [h1, h2]
        have h1 : ∀ o, poplar1Outputs P (withOracle prims (mixed ctx T' Q)) fuel zeroKey ctx e a = .ok o ↔
            poplar1Outputs P (withOracle prims T) fuel vk ctx e a = .ok o := by
          intro o
          constructor
          · exact outputs_mono hctx zeroKey_length hvk (fun s d b h1 h2 h3 => (hsame s d b h1 h2 h3).symm)
              fun hl κ n r => (hev hl κ n r).1
          · exact outputs_mono hctx hvk zeroKey_length hsame fun hl κ n r => (hev hl κ n r).2
        revert h1
        generalize poplar1Outputs P (withOracle prims T) fuel vk ctx e a = x
        generalize poplar1Outputs P (withOracle prims (mixed ctx T' Q)) fuel zeroKey ctx e a = y
        intro h1
        cases x with
        | ok o => rw [(h1 o).2 rfl]
        | error e =>
          cases y with
          | ok o => exact absurd ((h1 o).1 rfl) (by simp)
          | error e => rfl
      · rw [respond_refused hc, respond_refused hc]

theorem guess_count {S : Set Bytes} [Fintype S] (hS : ∀ vk : Bytes, vk.length = 32 → verifyRandInputs vk ctx ⊆ S) {N : ℕ}
    (hN : fuel * 32 ≤ N) (σ : Poplar1Strategy) (t : ℕ) :
    Set.ncard {y : Key × (S → Fin N → UInt8) | FirstGuess P prims fuel ctx σ t y.1.1 (glue prims S y.2)} ≤
      Fintype.card (S → Fin N → UInt8) := by
  classical
  set A := S → Fin N → UInt8
  let Q := Place → Fin N → UInt8
  have hin : ∀ (k : Key) (d : Place), posAt k.1 ctx d ∈ S := fun k d => hS k.1 k.2 (posAt_mem ..)
  let swapA : Key → A → Q → A := fun k f g m =>
    if h : ∃ d : Place, m.1 = posAt k.1 ctx d then g h.choose else f m
  let swapQ : Key → A → Q := fun k f d => f ⟨_, hin k d⟩
  have hsA : ∀ k f g d, swapA k f g ⟨_, hin k d⟩ = g d := by
    intro k f g d
    have hx : ∃ d' : Place, posAt k.1 ctx d = posAt k.1 ctx d' := ⟨d, rfl⟩
    simp only [swapA]
    rw [dif_pos hx]
    congr 1
    exact (posAt_inj hctx k.2 k.2 hx.choose_spec).2.symm
  have hideal : ∀ k f g, FirstGuess P prims fuel ctx σ t k.1 (glue prims S f) →
      ∃ d, σ ((idealRun P prims fuel ctx (glue prims S (swapA k f g)) (fun d => withHead (fun _ => 0) (swapQ k f d)) σ t).map
        Prod.snd) = .query (posAt k.1 ctx d) := by
    rintro k f g ⟨⟨d, h1⟩, h2⟩
    refine ⟨d, ?_⟩
    rw [ideal_run hctx k.2 (T := glue prims S f) ?_ ?_ h2]
    · exact h1
    · intro m hm
      unfold glue
      split
      · next h =>
        congr 1
        simp only [swapA]
        rw [dif_neg]
        rintro ⟨d, hd⟩
        exact hm d hd
      · rfl
    · intro κ d
      have := glue_mem prims S f ⟨_, hin k d⟩
      simp only at this
      rw [this]
      exact chunks_head hctx hN _ _ _
  have hinj : Set.InjOn (fun x : (Key × A) × Q => (swapA x.1.1 x.1.2 x.2, swapQ x.1.1 x.1.2))
      ({y : Key × A | FirstGuess P prims fuel ctx σ t y.1.1 (glue prims S y.2)} ×ˢ Set.univ) := by
    rintro ⟨⟨k, f⟩, g⟩ ⟨h1, -⟩ ⟨⟨k', f'⟩, g'⟩ ⟨h2, -⟩ he
    simp only [Prod.mk.injEq] at he
    obtain ⟨e1, e2⟩ := he
    obtain ⟨n, i1⟩ := hideal k f g h1
    obtain ⟨n', i2⟩ := hideal k' f' g' h2
    rw [e1, e2, i2] at i1
    have := Subtype.ext (posAt_inj hctx k.2 k'.2 (Poplar1Move.query.inj i1).symm).1
    subst this
    have eg : g = g' := by
      funext n
      rw [← hsA k f g n, ← hsA k f' g' n, e1]
    subst eg
    have ef : f = f' := by
      funext m
      by_cases hx : ∃ d : Place, m.1 = posAt k.1 ctx d
      · obtain ⟨n, hn⟩ := hx
        have hm : m = ⟨_, hin k n⟩ := Subtype.ext hn
        rw [hm]
        exact congrFun e2 n
      · have := congrFun e1 m
        simp only [swapA] at this
        rwa [dif_neg hx, dif_neg hx] at this
    rw [ef]
  have h1 := Set.ncard_le_ncard_of_injOn _ (fun x _ => Set.mem_univ _) hinj (Set.toFinite _)
  rw [Set.ncard_prod, Set.ncard_univ, Set.ncard_univ, Nat.card_prod, Nat.card_eq_fintype_card,
    Nat.card_eq_fintype_card (α := A)] at h1
  have : 0 < Fintype.card Q := Fintype.card_pos
  exact Nat.le_of_mul_le_mul_right h1 this

open Classical in
/-- The Client, except that it does not evaluate the oracle at an input for the verification randomness -/
noncomputable def blinded (ctx : Bytes) (σ : Poplar1Strategy) (vk : Bytes) : Poplar1Strategy := fun replies =>
  if ∃ m ∈ verifyRandInputs vk ctx, σ replies = .query m then .query [] else σ replies

omit hctx in
theorem blinded_ignores (σ : Poplar1Strategy) (vk : Bytes) : Spec.Poplar1IgnoresKey vk ctx (blinded ctx σ vk) := by
  intro replies m hm h
  unfold blinded at h
  split at h
  · obtain ⟨n, l, -, -, rfl⟩ := hm
    have := congrArg List.length (Poplar1Move.query.inj h)
    simp [verifyRandInput, Spec.xofInput, natToLe] at this
  · next hx => exact hx ⟨m, hm, h⟩

omit hctx in
theorem blinded_run {σ : Poplar1Strategy} {vk : Bytes} {q : ℕ}
    (hno : ∀ k < q, ∀ d, moveAt P prims fuel T vk ctx σ k ≠ .query (posAt vk ctx d)) :
    poplar1Run P (withOracle prims T) fuel vk ctx (blinded ctx σ vk) q = poplar1Run P (withOracle prims T) fuel vk ctx σ q := by
  induction q with
  | zero => rfl
  | succ q ih =>
    simp only [Spec.poplar1Run, ih fun k hk => hno k (by omega)]
    have : blinded ctx σ vk ((poplar1Run P (withOracle prims T) fuel vk ctx σ q).map Prod.snd) =
        σ ((poplar1Run P (withOracle prims T) fuel vk ctx σ q).map Prod.snd) := by
      unfold blinded
      rw [if_neg]
      rintro ⟨m, hm, h⟩
      obtain ⟨d, rfl⟩ := mem_posAt hm
      exact hno q (by omega) d h
    rw [this]

omit hctx in
theorem first_guess {σ : Poplar1Strategy} {vk : Bytes} {q : ℕ}
    (h : ¬ ∀ k < q, ∀ d, moveAt P prims fuel T vk ctx σ k ≠ .query (posAt vk ctx d)) :
    ∃ t < q, FirstGuess P prims fuel ctx σ t vk T := by
  classical
  push Not at h
  obtain ⟨h1, h2⟩ := Nat.find_spec h
  exact ⟨_, h1, h2, fun k hk d hc => Nat.find_min h hk ⟨by omega, d, hc⟩⟩

theorem pairs_ncard {α β : Type} [Fintype α] [Fintype β] (E : Set (α × β)) :
    E.ncard = ∑ a, Set.ncard {b | (a, b) ∈ E} := by
  classical
  rw [Set.ncard_eq_toFinset_card']
  have h1 : ∀ a, Set.ncard {b | (a, b) ∈ E} = ∑ b : β, if (a, b) ∈ E then 1 else 0 := by
    intro a
    rw [Set.ncard_eq_toFinset_card', ← Finset.card_filter]
    congr 1
    ext b
    simp
  simp only [h1]
  rw [← Fintype.sum_prod_type', ← Finset.card_filter]
  congr 1
  ext x
  simp

theorem keyed_bound {S : Set Bytes} (hfin : S.Finite) (hS : ∀ vk : Bytes, vk.length = 32 → verifyRandInputs vk ctx ⊆ S) {N : ℕ}
    (hN : fuel * 32 ≤ N) (σ : Poplar1Strategy) (q : ℕ) :
    (Set.ncard {x : Bytes × (Bytes → ℕ → UInt8) | x.1.length = 32 ∧ x.2 ∈ oracles prims S N ∧
      Spec.Poplar1Wins P (withOracle prims x.2) fuel x.1 ctx (poplar1Run P (withOracle prims x.2) fuel x.1 ctx σ q)} : ℚ) ≤
      (q * (2 / Spec.levelModulus P.idpf.bits 0) + q / 2 ^ 256) *
        Set.ncard {x : Bytes × (Bytes → ℕ → UInt8) | x.1.length = 32 ∧ x.2 ∈ oracles prims S N} := by
  classical
  have : Fintype S := hfin.fintype
  have hpair : ∀ R : Bytes → (Bytes → ℕ → UInt8) → Prop,
      Set.ncard {x : Bytes × (Bytes → ℕ → UInt8) | x.1.length = 32 ∧ x.2 ∈ oracles prims S N ∧ R x.1 x.2} =
      Set.ncard {y : Key × (S → Fin N → UInt8) | R y.1.1 (glue prims S y.2)} := by
    intro R
    symm
    refine Set.ncard_congr (fun y _ => (y.1.1, glue prims S y.2)) ?_ ?_ ?_
    · intro y hy
      exact ⟨y.1.2, by rw [← glue_range]; exact ⟨_, rfl⟩, hy⟩
    · rintro ⟨k, f⟩ ⟨k', f'⟩ - - he
      simp only [Prod.mk.injEq] at he
      rw [Prod.mk.injEq]
      exact ⟨Subtype.ext he.1, glue_injective prims S he.2⟩
    · rintro ⟨b, T⟩ ⟨h1, h2, h3⟩
      simp only at h1 h2 h3
      rw [← glue_range] at h2
      obtain ⟨f, rfl⟩ := h2
      exact ⟨(⟨b, h1⟩, f), h3, rfl⟩
  have hK : (Fintype.card Key : ℚ) = 2 ^ 256 := by
    have hb : Fintype.card UInt8 = 256 := by
      rw [← Nat.card_eq_fintype_card, Nat.card_congr ⟨UInt8.toFin, UInt8.ofFin, fun _ => rfl, fun _ => rfl⟩, Nat.card_fin]
    rw [card_vector, hb]
    norm_num
  have hall : Set.ncard {x : Bytes × (Bytes → ℕ → UInt8) | x.1.length = 32 ∧ x.2 ∈ oracles prims S N} =
      Fintype.card Key * Fintype.card (S → Fin N → UInt8) := by
    have := hpair fun _ _ => True
    simp only [and_true] at this
    rw [this, ← Fintype.card_prod, ← Nat.card_eq_fintype_card, ← Set.ncard_univ]
    congr 1
  rw [hall, hpair fun vk T => Spec.Poplar1Wins P (withOracle prims T) fuel vk ctx
    (poplar1Run P (withOracle prims T) fuel vk ctx σ q)]
  have h1 : (Set.ncard {y : Key × (S → Fin N → UInt8) | Spec.Poplar1Wins P (withOracle prims (glue prims S y.2)) fuel y.1.1 ctx
      (poplar1Run P (withOracle prims (glue prims S y.2)) fuel y.1.1 ctx (blinded ctx σ y.1.1) q)} : ℚ) ≤
      (q * (2 / Spec.levelModulus P.idpf.bits 0)) * (Fintype.card Key * Fintype.card (S → Fin N → UInt8)) := by
    rw [pairs_ncard hctx]
    push_cast
    have step : ∀ k : Key, (Set.ncard {f : S → Fin N → UInt8 | Spec.Poplar1Wins P (withOracle prims (glue prims S f)) fuel k.1 ctx
        (poplar1Run P (withOracle prims (glue prims S f)) fuel k.1 ctx (blinded ctx σ k.1) q)} : ℚ) ≤
        (q * (2 / Spec.levelModulus P.idpf.bits 0)) * Fintype.card (S → Fin N → UInt8) := by
      intro k
      have := oracle_bound (P := P) (prims := prims) hctx k.2 hfin (hS k.1 k.2) hN (blinded_ignores σ k.1) q
      have hcard : Set.ncard (oracles prims S N) = Fintype.card (S → Fin N → UInt8) := by
        have := ncard_glue prims S (N := N) fun _ => True
        simp only [and_true, Set.ofPred_mem_eq] at this
        rw [this, ← Nat.card_eq_fintype_card, ← Set.ncard_univ]
        congr 1
      rw [ncard_glue prims S fun T => Spec.Poplar1Wins P (withOracle prims T) fuel k.1 ctx
        (poplar1Run P (withOracle prims T) fuel k.1 ctx (blinded ctx σ k.1) q), hcard] at this
      exact this
    refine (sum_le_sum fun k _ => step k).trans (le_of_eq ?_)
    rw [sum_const, card_univ, nsmul_eq_mul]
    ring
  have h2 : (Set.ncard {y : Key × (S → Fin N → UInt8) | ∃ t < q, y ∈ {y : Key × (S → Fin N → UInt8) |
      FirstGuess P prims fuel ctx σ t y.1.1 (glue prims S y.2)}} : ℚ) ≤ q * Fintype.card (S → Fin N → UInt8) :=
    Prio3.ncard_exists_le q _ fun t _ => Nat.cast_le.2 (guess_count hctx hS hN σ t)
  refine le_trans ?_ ((Prio3.ncard_or_le _ _ h1 h2).trans (le_of_eq ?_))
  · refine Nat.cast_le.2 (Set.ncard_le_ncard ?_ (Set.toFinite _))
    intro y hy
    by_cases hno : ∀ k < q, ∀ d, moveAt P prims fuel (glue prims S y.2) y.1.1 ctx σ k ≠ .query (posAt y.1.1 ctx d)
    · left
      show Spec.Poplar1Wins _ _ _ _ _ _
      rw [blinded_run hno]
      exact hy
    · exact .inr (first_guess hno)
  · push_cast
    rw [hK]
    field_simp

end
end Vdaf.Poplar1
