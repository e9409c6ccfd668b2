import Verif.Proofs.RomMain
import Mathlib.Data.Fintype.BigOperators
import Mathlib.Data.Set.Card.Arithmetic

/-! The Client does not guess the verification key. -/

set_option linter.unusedSectionVars false

namespace Vdaf.Prio3
open Finset
open Spec (tag runWith withOracle OracleMove OracleReply OracleStrategy EncodedReport oracleRun oracleRespond sentNonces
  decodeReport acceptsEncoded accepts measShares oracleInputs commitment oracles)
attribute [local instance] bytesFintype
variable {F : Type} [NttField F] {Meas Agg : Type} {prims : Prims} {fuel : ℕ}
  {P : Prio3 (XofTurboShake128 prims fuel) F Meas Agg} {T T' : Bytes → ℕ → UInt8}

section
variable (P) (ctx : Bytes)

/-- A key -/
def zeroKey : Bytes := List.replicate 32 0

/-- An oracle that takes the query randomness from `Q` -/
noncomputable def mixed (T Q : Bytes → ℕ → UInt8) : Bytes → ℕ → UInt8 := fun m =>
  open Classical in if h : ∃ n, m = qrPos P zeroKey ctx n then Q h.choose else T m

/-- The reply to a move if the query randomness is taken from `Q` -/
noncomputable def idealRespond (T Q : Bytes → ℕ → UInt8) (hist : List (OracleMove × OracleReply)) : OracleMove → OracleReply
  | .query m => .output (T m)
  | .submit e => .verdict (decide (e.nonce.length = 16 ∧ e.nonce ∉ sentNonces hist) &&
      acceptsEncoded (runWith P (mixed P ctx T Q)) zeroKey ctx e)

/-- The run if the query randomness is taken from `Q` -/
noncomputable def idealRun (T Q : Bytes → ℕ → UInt8) (σ : OracleStrategy) : ℕ → List (OracleMove × OracleReply)
  | 0 => []
  | q + 1 =>
    let hist := idealRun T Q σ q
    let move := σ (hist.map Prod.snd)
    hist ++ [(move, idealRespond P ctx T Q hist move)]

end

/-- Move `t` is the first one that evaluates the oracle at an input for the query randomness. -/
def FirstGuess (P : Prio3 (XofTurboShake128 prims fuel) F Meas Agg) (ctx : Bytes) (σ : OracleStrategy) (t : ℕ) (vk : Bytes)
    (T : Bytes → ℕ → UInt8) : Prop :=
  (∃ n, n.length = 16 ∧ moveAt P T vk ctx σ t = .query (qrPos P vk ctx n)) ∧
    ∀ k < t, ∀ n, n.length = 16 → moveAt P T vk ctx σ k ≠ .query (qrPos P vk ctx n)

section
variable (W : P.WF) {vk ctx : Bytes} (hctx : ctx.length + 8 < 2 ^ 16) (hvk : vk.length = 32)
include W hctx

theorem specQuery_ev {vk nonce : Bytes} (hvk : vk.length = 32) {v : List F} :
    Spec.queryRands (runWith P T) vk ctx nonce = .ok v ↔
      Ev F fuel (P.flp.queryRandLen * P.proofs) (T (qrPos P vk ctx nonce)) v := by
  unfold Spec.queryRands
  rw [expandIntoVec_ev (by rw [tag_length]; omega) (by rw [hvk]; norm_num)]
  rfl

theorem key_inj {vk vk' n n' : Bytes} (hvk : vk.length = 32) (hvk' : vk'.length = 32)
    (h : qrPos P vk ctx n = qrPos P vk' ctx n') : vk = vk' ∧ n = n' := by
  have hd : ∀ u, (tag P.id u ctx).length < 2 ^ 16 := fun u => by rw [tag_length]; omega
  obtain ⟨h1, -, h2⟩ := turboInput_inj (hd _) (hd _) (by omega) (by omega) h
  exact ⟨h1, (List.cons.inj h2).2⟩

theorem mixed_at (T Q : Bytes → ℕ → UInt8) (n : Bytes) : mixed P ctx T Q (qrPos P zeroKey ctx n) = Q n := by
  have hx : ∃ n', qrPos P zeroKey ctx n = qrPos P zeroKey ctx n' := ⟨n, rfl⟩
  unfold mixed
  rw [dif_pos hx]
  congr 1
  exact (key_inj W hctx (by simp [zeroKey]) (by simp [zeroKey]) hx.choose_spec).2.symm

omit W hctx in
theorem mixed_off (T Q : Bytes → ℕ → UInt8) {m : Bytes} (h : ∀ n, m ≠ qrPos P zeroKey ctx n) : mixed P ctx T Q m = T m := by
  unfold mixed
  rw [dif_neg]
  rintro ⟨n, hn⟩
  exact h n hn

include hvk

theorem accepts_key {vk' : Bytes} (hvk' : vk'.length = 32) {e : EncodedReport} (hn : e.nonce.length = 16)
    (hT : ∀ m, (∀ n, m ≠ qrPos P vk ctx n) → (∀ n, m ≠ qrPos P vk' ctx n) → T' m = T m)
    (hQ : chunksOf F fuel (T' (qrPos P vk' ctx e.nonce)) = chunksOf F fuel (T (qrPos P vk ctx e.nonce)))
    (ha : acceptsEncoded (runWith P T) vk ctx e = true) : acceptsEncoded (runWith P T') vk' ctx e = true := by
  obtain ⟨r, hd, ha⟩ := acceptsEncoded_iff.1 ha
  rw [decodeReport_runWith] at hd
  refine acceptsEncoded_iff.2 ⟨r, hd, ?_⟩
  refine AgreeOn.accepts_gen W hctx hvk hn hd (fun v hv => ?_) ⟨fun m hm => ?_, ?_⟩ ha
  · rw [specQuery_ev W hctx hvk, (decodeReport_ok hd).1] at hv
    rw [specQuery_ev W hctx hvk', (decodeReport_ok hd).1]
    obtain ⟨h1, w, h2⟩ := hv
    exact ⟨h1, w, by rw [hQ]; exact h2⟩
  · exact hT m (fun n => hm 5 vk _ (by omega) (by rw [hvk]; norm_num)) (fun n => hm 5 vk' _ (by omega) (by rw [hvk']; norm_num))
  · rintro m (h | h | h)
    · exact hT m (fun n hn => qr_not_R7 W hctx hvk (hn ▸ submit_in7 h)) (fun n hn => qr_not_R7 W hctx hvk' (hn ▸ submit_in7 h))
    · exact hT m (fun n hn => qr_not_R6 W hctx hvk (hn ▸ submit_in6 h)) (fun n hn => qr_not_R6 W hctx hvk' (hn ▸ submit_in6 h))
    · obtain ⟨r', xs, -, rfl⟩ := submit_in3 h
      exact hT _ (fun n => jr_ne_qr W hctx hvk _ _ (by rw [trueSeed_length]; norm_num))
        (fun n => jr_ne_qr W hctx hvk' _ _ (by rw [trueSeed_length]; norm_num))

theorem ideal_run {σ : OracleStrategy} {Q : Bytes → ℕ → UInt8}
    (hT : ∀ m, (∀ n, n.length = 16 → m ≠ qrPos P vk ctx n) → T' m = T m)
    (hQ : ∀ n, n.length = 16 → chunksOf F fuel (Q n) = chunksOf F fuel (T (qrPos P vk ctx n))) {t : ℕ}
    (hno : ∀ k < t, ∀ n, n.length = 16 → moveAt P T vk ctx σ k ≠ .query (qrPos P vk ctx n)) :
    idealRun P ctx T' Q σ t = oracleRun (runWith P T) vk ctx σ t := by
  induction t with
  | zero => rfl
  | succ t ih =>
    have ih := ih fun k hk => hno k (by omega)
    simp only [idealRun, Spec.oracleRun, ih]
    congr 3
    have hm : moveAt P T vk ctx σ t = σ ((oracleRun (runWith P T) vk ctx σ t).map Prod.snd) := rfl
    have hno := hno t (by omega)
    rw [hm] at hno
    cases hmv : σ ((oracleRun (runWith P T) vk ctx σ t).map Prod.snd) with
    | query m =>
      simp only [idealRespond, Spec.oracleRespond, withOracle, if_true]
      rw [hT m]
      rintro n hn rfl
      exact hno n hn hmv
    | submit e =>
      simp only [idealRespond, Spec.oracleRespond]
      by_cases hn : e.nonce.length = 16
      · have hz : (zeroKey).length = 32 := by simp [zeroKey]
        have h1 : acceptsEncoded (runWith P (mixed P ctx T' Q)) zeroKey ctx e = acceptsEncoded (runWith P T) vk ctx e := by
          rw [Bool.eq_iff_iff]
          have hm : ∀ m, (∀ n, m ≠ qrPos P vk ctx n) → (∀ n, m ≠ qrPos P zeroKey ctx n) → mixed P ctx T' Q m = T m := by
            intro m h1 h2
            rw [mixed_off T' Q h2]
            exact hT m fun n _ => h1 n
          constructor
          · refine accepts_key W hctx hz hvk hn (fun m h1 h2 => (hm m h2 h1).symm) ?_
            rw [mixed_at W hctx]
            exact (hQ _ hn).symm
          · refine accepts_key W hctx hvk hz hn hm ?_
            rw [mixed_at W hctx]
            exact hQ _ hn
        rw [h1]
      · simp [hn]

end

section
variable (W : P.WF) {ctx : Bytes} (hctx : ctx.length + 8 < 2 ^ 16)
include W hctx

/-- The keys -/
abbrev Key := List.Vector UInt8 32

theorem chunks_head {N : ℕ} (hN : fuel * PyField.encSize F ≤ N) (base base' : ℕ → UInt8) (y : Fin N → UInt8) :
    chunksOf F fuel (withHead base y) = chunksOf F fuel (withHead base' y) := by
  unfold chunksOf
  refine List.map_congr_left fun i hi => ?_
  unfold Spec.bytesAt
  refine List.map_congr_left fun j hj => ?_
  have h1 := List.mem_range.1 hi
  have h2 := List.mem_range.1 hj
  have h3 : i * PyField.encSize F + j < N := by
    have : (i + 1) * PyField.encSize F ≤ fuel * PyField.encSize F := Nat.mul_le_mul_right _ h1
    rw [Nat.add_mul] at this
    omega
  unfold withHead
  rw [dif_pos h3, dif_pos h3]

theorem guess_count {S : Set Bytes} [Fintype S] (hS : ∀ vk : Bytes, vk.length = 32 → oracleInputs P vk ctx ⊆ S) {N : ℕ}
    (hN : fuel * PyField.encSize F ≤ N) (σ : OracleStrategy) (t : ℕ) :
    Set.ncard {y : Key × (S → Fin N → UInt8) | FirstGuess P ctx σ t y.1.1 (glue prims S y.2)} ≤
      Fintype.card (S → Fin N → UInt8) := by
  classical
  set A := S → Fin N → UInt8
  let Q := List.Vector UInt8 16 → Fin N → UInt8
  have hin : ∀ (k : Key) (n : List.Vector UInt8 16), qrPos P k.1 ctx n.1 ∈ S := fun k n => hS k.1 k.2 (.inl ⟨n.1, n.2, rfl⟩)
  let swapA : Key → A → Q → A := fun k f g m =>
    if h : ∃ n : List.Vector UInt8 16, m.1 = qrPos P k.1 ctx n.1 then g h.choose else f m
  let swapQ : Key → A → Q := fun k f n => f ⟨_, hin k n⟩
  have hsA : ∀ k f g n, swapA k f g ⟨_, hin k n⟩ = g n := by
    intro k f g n
    have hx : ∃ n' : List.Vector UInt8 16, qrPos P k.1 ctx n.1 = qrPos P k.1 ctx n'.1 := ⟨n, rfl⟩
    simp only [swapA]
    rw [dif_pos hx]
    congr 1
    exact Subtype.ext (key_inj W hctx k.2 k.2 hx.choose_spec).2.symm
  have hideal : ∀ k f g, FirstGuess P ctx σ t k.1 (glue prims S f) →
      ∃ n, σ ((idealRun P ctx (glue prims S (swapA k f g)) (fun n => if h : n.length = 16 then
        withHead (fun _ => 0) (swapQ k f ⟨n, h⟩) else fun _ => 0) σ t).map Prod.snd) = .query (qrPos P k.1 ctx n) := by
    rintro k f g ⟨⟨n, hn, h1⟩, h2⟩
    refine ⟨n, ?_⟩
    rw [ideal_run W hctx k.2 (T := glue prims S f) ?_ ?_ h2]
    · exact h1
    · intro m hm
      unfold glue
      split
      · next h =>
        congr 1
        simp only [swapA]
        rw [dif_neg]
        rintro ⟨n, hn⟩
        exact hm n.1 n.2 hn
      · rfl
    · intro n hn
      rw [dif_pos hn]
      have := glue_mem prims S f ⟨_, hin k ⟨n, hn⟩⟩
      simp only at this
      rw [this]
      exact chunks_head W hctx hN _ _ _
  have hinj : Set.InjOn (fun x : (Key × A) × Q => (swapA x.1.1 x.1.2 x.2, swapQ x.1.1 x.1.2))
      ({y : Key × A | FirstGuess P ctx σ t y.1.1 (glue prims S y.2)} ×ˢ Set.univ) := by
    rintro ⟨⟨k, f⟩, g⟩ ⟨h1, -⟩ ⟨⟨k', f'⟩, g'⟩ ⟨h2, -⟩ he
    simp only [Prod.mk.injEq] at he
    obtain ⟨e1, e2⟩ := he
    obtain ⟨n, i1⟩ := hideal k f g h1
    obtain ⟨n', i2⟩ := hideal k' f' g' h2
    rw [e1, e2, i2] at i1
    have := Subtype.ext (key_inj W hctx k.2 k'.2 (OracleMove.query.inj i1).symm).1
    subst this
    have eg : g = g' := by
      funext n
      rw [← hsA k f g n, ← hsA k f' g' n, e1]
    subst eg
    have ef : f = f' := by
      funext m
      by_cases hx : ∃ n : List.Vector UInt8 16, m.1 = qrPos P k.1 ctx n.1
      · obtain ⟨n, hn⟩ := hx
        have hm : m = ⟨_, hin k n⟩ := Subtype.ext hn
        rw [hm]
        exact congrFun e2 n
      · have := congrFun e1 m
        simp only [swapA] at this
        rwa [dif_neg hx, dif_neg hx] at this
    rw [ef]
  have h1 := Set.ncard_le_ncard_of_injOn _ (fun x _ => Set.mem_univ _) hinj (Set.toFinite _)
  rw [Set.ncard_prod, Set.ncard_univ, Set.ncard_univ, Nat.card_prod, Nat.card_eq_fintype_card,
    Nat.card_eq_fintype_card (α := A)] at h1
  have : 0 < Fintype.card Q := Fintype.card_pos
  exact Nat.le_of_mul_le_mul_right h1 this

open Classical in
/-- The Client, except that it does not evaluate the oracle at an input for the query randomness -/
noncomputable def blinded (P : Prio3 (XofTurboShake128 prims fuel) F Meas Agg) (ctx : Bytes) (σ : OracleStrategy)
    (vk : Bytes) : OracleStrategy := fun replies =>
  if ∃ n, n.length = 16 ∧ σ replies = .query (qrPos P vk ctx n) then .query [] else σ replies

omit W hctx in
theorem blinded_ignores (σ : OracleStrategy) (vk : Bytes) : Spec.IgnoresKey P vk ctx (blinded P ctx σ vk) := by
  intro replies n hn h
  unfold blinded at h
  split at h
  · have := congrArg List.length (OracleMove.query.inj h)
    simp [Spec.xofInput, natToLe] at this
  · next hx => exact hx ⟨n, hn, h⟩

omit W hctx in
theorem blinded_run {σ : OracleStrategy} {vk : Bytes} {q : ℕ}
    (hno : ∀ k < q, ∀ n, n.length = 16 → moveAt P T vk ctx σ k ≠ .query (qrPos P vk ctx n)) :
    oracleRun (runWith P T) vk ctx (blinded P ctx σ vk) q = oracleRun (runWith P T) vk ctx σ q := by
  induction q with
  | zero => rfl
  | succ q ih =>
    simp only [Spec.oracleRun, ih fun k hk => hno k (by omega)]
    have : blinded P ctx σ vk ((oracleRun (runWith P T) vk ctx σ q).map Prod.snd) =
        σ ((oracleRun (runWith P T) vk ctx σ q).map Prod.snd) := by
      unfold blinded
      rw [if_neg]
      rintro ⟨n, hn, h⟩
      exact hno q (by omega) n hn h
    rw [this]

omit W hctx in
theorem first_guess {σ : OracleStrategy} {vk : Bytes} {q : ℕ}
    (h : ¬ ∀ k < q, ∀ n, n.length = 16 → moveAt P T vk ctx σ k ≠ .query (qrPos P vk ctx n)) :
    ∃ t < q, FirstGuess P ctx σ t vk T := by
  classical
  push Not at h
  obtain ⟨h1, h2⟩ := Nat.find_spec h
  refine ⟨_, h1, h2, fun k hk n hn hc => Nat.find_min h hk ⟨by omega, n, hn, hc⟩⟩

theorem ncard_pairs {α β : Type} [Fintype α] [Fintype β] (E : Set (α × β)) :
    E.ncard = ∑ a, Set.ncard {b | (a, b) ∈ E} := by
  classical
  rw [Set.ncard_eq_toFinset_card']
  have h1 : ∀ a, Set.ncard {b | (a, b) ∈ E} = ∑ b : β, if (a, b) ∈ E then 1 else 0 := by
    intro a
    rw [Set.ncard_eq_toFinset_card', ← Finset.card_filter]
    congr 1
    ext b
    simp
  simp only [h1]
  rw [← Fintype.sum_prod_type', ← Finset.card_filter]
  congr 1
  ext x
  simp

theorem keyed_bound (hP : 0 < P.proofs) (hC : Spec.Circuit P.flp) (hg : P.flp.gadgets ≠ []) {S : Set Bytes}
    (hfin : S.Finite) (hS : ∀ vk : Bytes, vk.length = 32 → oracleInputs P vk ctx ⊆ S) {N : ℕ}
    (hN : fuel * PyField.encSize F ≤ N) (hN' : 32 ≤ N) (σ : OracleStrategy) {valid : List F → Prop} {ε : ℚ} (h0 : 0 ≤ ε)
    (hε : ∀ meas : List F, meas.length = P.flp.measLen → ¬ valid meas →
      (Set.ncard {jr : Fin P.flp.jointRandLen → F | Spec.Accepts P.flp meas (List.ofFn jr)} : ℚ) ≤
        ε * (PyField.modulus F : ℚ) ^ P.flp.jointRandLen) (q : ℕ) :
    (Set.ncard {x : Bytes × (Bytes → ℕ → UInt8) | x.1.length = 32 ∧ x.2 ∈ oracles prims S N ∧
      Spec.OracleWins (runWith P x.2) ctx valid (oracleRun (runWith P x.2) x.1 ctx σ q)} : ℚ) ≤
      (q * (ε + Spec.paddedSoundness P.flp) ^ P.proofs + Spec.luckBound P q + q / 2 ^ 256) *
        Set.ncard {x : Bytes × (Bytes → ℕ → UInt8) | x.1.length = 32 ∧ x.2 ∈ oracles prims S N} := by
  classical
  have : Fintype S := hfin.fintype
  have hpair : ∀ R : Bytes → (Bytes → ℕ → UInt8) → Prop,
      Set.ncard {x : Bytes × (Bytes → ℕ → UInt8) | x.1.length = 32 ∧ x.2 ∈ oracles prims S N ∧ R x.1 x.2} =
      Set.ncard {y : Key × (S → Fin N → UInt8) | R y.1.1 (glue prims S y.2)} := by
    intro R
    symm
    refine Set.ncard_congr (fun y _ => (y.1.1, glue prims S y.2)) ?_ ?_ ?_
    · intro y hy
      exact ⟨y.1.2, by rw [← glue_range]; exact ⟨_, rfl⟩, hy⟩
    · rintro ⟨k, f⟩ ⟨k', f'⟩ - - he
      simp only [Prod.mk.injEq] at he
      rw [Prod.mk.injEq]
      exact ⟨Subtype.ext he.1, glue_injective prims S he.2⟩
    · rintro ⟨b, T⟩ ⟨h1, h2, h3⟩
      simp only at h1 h2 h3
      rw [← glue_range] at h2
      obtain ⟨f, rfl⟩ := h2
      exact ⟨(⟨b, h1⟩, f), h3, rfl⟩
  have hK : (Fintype.card Key : ℚ) = 2 ^ 256 := by
    have hb : Fintype.card UInt8 = 256 := by
      rw [← Nat.card_eq_fintype_card, Nat.card_congr ⟨UInt8.toFin, UInt8.ofFin, fun _ => rfl, fun _ => rfl⟩, Nat.card_fin]
    rw [card_vector, hb]
    norm_num
  have hall : Set.ncard {x : Bytes × (Bytes → ℕ → UInt8) | x.1.length = 32 ∧ x.2 ∈ oracles prims S N} =
      Fintype.card Key * Fintype.card (S → Fin N → UInt8) := by
    have := hpair fun _ _ => True
    simp only [and_true] at this
    rw [this, ← Fintype.card_prod, ← Nat.card_eq_fintype_card, ← Set.ncard_univ]
    congr 1
  rw [hall, hpair fun vk T => Spec.OracleWins (runWith P T) ctx valid (oracleRun (runWith P T) vk ctx σ q)]
  have h1 : (Set.ncard {y : Key × (S → Fin N → UInt8) | Spec.OracleWins (runWith P (glue prims S y.2)) ctx valid
      (oracleRun (runWith P (glue prims S y.2)) y.1.1 ctx (blinded P ctx σ y.1.1) q)} : ℚ) ≤
      (q * (ε + Spec.paddedSoundness P.flp) ^ P.proofs + Spec.luckBound P q) *
        (Fintype.card Key * Fintype.card (S → Fin N → UInt8)) := by
    rw [ncard_pairs W hctx]
    push_cast
    have step : ∀ k : Key, (Set.ncard {f : S → Fin N → UInt8 | Spec.OracleWins (runWith P (glue prims S f)) ctx valid
        (oracleRun (runWith P (glue prims S f)) k.1 ctx (blinded P ctx σ k.1) q)} : ℚ) ≤
        (q * (ε + Spec.paddedSoundness P.flp) ^ P.proofs + Spec.luckBound P q) * Fintype.card (S → Fin N → UInt8) := by
      intro k
      have := oracle_bound W hctx k.2 hP hC hg hfin (hS k.1 k.2) hN hN' (blinded_ignores σ k.1) h0 hε q
      have hcard : Set.ncard (oracles prims S N) = Fintype.card (S → Fin N → UInt8) := by
        have := ncard_glue prims S (N := N) fun _ => True
        simp only [and_true, Set.ofPred_mem_eq] at this
        rw [this, ← Nat.card_eq_fintype_card, ← Set.ncard_univ]
        congr 1
      rw [ncard_glue prims S fun T => Spec.OracleWins (runWith P T) ctx valid
        (oracleRun (runWith P T) k.1 ctx (blinded P ctx σ k.1) q), hcard] at this
      exact this
    refine (sum_le_sum fun k _ => step k).trans (le_of_eq ?_)
    rw [sum_const, card_univ, nsmul_eq_mul]
    ring
  have h2 : (Set.ncard {y : Key × (S → Fin N → UInt8) | ∃ t < q, y ∈ {y : Key × (S → Fin N → UInt8) |
      FirstGuess P ctx σ t y.1.1 (glue prims S y.2)}} : ℚ) ≤ q * Fintype.card (S → Fin N → UInt8) :=
    ncard_exists_le q _ fun t _ => Nat.cast_le.2 (guess_count W hctx hS hN σ t)
  refine le_trans ?_ ((ncard_or_le _ _ h1 h2).trans (le_of_eq ?_))
  · refine Nat.cast_le.2 (Set.ncard_le_ncard ?_ (Set.toFinite _))
    intro y hy
    by_cases hno : ∀ k < q, ∀ n, n.length = 16 → moveAt P (glue prims S y.2) y.1.1 ctx σ k ≠ .query (qrPos P y.1.1 ctx n)
    · left
      show Spec.OracleWins _ _ _ _
      rw [blinded_run hno]
      exact hy
    · exact .inr (first_guess hno)
  · push_cast
    rw [hK]
    field_simp

end
end Vdaf.Prio3
