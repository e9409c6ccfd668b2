import Verif.Proofs.Poplar1Game

/-! The probability that a Client of Poplar1 that evaluates the oracle wins. -/

set_option linter.unusedSectionVars false

namespace Vdaf.Poplar1
open Finset
open Spec (tag withOracle Poplar1Move Poplar1Reply Poplar1Strategy EncodedReport poplar1Run poplar1Respond previousParams
  poplar1Outputs verifyRandInput verifyRandInputs oracles)
attribute [local instance] bytesFintype
variable {prims : Prims} {fuel : ℕ} {P : Poplar1} {T T' : Bytes → ℕ → UInt8}

theorem verifyRandInputs_finite (vk ctx : Bytes) : (verifyRandInputs vk ctx).Finite := by
  have h1 : {l : Bytes | l.length = 16}.Finite := List.finite_length_eq UInt8 16
  refine ((h1.image2 (fun n l => verifyRandInput vk ctx n l) (Set.finite_lt_nat (2 ^ 16)))).subset ?_
  rintro m ⟨n, l, hn, hl, rfl⟩
  exact ⟨n, hn, l, hl, rfl⟩

theorem zeroOrUnit_nil {F : Type} [Zero F] [One F] {u : List F} (h : u.length = 0) : Spec.ZeroOrUnit u := by
  left
  rw [List.length_eq_zero_iff.1 h]
  rfl

/-- If the output shares are wrong, the verification randomness is bad. -/
theorem outputs_bad {vk ctx : Bytes} {e : EncodedReport} {a : Poplar1AggParam} {o : FieldVec × FieldVec}
    (hctx : ctx.length + 8 < 2 ^ 16) (hvk : vk.length = 32)
    (h : poplar1Outputs P (withOracle prims T) fuel vk ctx e a = .ok o) (hb : ¬ Spec.CountsAtMostOnce a.2.length o) :
    a.1 < 2 ^ 16 ∧ 0 < a.2.length ∧ ∃ pub b0 s0 b1 s1, (P.decodePublicShare e.publicShare = .ok pub ∧
      getI e.inputShares 0 = .ok b0 ∧ P.decodeInputShare prims fuel 0 b0 = .ok s0 ∧
      getI e.inputShares 1 = .ok b1 ∧ P.decodeInputShare prims fuel 1 b1 = .ok s1) ∧
      ∃ r ∈ badRand P (withOracle prims T) fuel ctx a.1 a.2 e.nonce pub s0 s1,
        Ev (Fk (P.idpf.currentField a.1)) fuel a.2.length (T (verifyRandInput vk ctx e.nonce a.1)) (List.ofFn r) := by
  obtain ⟨level, prefixes⟩ := a
  unfold Spec.poplar1Outputs at h
  obtain ⟨pub, h1, h⟩ := Except.bind_eq_ok.1 h
  obtain ⟨b0, h2, h⟩ := Except.bind_eq_ok.1 h
  obtain ⟨s0, h3, h⟩ := Except.bind_eq_ok.1 h
  obtain ⟨b1, h4, h⟩ := Except.bind_eq_ok.1 h
  obtain ⟨s1, h5, h⟩ := Except.bind_eq_ok.1 h
  obtain ⟨u0, u1, u, r, e0, e1, hu, hl, hr, hz⟩ := good_or_badRand (verify_succeeds h)
  have hbad : ¬ Spec.ZeroOrUnit u := fun hz => hb ⟨_, u0, u1, u, by rw [← e0, ← e1], hl, hu, hz⟩
  have hev := (verifyRand_ev hctx hvk).1 hr
  simp only [withOracle, if_true] at hev
  refine ⟨hev.1, ?_, pub, b0, s0, b1, s1, ⟨h1, h2, h3, h4, h5⟩, r, hz.resolve_left hbad, hev.2⟩
  by_contra hc
  exact hbad (zeroOrUnit_nil (hl.trans (by simpa using hc)))

theorem badRand_congr {ctx : Bytes} (H : SameElsewhere ctx T T') (level : ℕ) (prefixes : List (List Bool)) (nonce : Bytes)
    (pub : List CorrectionWord) (s0 s1 : Poplar1InputShare) :
    badRand P (withOracle prims T') fuel ctx level prefixes nonce pub s0 s1 ⊆
      badRand P (withOracle prims T) fuel ctx level prefixes nonce pub s0 s1 := by
  rintro r ⟨v0, v1, c0, c1, A0, B0, A1, B1, F, h⟩
  refine ⟨v0, v1, c0, c1, A0, B0, A1, B1, ⟨?_, ?_, ?_, ?_, F.ab0, F.ab1⟩, h⟩
  · rw [← eval_congr H]; exact F.eval0
  · rw [← eval_congr H]; exact F.eval1
  · rw [← corrShares_congr H]; exact F.corr0
  · rw [← corrShares_congr H]; exact F.corr1

theorem bad_streams {κ : Kind} {n : ℕ} (hn : 0 < n) {N : ℕ} (hN : fuel * 32 ≤ N) (base : ℕ → UInt8) (B : Set (Fin n → Fk κ))
    (hB : B.ncard ≤ 2 * PyField.modulus (Fk κ) ^ (n - 1)) (E : Set (Fin N → UInt8))
    (h : ∀ y ∈ E, ∃ r ∈ B, Ev (Fk κ) fuel n (withHead base y) (List.ofFn r)) :
    (E.ncard : ℚ) ≤ 2 / PyField.modulus (Fk κ) * Fintype.card (Fin N → UInt8) := by
  have hs : PyField.encSize (Fk κ) ≤ 32 := by cases κ <;> decide
  have hN' : fuel * PyField.encSize (Fk κ) ≤ N := (Nat.mul_le_mul_left _ hs).trans hN
  have hinj : Function.Injective fun (q : Fin 1 → Fin n → Fk κ) => q 0 := by
    intro q q' hq
    funext i
    rw [Subsingleton.elim i 0]
    exact hq
  have key := ncard_streams hN' base (P := 1) (k := n) {q | q 0 ∈ B} E (by
    intro y hy
    obtain ⟨r, hr, he⟩ := h y hy
    refine ⟨fun _ => r, hr, ?_⟩
    rw [Nat.mul_one]
    simpa [flat] using he)
  have hB' : Set.ncard {q : Fin 1 → Fin n → Fk κ | q 0 ∈ B} ≤ B.ncard :=
    Set.ncard_le_ncard_of_injOn (fun q => q 0) (fun q hq => hq) hinj.injOn (Set.toFinite _)
  have hp : (0 : ℚ) < PyField.modulus (Fk κ) := by
    have := two_lt_modulus κ
    exact_mod_cast (by omega : 0 < PyField.modulus (Fk κ))
  have hcard : (Fintype.card (Fin 1 → Fin n → Fk κ) : ℚ) = (PyField.modulus (Fk κ) : ℚ) ^ n := by
    rw [Fintype.card_fun, Fintype.card_fun, Fintype.card_fin, Fintype.card_fin, card_eq, pow_one]
    push_cast
    rfl
  rw [hcard] at key
  have h1 : (Set.ncard {q : Fin 1 → Fin n → Fk κ | q 0 ∈ B} : ℚ) ≤ 2 * (PyField.modulus (Fk κ) : ℚ) ^ (n - 1) := by
    exact_mod_cast hB'.trans hB
  have h2 := key.trans (mul_le_mul_of_nonneg_right h1 (Nat.cast_nonneg _))
  have hpow : (PyField.modulus (Fk κ) : ℚ) ^ n = PyField.modulus (Fk κ) ^ (n - 1) * PyField.modulus (Fk κ) := by
    rw [← pow_succ, Nat.sub_add_cancel hn]
  rw [hpow] at h2
  rw [div_mul_eq_mul_div, le_div_iff₀ hp]
  have h3 : (0 : ℚ) < PyField.modulus (Fk κ) ^ (n - 1) := by positivity
  refine le_of_mul_le_mul_left ?_ h3
  calc _ = (E.ncard : ℚ) * (PyField.modulus (Fk κ) ^ (n - 1) * PyField.modulus (Fk κ)) := by ring
    _ ≤ _ := h2
    _ = _ := by ring

theorem modulus_level (level : ℕ) :
    (2 : ℚ) / PyField.modulus (Fk (P.idpf.currentField level)) ≤ 2 / Spec.levelModulus P.idpf.bits 0 := by
  have h0 : 0 < Spec.levelModulus P.idpf.bits 0 := by
    unfold Spec.levelModulus
    split <;> decide
  have h1 : Spec.levelModulus P.idpf.bits 0 ≤ PyField.modulus (Fk (P.idpf.currentField level)) := by
    unfold Spec.levelModulus Idpf.currentField
    by_cases hb : 0 + 1 < P.idpf.bits
    · rw [if_pos hb]
      generalize (if level < P.idpf.bits - 1 then Kind.inner else Kind.leaf) = κ
      cases κ <;> decide +kernel
    · rw [if_neg hb, if_neg (by omega)]
      decide +kernel
  have h0' : (0 : ℚ) < Spec.levelModulus P.idpf.bits 0 := by exact_mod_cast h0
  exact div_le_div_of_nonneg_left (by norm_num) h0' (by exact_mod_cast h1)

/-- After `t` moves a report with wrong output shares is accepted. -/
def HitsAt (P : Poplar1) (prims : Prims) (fuel : ℕ) (vk ctx : Bytes) (σ : Poplar1Strategy) (t : ℕ) (T : Bytes → ℕ → UInt8) :
    Prop :=
  ∃ e a, VerifiedAt P prims fuel T vk ctx σ t e a ∧ ∃ o, poplar1Outputs P (withOracle prims T) fuel vk ctx e a = .ok o ∧
    ¬ Spec.CountsAtMostOnce a.2.length o

theorem wins_hits {vk ctx : Bytes} {σ : Poplar1Strategy} {q : ℕ} (h : Spec.Poplar1Wins P (withOracle prims T) fuel vk ctx
    (poplar1Run P (withOracle prims T) fuel vk ctx σ q)) : ∃ t < q, HitsAt P prims fuel vk ctx σ t T := by
  obtain ⟨e, a, hm, o, h1, h2⟩ := h
  obtain ⟨t, ht, hx⟩ := mem_run hm
  obtain ⟨e1, e2⟩ := Prod.mk.inj hx
  rw [← e1] at e2
  exact ⟨t, ht, e, a, ⟨e1.symm, respond_verdict e2.symm⟩, o, h1, h2⟩

section
variable {vk ctx : Bytes} (hctx : ctx.length + 8 < 2 ^ 16) (hvk : vk.length = 32)
include hctx hvk

theorem same_update {S : Set Bytes} [DecidableEq S] {N : ℕ} (f : S → Fin N → UInt8) {m0 : S} {n : Bytes} {l : ℕ}
    (hm : (m0 : Bytes) = verifyRandInput vk ctx n l) (y : Fin N → UInt8) :
    SameElsewhere ctx (glue prims S f) (glue prims S (Function.update f m0 y)) := by
  intro s d b hs hd hne
  refine glue_upd f m0 y fun h => hne ?_
  have hd' : (tag 6 4 ctx).length < 2 ^ 16 := by rw [Prio3.tag_length]; omega
  exact (turboInput_inj hd hd' hs (by omega) (h.trans hm)).2.1

theorem run_update {S : Set Bytes} [DecidableEq S] {N : ℕ} {σ : Poplar1Strategy} (hσ : Spec.Poplar1IgnoresKey vk ctx σ) {t : ℕ}
    (f : S → Fin N → UInt8) {m0 : S} {e : EncodedReport} {a : Poplar1AggParam} (hl : a.1 < 2 ^ 16)
    (hm : (m0 : Bytes) = verifyRandInput vk ctx e.nonce a.1)
    (hv : VerifiedAt P prims fuel (glue prims S f) vk ctx σ t e a) (y : Fin N → UInt8) :
    poplar1Run P (withOracle prims (glue prims S (Function.update f m0 y))) fuel vk ctx σ t =
      poplar1Run P (withOracle prims (glue prims S f)) fuel vk ctx σ t := by
  refine run_congr hctx hvk (same_update hctx hvk f hm y) ?_ ?_
  · intro k _ m h
    refine glue_upd f m0 y fun hc => ?_
    exact hσ _ m ⟨e.nonce, a.1, hv.2.1, hl, hc.trans hm⟩ h
  · intro k hk e' a' h' hl'
    refine glue_upd f m0 y fun hc => ?_
    obtain ⟨-, h1, h2⟩ := position_inj hctx hvk hvk h'.2.1 hv.2.1 hl' hl (hc.trans hm)
    have := lower_level hk hv h' h1
    omega

theorem hits_bound {S : Set Bytes} [Fintype S] (hS : verifyRandInputs vk ctx ⊆ S) {N : ℕ} (hN : fuel * 32 ≤ N)
    {σ : Poplar1Strategy} (hσ : Spec.Poplar1IgnoresKey vk ctx σ) (t : ℕ) :
    (Set.ncard {f : S → Fin N → UInt8 | HitsAt P prims fuel vk ctx σ t (glue prims S f)} : ℚ) ≤
      2 / Spec.levelModulus P.idpf.bits 0 * Fintype.card (S → Fin N → UInt8) := by
  classical
  refine deferred_one (fun f m => ∃ e a, VerifiedAt P prims fuel (glue prims S f) vk ctx σ t e a ∧ a.1 < 2 ^ 16 ∧
    (m : Bytes) = verifyRandInput vk ctx e.nonce a.1) ?_ ?_ _ ?_ (by positivity) ?_
  · rintro O i j ⟨e, a, h1, -, h2⟩ ⟨e', a', h1', -, h2'⟩
    have := h1.1.symm.trans h1'.1
    cases this
    exact Subtype.ext (h2.trans h2'.symm)
  · rintro O i y ⟨e, a, h1, h2, h3⟩
    refine ⟨e, a, ?_, h2, h3⟩
    have := run_update hctx hvk hσ O h2 h3 h1 y
    unfold VerifiedAt moveAt at h1 ⊢
    rwa [this]
  · rintro O ⟨e, a, h1, o, h2, h3⟩
    obtain ⟨hl, -, -⟩ := outputs_bad hctx hvk h2 h3
    exact ⟨⟨_, hS ⟨e.nonce, a.1, h1.2.1, hl, rfl⟩⟩, e, a, h1, hl, rfl⟩
  · rintro O m ⟨e, a, h1, h2, h3⟩
    refine le_trans ?_ (mul_le_mul_of_nonneg_right (modulus_level (P := P) a.1) (Nat.cast_nonneg _))
    have hrun := fun y => run_update hctx hvk hσ O h2 h3 h1 y
    have step : ∀ y, HitsAt P prims fuel vk ctx σ t (glue prims S (Function.update O m y)) →
        ∃ o, poplar1Outputs P (withOracle prims (glue prims S (Function.update O m y))) fuel vk ctx e a = .ok o ∧
          ¬ Spec.CountsAtMostOnce a.2.length o := by
      rintro y ⟨e', a', h4, h5⟩
      have h6 := h4.1
      unfold moveAt at h6
      rw [hrun y] at h6
      have := h6.symm.trans h1.1
      cases this
      exact h5
    rcases Set.eq_empty_or_nonempty {y | Function.update O m y ∈
      {f | HitsAt P prims fuel vk ctx σ t (glue prims S f)}} with he | ⟨y0, hy0⟩
    · rw [he, Set.ncard_empty, Nat.cast_zero]
      positivity
    obtain ⟨o, h4, h5⟩ := step y0 hy0
    obtain ⟨-, hn, pub, b0, s0, b1, s1, ⟨d1, d2, d3, d4, d5⟩, -⟩ := outputs_bad hctx hvk h4 h5
    refine bad_streams hn hN (prims.turboShake m 1)
      (badRand P (withOracle prims (glue prims S O)) fuel ctx a.1 a.2 e.nonce pub s0 s1) (badRand_card ..) _ ?_
    intro y hy
    obtain ⟨o, h4, h5⟩ := step y hy
    obtain ⟨-, -, pub', b0', s0', b1', s1', ⟨d1', d2', d3', d4', d5'⟩, r, hr, hev⟩ := outputs_bad hctx hvk h4 h5
    have := d1.symm.trans d1'
    cases this
    have := d2.symm.trans d2'
    cases this
    have := d3.symm.trans d3'
    cases this
    have := d4.symm.trans d4'
    cases this
    have := d5.symm.trans d5'
    cases this
    refine ⟨r, badRand_congr (same_update hctx hvk O h3 y) _ _ _ _ _ _ hr, ?_⟩
    rw [← h3, glue_mem, Function.update_self] at hev
    exact hev

theorem oracle_bound {S : Set Bytes} (hfin : S.Finite) (hS : verifyRandInputs vk ctx ⊆ S) {N : ℕ} (hN : fuel * 32 ≤ N)
    {σ : Poplar1Strategy} (hσ : Spec.Poplar1IgnoresKey vk ctx σ) (q : ℕ) :
    (Set.ncard {O ∈ oracles prims S N | Spec.Poplar1Wins P (withOracle prims O) fuel vk ctx
      (poplar1Run P (withOracle prims O) fuel vk ctx σ q)} : ℚ) ≤
      q * (2 / Spec.levelModulus P.idpf.bits 0) * Set.ncard (oracles prims S N) := by
  classical
  have : Fintype S := hfin.fintype
  have hcard : Set.ncard (oracles prims S N) = Fintype.card (S → Fin N → UInt8) := by
    have := ncard_glue prims S (N := N) fun _ => True
    simp only [and_true, Set.ofPred_mem_eq] at this
    rw [this, ← Nat.card_eq_fintype_card, ← Set.ncard_univ]
    congr 1
  rw [ncard_glue prims S fun O => Spec.Poplar1Wins P (withOracle prims O) fuel vk ctx
      (poplar1Run P (withOracle prims O) fuel vk ctx σ q), hcard, mul_assoc]
  have h1 : (Set.ncard {f : S → Fin N → UInt8 | ∃ t < q, f ∈ {f : S → Fin N → UInt8 |
      HitsAt P prims fuel vk ctx σ t (glue prims S f)}} : ℚ) ≤ _ :=
    Prio3.ncard_exists_le q _ fun t _ => hits_bound hctx hvk hS hN hσ t
  refine le_trans (Nat.cast_le.2 (Set.ncard_le_ncard ?_ (Set.toFinite _))) h1
  intro f hf
  exact wins_hits hf

end
end Vdaf.Poplar1
