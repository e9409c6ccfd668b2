import Verif.Proofs.PingPongRun
import Verif.Proofs.Prio3Inst
import Verif.Proofs.Poplar1Codec

/-! # Prio3 and Poplar1 can be used with the ping-pong topology -/

namespace Vdaf

/-! ## Prio3 -/

theorem turbo_deriveSeed_length {prims : Prims} {fuel : ℕ} {seed dst binder b : Bytes}
    (h : (XofTurboShake128 prims fuel).deriveSeed seed dst binder = .ok b) : b.length = 32 := by
  unfold Xof.deriveSeed at h
  rw [Except.bind_eq_ok] at h; obtain ⟨st, -, h⟩ := h
  rw [Except.bind_eq_ok] at h; obtain ⟨⟨b', st'⟩, h1, h⟩ := h
  cases h
  cases h1
  simp [XofTurboShake128]

namespace Prio3
variable {F : Type} [NttField F] {Meas Agg : Type} {prims : Prims} {fuel : ℕ}
variable {P : Prio3 (XofTurboShake128 prims fuel) F Meas Agg}

theorem verifyInit_shape (W : P.WF) {vk ctx : Bytes} {j : ℕ} {nonce : Bytes} {pub : Option (List Bytes)}
    {s : Prio3InputShare F} {st sh : List F × Option Bytes}
    (h : P.verifyInit vk ctx j () nonce pub s = .ok (st, sh)) : Spec.VerifierShareShape P sh := by
  unfold verifyInit at h
  rw [Except.bind_eq_ok] at h; obtain ⟨⟨ms, ps, bl⟩, h1, h⟩ := h
  dsimp only at h
  rw [Except.bind_eq_ok] at h; obtain ⟨os, h2, h⟩ := h
  rw [Except.bind_eq_ok] at h; obtain ⟨⟨jrs, corr, part⟩, h3, h⟩ := h
  dsimp only at h
  rw [Except.bind_eq_ok] at h; obtain ⟨qrs, h4, h⟩ := h
  rw [Except.bind_eq_ok] at h; obtain ⟨w, h5, h⟩ := h
  cases h
  constructor
  · dsimp only
    obtain ⟨v, rfl, hv⟩ := queryLoop_ok h5
    rw [flatMap_range_length (k := P.flp.verifierLen) fun i hi =>
      (query_ok_len W (by have := W.shares_ge; omega) W.modulus (hv i hi)).2.2.2.2, Nat.mul_comm]
  · dsimp only
    unfold verifyJointRand at h3
    split at h3
    · rename_i hj
      cases bl with
      | none => cases h3
      | some bl =>
        cases pub with
        | none => cases h3
        | some parts =>
          dsimp only at h3
          rw [Except.bind_eq_ok] at h3; obtain ⟨p, g1, h3⟩ := h3
          rw [Except.bind_eq_ok] at h3; obtain ⟨ps', g2, h3⟩ := h3
          rw [Except.bind_eq_ok] at h3; obtain ⟨sd, g3, h3⟩ := h3
          rw [Except.bind_eq_ok] at h3; obtain ⟨j', g4, h3⟩ := h3
          cases h3
          refine ⟨hj, ?_⟩
          rw [jointRandPart_ok] at g1
          have g1 := g1.2.2
          unfold Spec.jointRandPart at g1
          rw [Except.bind_eq_ok] at g1; obtain ⟨e, -, g1⟩ := g1
          exact turbo_deriveSeed_length g1
    · rename_i hj
      cases h3
      exact Nat.eq_zero_of_not_pos hj

theorem sharesToMessage_shape {ctx : Bytes} {shs : List (List F × Option Bytes)} {m : Option Bytes}
    (h : P.sharesToMessage ctx () shs = .ok m) : Spec.OptSeed P m := by
  unfold sharesToMessage at h
  rw [Except.bind_eq_ok] at h; obtain ⟨⟨v, parts⟩, -, h⟩ := h
  dsimp only at h
  rw [Except.bind_eq_ok] at h; obtain ⟨_, -, h⟩ := h
  split at h
  · rename_i hj
    rw [Except.bind_eq_ok] at h; obtain ⟨sd, h1, h⟩ := h
    cases h
    rw [jointRandSeed_ok] at h1
    exact ⟨hj, turbo_deriveSeed_length h1.2⟩
  · rename_i hj
    cases h
    exact Nat.eq_zero_of_not_pos hj

omit [NttField F] in
theorem verifyNext_out {ctx : Bytes} {st : List F × Option Bytes} {msg : Option Bytes}
    {r : Next (List F × Option Bytes) (List F × Option Bytes) (List F)}
    (h : verifyNext (F := F) ctx st msg = .ok r) : ∃ o, r = .out o := by
  unfold verifyNext at h
  dsimp only at h
  rw [Except.bind_eq_ok] at h; obtain ⟨_, -, h⟩ := h
  cases h
  exact ⟨_, rfl⟩

theorem held_zero {vk ctx nonce : Bytes} {pub : Option (List Bytes)} {j : ℕ} {s : Prio3InputShare F} {r : ℕ}
    {st sh : List F × Option Bytes} (h : Spec.Held P.vdaf vk ctx () nonce pub j s r st sh) :
    r = 0 ∧ P.verifyInit vk ctx j () nonce pub s = .ok (st, sh) := by
  cases h with
  | init h => exact ⟨rfl, h⟩
  | next h h' =>
    obtain ⟨o, ho⟩ := verifyNext_out (ctx := ctx) h'
    cases ho

/-- The number of bytes of a verifier share -/
theorem encodeVerifierShare_length {s : List F × Option Bytes} (h : Spec.VerifierShareShape P s) {b : Bytes}
    (hb : P.encodeVerifierShare s = .ok b) :
    b.length ≤ PyField.encSize F * (P.flp.verifierLen * P.proofs) + 32 := by
  unfold encodeVerifierShare at hb
  obtain ⟨v, part⟩ := s
  dsimp only at hb
  rw [pyAssert_of' h.1, Except.ok_bind', encodeVec_eq, Except.ok_bind'] at hb
  cases hb
  have h2 := h.2
  have h1 := h.1
  dsimp only at h1 h2
  cases part with
  | none => simp [encAll_length, h1, optBytes]
  | some p => simp [encAll_length, h1, optBytes, show p.length = 32 from h2.2]

theorem pingPongReady (W : P.WF) (hsize : PyField.encSize F * (P.flp.verifierLen * P.proofs) + 32 < 2 ^ 32)
    (vk ctx nonce : Bytes) (pub : Option (List Bytes)) (s0 s1 : Prio3InputShare F) :
    Spec.PingPongReady P.vdaf vk ctx () nonce pub s0 s1 where
  last r st sh msg out hh hr hn := by
    have hr' : P.vdaf.rounds = 1 := rfl
    obtain ⟨o, rfl⟩ := verifyNext_out (ctx := ctx) hn
    simp only [reduceCtorEq, exists_false, iff_false, hr']
    omega
  share r st0 sh0 st1 sh1 h0 h1 := by
    have key : ∀ {j s st sh} st', Spec.Held P.vdaf vk ctx () nonce pub j s r st sh →
        ∃ b, P.encodeVerifierShare sh = .ok b ∧ Spec.Fits32 b ∧ P.decodeVerifierShare st' b = .ok sh := by
      intro j s st sh st' h
      have hs := verifyInit_shape W (held_zero h).2
      have : ∃ b, P.encodeVerifierShare sh = .ok b := by
        unfold encodeVerifierShare
        obtain ⟨m, bl⟩ := sh
        dsimp only
        rw [pyAssert_of' hs.1, encodeVec_eq]
        exact ⟨_, rfl⟩
      obtain ⟨b, hb⟩ := this
      exact ⟨b, hb, lt_of_le_of_lt (encodeVerifierShare_length hs hb) hsize,
        decodeVerifierShare_ok.2 ⟨hs, hb⟩⟩
    exact ⟨key st1 h0, key st0 h1⟩
  message r st0 sh0 st1 sh1 msg h0 h1 hm := by
    have hs := sharesToMessage_shape hm
    cases msg with
    | none => exact ⟨[], rfl, by simp [Spec.Fits32], rfl, rfl⟩
    | some b =>
      have hb : b.length = 32 := hs.2
      have : ∀ st, decodeVerifierMessage (F := F) st b = .ok (some b) := by
        intro st
        unfold decodeVerifierMessage
        rw [if_neg (by omega)]
      exact ⟨b, rfl, by rw [Spec.Fits32, hb]; norm_num, this st0, this st1⟩

end Prio3

/-! ## Poplar1 -/

namespace Poplar1
variable {P : Poplar1} {prims : Prims} {fuel : ℕ}

/-- The states and verifier shares of round `r` -/
def RoundShape (P : Poplar1) (level r : ℕ) (st : Poplar1VerifyState) (sh : FieldVec) : Prop :=
  st.level = level ∧ st.mem.1 = P.idpf.currentField level ∧ sh.1 = P.idpf.currentField level ∧
    ((r = 0 ∧ st.step = .evaluate ∧ sh.2.length = 3) ∨ (r = 1 ∧ st.step = .reveal ∧ sh.2.length = 1))

theorem held_shape {vk ctx nonce : Bytes} {a : Poplar1AggParam} {pub : List CorrectionWord} {j : ℕ}
    {s : Poplar1InputShare} {r : ℕ} {st : Poplar1VerifyState} {sh : FieldVec}
    (h : Spec.Held (P.vdaf prims fuel) vk ctx a nonce pub j s r st sh) : RoundShape P a.1 r st sh := by
  induction h with
  | init h =>
    change P.verifyInit prims fuel vk ctx j a nonce pub s = .ok _ at h
    unfold verifyInit at h
    dsimp only at h
    rw [Except.bind_eq_ok] at h; obtain ⟨value, -, h⟩ := h
    rw [Except.bind_eq_ok] at h; obtain ⟨corr, -, h⟩ := h
    split at h
    · split at h
      · rw [Except.bind_eq_ok] at h; obtain ⟨rand, -, h⟩ := h
        rw [Except.bind_eq_ok] at h; obtain ⟨⟨sk, out⟩, -, h⟩ := h
        dsimp only at h
        rw [Except.bind_eq_ok] at h; obtain ⟨id, -, h⟩ := h
        cases h
        exact ⟨rfl, rfl, rfl, .inl ⟨rfl, rfl, rfl⟩⟩
      · cases h
    · cases h
  | next _ h ih =>
    change verifyNext ctx _ _ = .ok _ at h
    obtain ⟨h1, h2, h3, h4⟩ := ih
    unfold verifyNext at h
    split at h
    · rename_i hst
      rcases h4 with ⟨rfl, h4, h5⟩ | ⟨_, h4, _⟩
      · split at h
        · cases h
        · split at h
          · rw [Except.bind_eq_ok] at h; obtain ⟨A, -, h⟩ := h
            rw [Except.bind_eq_ok] at h; obtain ⟨B, -, h⟩ := h
            rw [Except.bind_eq_ok] at h; obtain ⟨id, -, h⟩ := h
            cases h
            exact ⟨h1, h2, h2, .inr ⟨rfl, rfl, rfl⟩⟩
          · cases h
      · rw [h4] at hst; cases hst
    · split at h <;> cases h

theorem verifyNext_next {ctx : Bytes} {st : Poplar1VerifyState} {msg : Option FieldVec}
    {o : Next Poplar1VerifyState FieldVec FieldVec} (h : verifyNext ctx st msg = .ok o) :
    st.step = .evaluate ↔ ∃ st' sh', o = .cont st' sh' := by
  unfold verifyNext at h
  split at h
  · rename_i hst
    split at h
    · cases h
    · split at h
      · rw [Except.bind_eq_ok] at h; obtain ⟨A, -, h⟩ := h
        rw [Except.bind_eq_ok] at h; obtain ⟨B, -, h⟩ := h
        rw [Except.bind_eq_ok] at h; obtain ⟨id, -, h⟩ := h
        cases h
        exact ⟨fun _ => ⟨_, _, rfl⟩, fun _ => hst⟩
      · cases h
  · rename_i hst
    split at h
    · cases h
      simp [hst]
    · cases h

theorem encode_fits (v : FieldVec) (h : v.2.length ≤ 3) :
    ∃ b, encodeIdpfFieldVec v = .ok b ∧ Spec.Fits32 b := by
  refine ⟨_, encodeIdpfFieldVec_eq v, ?_⟩
  obtain ⟨κ, w⟩ := v
  dsimp only at h ⊢
  rw [Spec.Fits32, encAll_length]
  have : PyField.encSize (Fk κ) ≤ 32 := by cases κ <;> decide
  have : PyField.encSize (Fk κ) * w.length ≤ 32 * 3 := Nat.mul_le_mul this h
  omega

theorem pingPongReady (vk ctx nonce : Bytes) (a : Poplar1AggParam) (pub : List CorrectionWord)
    (s0 s1 : Poplar1InputShare) : Spec.PingPongReady (P.vdaf prims fuel) vk ctx a nonce pub s0 s1 where
  last r st sh msg out hh hr hn := by
    have hsh : RoundShape P a.1 r st sh := hh.elim held_shape held_shape
    rw [← verifyNext_next (ctx := ctx) hn]
    have hr' : (P.vdaf prims fuel).rounds = 2 := rfl
    rw [hr']
    obtain ⟨-, -, -, ⟨rfl, h, -⟩ | ⟨rfl, h, -⟩⟩ := hsh
    · simp [h]
    · simp [h]
  share r st0 sh0 st1 sh1 h0 h1 := by
    have key : ∀ {j j' s s' st sh st' sh'}, Spec.Held (P.vdaf prims fuel) vk ctx a nonce pub j s r st sh →
        Spec.Held (P.vdaf prims fuel) vk ctx a nonce pub j' s' r st' sh' →
        ∃ b, encodeVerifierShare sh = .ok b ∧ Spec.Fits32 b ∧ P.decodeVerifierShare st' b = .ok sh := by
      intro j j' s s' st sh st' sh' h h'
      obtain ⟨-, -, g3, g4⟩ := held_shape h
      obtain ⟨k1, -, -, -⟩ := held_shape h'
      obtain ⟨b, hb, hf⟩ := encode_fits sh (by omega)
      refine ⟨b, hb, hf, ?_⟩
      unfold decodeVerifierShare
      rw [decodeAtLevel_iff, k1]
      exact ⟨g3, hb⟩
    exact ⟨key h0 h1, key h1 h0⟩
  message r st0 sh0 st1 sh1 msg h0 h1 hm := by
    replace hm : sharesToMessage ctx a [sh0, sh1] = .ok msg := hm
    obtain ⟨k0, -, g3, -⟩ := held_shape h0
    obtain ⟨k1, -, -, -⟩ := held_shape h1
    unfold sharesToMessage at hm
    dsimp only at hm
    rw [Except.bind_eq_ok] at hm; obtain ⟨v, h2, hm⟩ := hm
    have hv : v.1 = P.idpf.currentField a.1 := by
      unfold vecAddF at h2
      rw [Except.bind_eq_ok] at h2; obtain ⟨w, -, h2⟩ := h2
      cases h2
      exact g3
    split at hm
    · rename_i h3
      cases hm
      obtain ⟨b, hb, hf⟩ := encode_fits v (by rw [h3]; simp)
      have key : ∀ st : Poplar1VerifyState, st.level = a.1 → P.decodeVerifierMessage st b = .ok (some v) := by
        intro st hst
        rw [decodeVerifierMessage_iff]
        refine ⟨fun w hw => ?_, hb⟩
        cases hw
        rw [hst]
        exact ⟨hv, by rw [h3]; simp⟩
      exact ⟨b, hb, hf, key st0 k0, key st1 k1⟩
    · split at hm
      · cases hm
        refine ⟨[], rfl, by simp [Spec.Fits32], rfl, rfl⟩
      · cases hm
    · cases hm

end Poplar1
end Vdaf
