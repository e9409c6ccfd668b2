import Verif.Spec.Sizes
import Verif.Proofs.TestVectorsInst
import Verif.Proofs.Prio3Inst
import Verif.Proofs.Poplar1Agg
import Verif.Proofs.Poplar1Verify

/-! The sizes of the messages -/

namespace Vdaf
open Spec

namespace Prio3
variable {F : Type} [NttField F] {Meas Agg : Type} {prims : Prims} {fuel : ℕ}
  {P : Prio3 (XofTurboShake128 prims fuel) F Meas Agg} {fn : Fun Meas Agg}

/-- The numbers of an instance -/
def lens (P : Prio3 (XofTurboShake128 prims fuel) F Meas Agg) : Lens :=
  ⟨P.flp.measLen, P.proofLen, P.flp.verifierLen, P.flp.outputLen, decide (0 < P.flp.jointRandLen)⟩

omit [NttField F] in
theorem optBytes_length {b : Option Bytes} (h : OptSeed P b) :
    (optBytes b).length = if (lens P).joint then 32 else 0 := by
  cases b with
  | none => simp [optBytes, lens, show P.flp.jointRandLen = 0 from h]
  | some b => simp [optBytes, lens, h.1, show b.length = 32 from h.2]

theorem flatten_length {l : List Bytes} {k : ℕ} (h : ∀ p ∈ l, p.length = k) : l.flatten.length = k * l.length := by
  induction l with
  | nil => rfl
  | cons a l ih =>
    rw [List.flatten_cons, List.length_append, ih fun p hp => h p (by simp [hp]), h a (by simp), List.length_cons]
    ring

omit [NttField F] in
theorem publicShare_size {pub : Option (List Bytes)} (h : PublicShareShape P pub) :
    EncodesTo (if (lens P).joint then 32 * P.shares else 0) (encodePublicShare pub) := by
  cases pub with
  | none => exact ⟨_, rfl, by simp [lens, show P.flp.jointRandLen = 0 from h]⟩
  | some parts =>
    refine ⟨_, rfl, ?_⟩
    obtain ⟨h1, h2, h3⟩ := h
    rw [concat, flatten_length h3, h2]
    simp [lens, h1, XofTurboShake128]

theorem inputShare_size {j : ℕ} {s : Prio3InputShare F} (h : InputShareShape P j s) :
    EncodesTo ((prio3Sizes (PyField.encSize F) P.shares P.proofs (lens P)).inputShare j) (P.encodeInputShare s) := by
  unfold encodeInputShare
  simp only [prio3Sizes]
  cases s with
  | helper s bl =>
    refine ⟨_, rfl, ?_⟩
    rw [List.length_append, optBytes_length h.2.2, if_neg h.1, show s.length = 32 from h.2.1]
  | leader m p bl =>
    dsimp only
    rw [pyAssert_of' h.2.2.1, encodeVec_eq, encodeVec_eq]
    refine ⟨_, rfl, ?_⟩
    rw [List.length_append, List.length_append, optBytes_length h.2.2.2, if_pos h.1, encAll_length, encAll_length,
      h.2.1, h.2.2.1]
    rfl

theorem truncate_length (hV : Library F P.flp fn) {ms os : List F} (hl : ms.length = P.flp.measLen)
    (h : P.flp.truncate ms = .ok os) : os.length = P.flp.outputLen := by
  obtain ⟨_, o, h1, -, -, h2⟩ := (Library.encFacts hV).trunc (fun _ : Fin 1 => ms) ms
    ⟨fun _ => rfl, fun k => by simp⟩ hl
  rw [h] at h1
  cases h1
  exact h2

theorem verifyInit_out (W : P.WF) (hV : Library F P.flp fn) (hp : 0 < P.proofs) {vk ctx : Bytes} {j : ℕ} {nonce : Bytes}
    {pub : Option (List Bytes)} {s : Prio3InputShare F} {st sh : List F × Option Bytes}
    (h : P.verifyInit vk ctx j () nonce pub s = .ok (st, sh)) : st.1.length = P.flp.outputLen := by
  unfold verifyInit at h
  rw [Except.bind_eq_ok] at h; obtain ⟨⟨ms, ps, bl⟩, h1, h⟩ := h
  dsimp only at h
  rw [Except.bind_eq_ok] at h; obtain ⟨os, h2, h⟩ := h
  rw [Except.bind_eq_ok] at h; obtain ⟨⟨jrs, corr, part⟩, h3, h⟩ := h
  dsimp only at h
  rw [Except.bind_eq_ok] at h; obtain ⟨qrs, h4, h⟩ := h
  rw [Except.bind_eq_ok] at h; obtain ⟨w, h5, h⟩ := h
  cases h
  obtain ⟨v, rfl, hv⟩ := queryLoop_ok h5
  exact truncate_length hV (query_ok_len W (by have := W.shares_ge; omega) W.modulus (hv 0 hp)).1 h2

theorem aggregate_size {outs : List (List F)} {agg : List F} (h : aggregate P.vdaf () outs = .ok agg) :
    EncodesTo (PyField.encSize F * P.flp.outputLen) (encodeAggShare agg) := by
  rw [aggregate_eq] at h
  split at h
  · cases h
    exact ⟨_, encodeVec_eq _, by rw [encAll_length]; simp⟩
  · cases h

theorem hasSizes (I : Instance P fn) (hp : 0 < P.proofs) :
    HasSizes P.vdaf (shareCodec F) fn.valid () (prio3Sizes (PyField.encSize F) P.shares P.proofs (lens P)) := by
  have W := I.wf
  have hmeas : ∀ m, fn.valid m → ∃ meas, P.flp.encode m = .ok meas ∧ meas.length = P.flp.measLen := by
    intro m hm
    obtain ⟨ints, of, h1, -⟩ := (Library.encFacts I.library).enc
    obtain ⟨e, he, hl, -⟩ := h1 m hm
    exact ⟨e, he, hl⟩
  refine ⟨?_, ?_, ?_, ?_, ?_, ?_, ?_⟩
  · intro ctx m nonce rand pub ish hc hm h
    obtain ⟨meas, h1, h2⟩ := hmeas m hm
    exact publicShare_size (shard_shape W hc h1 h2 h).1
  · intro ctx m nonce rand pub ish hc hm h
    obtain ⟨meas, h1, h2⟩ := hmeas m hm
    obtain ⟨-, h3, h4⟩ := shard_shape W hc h1 h2 h
    exact ⟨h3, fun j s hj => inputShare_size (h4 j s hj)⟩
  · intro vk ctx nonce pub j s r st sh _ h
    have hs := verifyInit_shape W (held_zero h).2
    show EncodesTo _ (P.encodeVerifierShare sh)
    unfold encodeVerifierShare
    obtain ⟨v, part⟩ := sh
    dsimp only
    rw [pyAssert_of' hs.1, encodeVec_eq]
    refine ⟨_, rfl, ?_⟩
    rw [List.length_append, optBytes_length hs.2, encAll_length, show v.length = _ from hs.1]
    rfl
  · intro ctx r shs msg _ h
    exact ⟨_, rfl, optBytes_length (sharesToMessage_shape h)⟩
  · intro vk ctx nonce pub j s r st sh msg o _ h hn
    have h1 := verifyInit_out W I.library hp (held_zero h).2
    obtain ⟨o', ho⟩ := verifyNext_out (ctx := ctx) hn
    refine ⟨_, encodeVec_eq _, ?_⟩
    replace hn : verifyNext ctx st msg = .ok (.out o) := hn
    unfold verifyNext at hn
    rw [Except.bind_eq_ok] at hn; obtain ⟨_, -, hn⟩ := hn
    cases hn
    rw [encAll_length, h1]
    rfl
  · intro outs agg h
    exact aggregate_size h
  · intro outs agg h
    exact aggregate_size h

end Prio3

namespace Poplar1
variable {P : Poplar1} {prims : Prims} {fuel : ℕ}

theorem encSize_level {level : ℕ} (h : level < P.idpf.bits) :
    PyField.encSize (Fk (P.idpf.currentField level)) = if level + 1 = P.idpf.bits then 32 else 8 := by
  unfold Idpf.currentField
  by_cases h1 : level + 1 = P.idpf.bits
  · rw [if_neg (by omega), if_pos h1]; rfl
  · rw [if_pos (by omega), if_neg h1]; rfl

theorem vec_size {level : ℕ} (hl : level < P.idpf.bits) {v : FieldVec} (h : v.1 = P.idpf.currentField level) :
    EncodesTo (v.2.length * if level + 1 = P.idpf.bits then 32 else 8) (encodeIdpfFieldVec v) := by
  refine ⟨_, encodeIdpfFieldVec_eq v, ?_⟩
  have : PyField.encSize (Fk v.1) = if level + 1 = P.idpf.bits then 32 else 8 := by rw [h, encSize_level hl]
  rw [encAll_length, this, Nat.mul_comm]

theorem shard_two (hf : fuel < 2 ^ 120) (hb : 0 < P.idpf.bits) (hv : P.idpf.valueLen = 2) {ctx : Bytes}
    (hc : ctx.length + 8 < 2 ^ 16) {alpha : List Bool} (ha : alpha.length = P.idpf.bits) {nonce rand : Bytes}
    {pub : List CorrectionWord} {ish : List Poplar1InputShare}
    (h : P.shard prims fuel ctx alpha nonce rand = .ok (pub, ish)) : ish.length = 2 := by
  have hn : nonce.length = 16 ∧ rand.length = 128 := by
    have h0 := h
    unfold shard at h0
    rw [Except.bind_eq_ok] at h0; obtain ⟨_, h1, h0⟩ := h0
    rw [Except.bind_eq_ok] at h0; obtain ⟨_, h2, h0⟩ := h0
    exact ⟨not_not.1 (of_decide_eq_false (raiseIf_eq_ok.1 h1)), not_not.1 (of_decide_eq_false (raiseIf_eq_ok.1 h2))⟩
  rcases (shard_good (prims := prims) hf hb hv hc ha hn.1 hn.2).cases with ⟨⟨pub', ish'⟩, hs, hP⟩ | ⟨e, hs, -⟩
  · rw [h] at hs
    cases hs
    obtain ⟨s0, s1, _, h1, -⟩ := hP
    rw [show ish = [s0, s1] from h1]
    rfl
  · rw [h] at hs; cases hs

theorem payloads_length {pub : List CorrectionWord} (hb : 0 < P.idpf.bits) (hp : P.idpf.Typed pub)
    (hv : P.idpf.valueLen = 2) :
    ((pub.map CorrectionWord.wCw).map Idpf.encF).flatten.length = 2 * 8 * (P.idpf.bits - 1) + 2 * 32 := by
  obtain ⟨hl, hp⟩ := hp
  have key : ((pub.map CorrectionWord.wCw).map Idpf.encF).map List.length =
      (List.range (P.idpf.bits - 1)).map (fun _ => 16) ++ [64] := by
    apply List.ext_getElem
    · simp [hl]; omega
    · intro i h1 h2
      have hi : i < pub.length := by simpa using h1
      obtain ⟨-, w, h3, h4⟩ := hp i hi
      simp only [List.getElem_map]
      rw [Idpf.encF, h3, encAll_length, h4, hv, encSize_level (by omega), List.getElem_append]
      simp only [List.length_map, List.length_range, List.getElem_map, List.getElem_singleton]
      by_cases h5 : i < P.idpf.bits - 1
      · rw [dif_pos h5, if_neg (by omega)]
      · rw [dif_neg h5, if_pos (by omega)]
  rw [List.length_flatten, key]
  simp
  ring

/-- The states of round `r` hold an element for each prefix. -/
theorem held_mem {vk ctx nonce : Bytes} {a : Poplar1AggParam} {pub : List CorrectionWord} {j : ℕ} (hj : j < 2)
    {s : Poplar1InputShare} {r : ℕ} {st : Poplar1VerifyState} {sh : FieldVec}
    (h : Held (P.vdaf prims fuel) vk ctx a nonce pub j s r st sh) :
    (st.step = .evaluate → st.mem.2.length = 3 + a.2.length) ∧ (st.step = .reveal → st.mem.2.length = a.2.length) := by
  induction h with
  | init h =>
    obtain ⟨level, prefixes⟩ := a
    obtain ⟨value, corr, A, B, r, hr, rfl, -⟩ := (verifyInit_iff hj).1 h
    refine ⟨fun _ => ?_, fun h => by cases h⟩
    simp [verifyRand_length hr.rand]
    omega
  | next _ h ih =>
    change verifyNext ctx _ _ = .ok _ at h
    unfold verifyNext at h
    split at h
    · rename_i hst
      split at h
      · cases h
      · split at h
        · rw [Except.bind_eq_ok] at h; obtain ⟨A, -, h⟩ := h
          rw [Except.bind_eq_ok] at h; obtain ⟨B, -, h⟩ := h
          rw [Except.bind_eq_ok] at h; obtain ⟨id, -, h⟩ := h
          cases h
          refine ⟨fun h => (by cases h), fun _ => ?_⟩
          have := ih.1 hst
          show (List.drop 3 _).length = _
          rw [List.length_drop, this]
          omega
        · cases h
    · split at h <;> cases h

theorem vecAdd_len {κ : Kind} {u v w : List (Fk κ)} (h : vecAdd u v = .ok w) : w.length = u.length := by
  unfold vecAdd at h
  split at h
  · cases h
  · rename_i hl
    cases h
    simp at hl ⊢
    omega

theorem sharesToMessage_size {level r : ℕ} (hl : level < P.idpf.bits) {ctx : Bytes} {a : Poplar1AggParam} {shs : List FieldVec}
    {m : Option FieldVec} (hs : ∀ v ∈ shs, v.1 = P.idpf.currentField level ∧
      ((r = 0 ∧ v.2.length = 3) ∨ (r = 1 ∧ v.2.length = 1))) (h : sharesToMessage ctx a shs = .ok m) :
    EncodesTo (if r = 0 then 3 * if level + 1 = P.idpf.bits then 32 else 8 else 0) (encodeVerifierMessage m) := by
  unfold sharesToMessage at h
  split at h
  · rename_i v0 v1
    rw [Except.bind_eq_ok] at h
    obtain ⟨w, h1, h⟩ := h
    obtain ⟨hk, h0⟩ := hs v0 (by simp)
    have hw : w.1 = P.idpf.currentField level ∧ w.2.length = v0.2.length := by
      unfold vecAddF at h1
      rw [Except.bind_eq_ok] at h1; obtain ⟨u, h2, h1⟩ := h1
      cases h1
      refine ⟨hk, ?_⟩
      exact vecAdd_len h2
    split at h
    · rename_i h3
      cases h
      have h4 : w.2.length = 3 := by rw [h3]; rfl
      rcases h0 with ⟨rfl, -⟩ | ⟨-, h0⟩
      · have := vec_size hl hw.1
        rw [h4] at this
        rw [if_pos rfl]
        exact this
      · omega
    · rename_i h3
      have h4 : w.2.length = 1 := by rw [h3]; rfl
      rcases h0 with ⟨-, h0⟩ | ⟨rfl, -⟩
      · omega
      · split at h
        · cases h
          exact ⟨_, rfl, rfl⟩
        · cases h
    · cases h
  · cases h

theorem merge_size {a : Poplar1AggParam} (hl : a.1 < P.idpf.bits) {outs : List FieldVec} {agg : FieldVec}
    (h : P.merge a outs = .ok agg) :
    EncodesTo (a.2.length * if a.1 + 1 = P.idpf.bits then 32 else 8) (encodeIdpfFieldVec agg) := by
  rw [merge_eq] at h
  split at h
  · cases h
    have := vec_size hl (v := ⟨P.idpf.currentField a.1, tab a.2.length fun j => colsum (outs.map (castVec _)) j⟩) rfl
    rwa [tab_length] at this
  · cases h

theorem hasSizes (hf : fuel < 2 ^ 120) (hv : P.idpf.valueLen = 2) {a : Poplar1AggParam} (hl : a.1 < P.idpf.bits) :
    HasSizes (P.vdaf prims fuel) P.shareCodec (fun m : List Bool => m.length = P.idpf.bits) a
      (poplar1Sizes P.idpf.bits a.1 a.2.length) := by
  have hb : 0 < P.idpf.bits := by omega
  refine ⟨?_, ?_, ?_, ?_, ?_, ?_, ?_⟩
  · intro ctx m nonce rand pub ish hc hm h
    obtain ⟨b, hb', hbl, -⟩ := packBits_ok (Idpf.ctrlBits pub)
    have hs := (shard_shape hf hb hv hc hm h).1
    refine ⟨_, Idpf.encodePublicShare_ok hb hs hb', ?_⟩
    rw [List.length_append, List.length_append, hbl, Idpf.ctrlBits_length, hs.1, payloads_length hb hs hv,
      Prio3.flatten_length (k := 16) (by
        intro p hp
        obtain ⟨cw, hcw, rfl⟩ := List.mem_map.1 hp
        obtain ⟨i, hi, rfl⟩ := List.mem_iff_getElem.1 hcw
        exact (hs.2 i hi).1), List.length_map, hs.1]
    simp only [poplar1Sizes]
    omega
  · intro ctx m nonce rand pub ish hc hm h
    have hs := (shard_shape hf hb hv hc hm h).2
    refine ⟨?_, fun j s hj => ?_⟩
    · exact shard_two hf hb hv hc hm h
    · obtain ⟨h1, h2, h3, h4⟩ := hs s (List.mem_of_getElem? hj)
      refine ⟨_, encodeInputShare_eq s, ?_⟩
      rw [List.length_append, List.length_append, List.length_append, encAll_length, encAll_length, h1, h2, h3, h4]
      simp only [poplar1Sizes]
      rw [show PyField.encSize Field64 = 8 from rfl, show PyField.encSize Field255 = 32 from rfl]
      omega
  · intro vk ctx nonce pub j s r st sh _ h
    obtain ⟨-, -, h3, h4⟩ := held_shape h
    have := vec_size hl h3
    rcases h4 with ⟨rfl, -, h4⟩ | ⟨rfl, -, h4⟩ <;> rw [h4] at this <;> exact this
  · intro ctx r shs msg hs h
    refine sharesToMessage_size (ctx := ctx) (a := a) hl (fun v hv => ?_) h
    obtain ⟨vk, nonce, pub, j, s, st, -, hh⟩ := hs v hv
    obtain ⟨-, -, h3, h4⟩ := held_shape hh
    refine ⟨h3, ?_⟩
    rcases h4 with ⟨rfl, -, h4⟩ | ⟨rfl, -, h4⟩
    · exact .inl ⟨rfl, h4⟩
    · exact .inr ⟨rfl, h4⟩
  · intro vk ctx nonce pub j s r st sh msg o hj h hn
    obtain ⟨-, h2, -, -⟩ := held_shape h
    have hm := held_mem hj h
    replace hn : verifyNext ctx st msg = .ok (.out o) := hn
    obtain ⟨h5, rfl⟩ : st.step = .reveal ∧ o = st.mem := by
      unfold verifyNext at hn
      split at hn
      · split at hn
        · cases hn
        · split at hn
          · rw [Except.bind_eq_ok] at hn; obtain ⟨A, -, hn⟩ := hn
            rw [Except.bind_eq_ok] at hn; obtain ⟨B, -, hn⟩ := hn
            rw [Except.bind_eq_ok] at hn; obtain ⟨id, -, hn⟩ := hn
            cases hn
          · cases hn
      · rename_i hst
        split at hn
        · cases hn
          exact ⟨hst, rfl⟩
        · cases hn
    have := vec_size hl h2
    rw [hm.2 h5] at this
    exact this
  · intro outs agg h
    rw [aggregate_eq_merge] at h
    exact merge_size hl h
  · intro outs agg h
    exact merge_size hl h

end Poplar1
end Vdaf
