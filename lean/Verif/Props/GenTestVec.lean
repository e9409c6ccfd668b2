import Verif.Proofs.GenTestVec
import Verif.Proofs.CountTamper
import Verif.Proofs.GenIdpfVec
import Verif.Props.Prio3

/-!
# Property C71: the negative test vectors, and the vectors of the IDPF and the XOFs

Specification vocabulary (`Verif/Spec/GenTestVec.lean`):

* `Spec.RejectedFirst`, `Spec.RejectedMessage`, `Spec.RejectedSecond`: at which step the verification of a report raises
  `ValueError`;
* `Spec.NegativeFirst`, `Spec.NegativeMessage`, `Spec.NegativeSecond`: a test vector lists a given report and verify key, it
  claims that exactly the last step fails, this is true of the VDAF, and the checker accepts the vector;
* `Spec.incremented i v`, `Spec.flipped b`: what is done to the report;
* `Spec.XofListed`: a test vector of an XOF lists the values that the stream of the XOF defines.
-/

namespace Vdaf
open TestVectors

section
variable {F : Type} [NttField F] {Meas Agg : Type} {prims : Prims} {fuel : ℕ}
variable {P : Prio3 (XofTurboShake128 prims fuel) F Meas Agg} {fn : Spec.Fun Meas Agg}

/-- C71: for every Prio3 with two Aggregators, every valid measurement, key, nonce and randomness: if the first part of
the generator returns, then it returns the four vectors for the report of that measurement, with one added to the first
element of the leader's measurement share, to the first or to the last element of its proofs share, or with a bit of the
helper's seed flipped.  Each report is indeed rejected when the verifier shares are combined, and the checker accepts
each of the vectors. -/
theorem C71_prio3_shares [DecidableEq Agg] (I : Spec.Instance P fn) (h2 : P.shares = 2) {none' m : Meas} (hm : fn.valid m)
    {key nonce rand ctx : Bytes} (hctx : ctx.length + 8 < 2 ^ 16) {vs : List (String × TestVec Meas Agg)}
    (h : countNegative P none' m key nonce rand ctx = .ok vs) :
    ∃ pub meas proofs b0 seed b1 v1 v2 v3 v4,
      P.shard ctx m nonce rand = .ok (pub, [.leader meas proofs b0, .helper seed b1]) ∧
      vs = [("bad_meas_share", v1), ("bad_wire_seed", v2), ("bad_gadget_poly", v3), ("bad_helper_seed", v4)] ∧
      Spec.NegativeFirst P v1 key ctx nonce rand pub (.leader (Spec.incremented 0 meas) proofs b0) (.helper seed b1) ∧
      Spec.NegativeFirst P v2 key ctx nonce rand pub (.leader meas (Spec.incremented 0 proofs) b0) (.helper seed b1) ∧
      Spec.NegativeFirst P v3 key ctx nonce rand pub
        (.leader meas (Spec.incremented (proofs.length - 1) proofs) b0) (.helper seed b1) ∧
      Spec.NegativeFirst P v4 key ctx nonce rand pub (.leader meas proofs b0) (.helper (Spec.flipped seed) b1) := by
  obtain ⟨ints, of, h1, -, -, -⟩ := (Library.encFacts I.library).enc
  obtain ⟨enc, he, hl, -⟩ := h1 m hm
  exact countNegative_spec I.wf h2 hctx he hl h

/-- C71: the second part of the generator, with the joint randomness: a bit of the leader's blind, of the helper's blind
or of the first part in the public share is flipped, and the report is rejected when the verifier shares are combined; or
the verifier message is replaced by zeros, and the leader rejects it. -/
theorem C71_prio3_joint_rand [DecidableEq Agg] (I : Spec.Instance P fn) (h2 : P.shares = 2) {none' m : Meas}
    (hm : fn.valid m) {key nonce rand ctx : Bytes} (hctx : ctx.length + 8 < 2 ^ 16)
    {vs : List (String × TestVec Meas Agg)} (h : jointRandNegative P none' m key nonce rand ctx = .ok vs) :
    ∃ parts meas proofs b0 seed b1 v1 v2 v3 v4,
      P.shard ctx m nonce rand = .ok (some parts, [.leader meas proofs (some b0), .helper seed (some b1)]) ∧
      vs = [("bad_leader_jr_blind", v1), ("bad_helper_jr_blind", v2), ("bad_public_share", v3),
        ("bad_verifier_message", v4)] ∧
      Spec.NegativeFirst P v1 key ctx nonce rand (some parts) (.leader meas proofs (some (Spec.flipped b0)))
        (.helper seed (some b1)) ∧
      Spec.NegativeFirst P v2 key ctx nonce rand (some parts) (.leader meas proofs (some b0))
        (.helper seed (some (Spec.flipped b1))) ∧
      Spec.NegativeFirst P v3 key ctx nonce rand (some (parts.modify 0 Spec.flipped)) (.leader meas proofs (some b0))
        (.helper seed (some b1)) ∧
      Spec.NegativeMessage P v4 key ctx nonce rand (some parts) (.leader meas proofs (some b0)) (.helper seed (some b1))
        (List.replicate 32 0) := by
  obtain ⟨ints, of, h1, -, -, -⟩ := (Library.encFacts I.library).enc
  obtain ⟨enc, he, hl, -⟩ := h1 m hm
  exact jointRandNegative_spec I.wf h2 hctx he hl h

/-- C71: for a report of the right shape, a vector is written exactly if the report is rejected at the step in question. -/
theorem C71_generates [DecidableEq Agg] (I : Spec.Instance P fn) (h2 : P.shares = 2) {none' : Meas}
    {key nonce rand ctx : Bytes} {pub : Option (List Bytes)} {s0 s1 : Prio3InputShare F}
    (hpub : Spec.PublicShareShape P pub) (h0 : Spec.InputShareShape P 0 s0) (h1 : Spec.InputShareShape P 1 s1) :
    ((∃ tv, messageFailure P none' key nonce rand ctx pub s0 s1 = .ok tv) ↔
      Spec.RejectedFirst P.vdaf key ctx () nonce pub s0 s1) ∧
    ((∃ tv, badVerifierMessage P none' key nonce rand ctx pub s0 s1 = .ok tv) ↔
      Spec.RejectedMessage P.vdaf key ctx () nonce pub s0 (some (List.replicate 32 0))) :=
  ⟨⟨fun ⟨_, h⟩ => (messageFailure_spec I.wf hpub h0 h1 h2 h).rejected, messageFailure_generates I.wf hpub h0 h1⟩,
    fun ⟨_, h⟩ => (badVerifierMessage_spec hpub h0 h1 h2 h).rejected, badVerifierMessage_generates I.wf hpub h0 h1⟩

end

/-- C71: the vectors that `gen_prio3_negative_test_vec` writes, for the parameters in the code. -/
theorem C71_prio3 {prims : Prims} {fuel : ℕ} {ctx : Bytes} (hctx : ctx.length + 8 < 2 ^ 16)
    {vs : List (String × TestVec Int Nat)} {ws : List (String × TestVec Int (List Nat))}
    (h : genPrio3Negative prims fuel ctx = .ok (vs, ws)) :
    ∃ C H, Prio3Count prims fuel 2 = .ok C ∧ Prio3Histogram prims fuel 2 5 2 = .ok H ∧
      vs.map Prod.fst = ["bad_meas_share", "bad_wire_seed", "bad_gadget_poly", "bad_helper_seed"] ∧
      ws.map Prod.fst = ["bad_leader_jr_blind", "bad_helper_jr_blind", "bad_public_share", "bad_verifier_message"] ∧
      (∀ v ∈ vs, checkTestVector C.vdaf (Prio3.shareCodec Field64) v.2 = .ok ()) ∧
      ∀ v ∈ ws, checkTestVector H.vdaf (Prio3.shareCodec Field128) v.2 = .ok () := by
  unfold genPrio3Negative at h
  rw [Except.bind_eq_ok] at h; obtain ⟨C, hC, h⟩ := h
  dsimp only at h
  rw [Except.bind_eq_ok] at h; obtain ⟨c, h1, h⟩ := h
  rw [Except.bind_eq_ok] at h; obtain ⟨H, hH, h⟩ := h
  rw [Except.bind_eq_ok] at h; obtain ⟨w, h2, h⟩ := h
  cases h
  obtain ⟨IC, sC⟩ := instance_count hC
  obtain ⟨IH, sH⟩ := instance_histogram (by decide) hH
  obtain ⟨_, _, _, _, _, _, v1, v2, v3, v4, -, rfl, k1, k2, k3, k4⟩ := C71_prio3_shares IC sC (.inr rfl) hctx h1
  obtain ⟨_, _, _, _, _, _, w1, w2, w3, w4, -, rfl, j1, j2, j3, j4⟩ := C71_prio3_joint_rand IH sH (m := 3) ⟨by decide, by decide⟩ hctx h2
  refine ⟨C, H, hC, hH, rfl, rfl, ?_, ?_⟩
  · simp only [List.forall_mem_cons, List.not_mem_nil, false_implies, implies_true, and_true]
    exact ⟨k1.accepted, k2.accepted, k3.accepted, k4.accepted⟩
  · simp only [List.forall_mem_cons, List.not_mem_nil, false_implies, implies_true, and_true]
    exact ⟨j1.accepted, j2.accepted, j3.accepted, j4.accepted⟩

/-- The generator of the code succeeds (with toy primitives): the theorems above are about actual vectors. -/
example : (genPrio3Negative toyPrims 40 [1, 2]).isOk = true := by decide +kernel

/-- C71: `bad_meas_share` could not fail to be rejected: for every number of Aggregators, every measurement, randomness
and verify key, if the leader's measurement share of a report of Prio3Count is replaced by anything else, then the
verification does not succeed. -/
theorem C71_count_measurement {prims : Prims} {fuel shares : ℕ}
    {P : Prio3 (XofTurboShake128 prims fuel) Field64 Int Nat} (hP : Prio3Count prims fuel shares = .ok P)
    {ctx nonce rand : Bytes} (hctx : ctx.length + 8 < 2 ^ 16) {m : Int} {pub : Option (List Bytes)}
    {meas proofs : List Field64} {b : Option Bytes} {rest : List (Prio3InputShare Field64)}
    (hs : P.shard ctx m nonce rand = .ok (pub, .leader meas proofs b :: rest)) {meas' : List Field64} (hne : meas' ≠ meas)
    {ish : ℕ → Prio3InputShare Field64} (h0 : ish 0 = .leader meas' proofs b)
    (hj : ∀ j < rest.length, rest[j]? = some (ish (j + 1))) {key : Bytes} {st sh : ℕ → List Field64 × Option Bytes}
    {msg : Option Bytes} : ¬ Spec.VerifySucceeds P key ctx nonce pub ish st sh msg := by
  obtain ⟨I, hsh⟩ := instance_count hP
  have W := I.wf
  obtain ⟨hV, hp1⟩ : P.flp = Count Field64 ∧ P.proofs = 1 := by
    obtain ⟨pl, -, -, -, rfl⟩ := Prio3.init_ok.1 hP
    exact ⟨rfl, rfl⟩
  have hsz : nonce.length = 16 ∧ rand.length = P.randSize ∧ Spec.countFun.valid m := by
    have hs' := hs
    unfold Prio3.shard at hs'
    rw [Except.bind_eq_ok] at hs'; obtain ⟨_, h1, hs'⟩ := hs'
    rw [Except.bind_eq_ok] at hs'; obtain ⟨_, h2, hs'⟩ := hs'
    rw [Except.bind_eq_ok] at hs'; obtain ⟨enc, h3, -⟩ := hs'
    refine ⟨not_not.1 (of_decide_eq_false (raiseIf_eq_ok.1 h1)), not_not.1 (of_decide_eq_false (raiseIf_eq_ok.1 h2)), ?_⟩
    rw [hV] at h3
    unfold Count at h3
    dsimp only at h3
    rw [Except.bind_eq_ok] at h3; obtain ⟨_, h4, -⟩ := h3
    have h5 := not_not.1 (of_decide_eq_false (raiseIf_eq_ok.1 h4))
    show m = 0 ∨ m = 1
    omega
  obtain ⟨hn, hr, hm⟩ := hsz
  have he : P.flp.encode m = .ok [(m.toNat : Field64)] := by rw [hV]; exact Count.encode_eq hm
  have hx : (m.toNat : Field64) * (m.toNat : Field64) = (m.toNat : Field64) := by
    rcases hm with rfl | rfl <;> simp
  rcases (Prio3.shard_good W hctx he (by rw [hV]; rfl) hn hr).cases with ⟨⟨pub', ish'⟩, k1, k2⟩ | ⟨e, k1, -⟩
  swap
  · rw [hs] at k1; cases k1
  rw [hs] at k1
  cases k1
  obtain ⟨ms, ps, bl, prs, jrs, π, S, -⟩ := k2
  have hN := W.shares_ge
  obtain ⟨s, e1, e2⟩ := S.expand 0 (by omega)
  cases e1
  have e3 := Prod.mk.inj (Except.ok.inj (show Except.ok (meas, proofs, b) = _ from e2))
  obtain ⟨e3, e4⟩ := e3
  obtain ⟨e4, e5⟩ := Prod.mk.inj e4
  subst e3 e4 e5
  have hl := S.len
  simp only [List.length_cons] at hl
  refine Prio3.count_changed W hV (hV ▸ I.fits) (by omega) hx S hne h0 fun j h1 h2 => ?_
  obtain ⟨i, rfl⟩ : ∃ i, j = i + 1 := ⟨j - 1, by omega⟩
  rw [List.getElem?_cons_succ]
  exact hj i (by omega)

example : ((Prio3Count toyPrims 10 3).bind fun P => P.shard [1] 1 (zeros 16) (testVecGenRand P.randSize)).isOk = true := by
  decide +kernel

/-- C71: the vector that `gen_poplar1_negative_test_vec` writes: for every number of bits, measurement, aggregation
parameter, key, nonce and randomness, if the generator returns a vector, then it lists the report with one added to the
first element of the leader's correlated randomness for the inner levels; the two Aggregators compute the first verifier
message and their second verifier shares, which are rejected; and the checker accepts the vector. -/
theorem C71_poplar1 (prims : Prims) {fuel : ℕ} (hf : fuel < 2 ^ 120) {bits : ℕ} {P : Poplar1}
    (hP : Poplar1.init bits = .ok P) {none' alpha : List Bool} {a : Poplar1AggParam} {key nonce rand ctx : Bytes}
    (hctx : ctx.length + 8 < 2 ^ 16) (ha : alpha.length = bits) (hap : Spec.WellFormed a)
    {tv : TestVec (List Bool) (List ℕ)}
    (h : corrInnerNegative prims fuel P none' alpha a key nonce rand ctx = .ok tv) :
    ∃ pub s0 s1, P.shard prims fuel ctx alpha nonce rand = .ok (pub, [s0, s1]) ∧
      Spec.NegativeSecond prims fuel P tv key ctx a nonce rand pub
        { s0 with corrInner := Spec.incremented 0 s0.corrInner } s1 := by
  obtain ⟨rfl, hb⟩ := Poplar1.init_ok hP
  exact corrInnerNegative_spec hf hb rfl hctx ha hap h

/-- C71: with the parameters in the code -/
theorem C71_poplar1_vector (prims : Prims) {fuel : ℕ} (hf : fuel < 2 ^ 120) {ctx : Bytes} (hctx : ctx.length + 8 < 2 ^ 16)
    {tv : TestVec (List Bool) (List ℕ)} (h : genPoplar1Negative prims fuel ctx = .ok tv) :
    ∃ P pub s0 s1, Poplar1.init 2 = .ok P ∧
      P.shard prims fuel ctx [false, true] (testVecGenRand 16) (testVecGenRand 128) = .ok (pub, [s0, s1]) ∧
      Spec.NegativeSecond prims fuel P tv (testVecGenRand 32) ctx (0, [[false], [true]]) (testVecGenRand 16)
        (testVecGenRand 128) pub { s0 with corrInner := Spec.incremented 0 s0.corrInner } s1 := by
  unfold genPoplar1Negative at h
  rw [Except.bind_eq_ok] at h; obtain ⟨P, hP, h⟩ := h
  obtain ⟨pub, s0, s1, h1, h2⟩ := C71_poplar1 prims hf hP hctx rfl ⟨by decide, by decide, by decide⟩ h
  exact ⟨P, pub, s0, s1, hP, h1, h2⟩

example : (genPoplar1Negative toyPrims 40 [1, 2]).isOk = true := by decide +kernel

/-- C71: the test vector of the IDPF: it lists the programmed values, which are `level` repeated, and a public share and
two keys for which the two evaluations add up, at every level and for all distinct prefixes, to the programmed values at
the prefixes of `alpha` and to zero elsewhere. -/
theorem C71_idpf (prims : Prims) {fuel : ℕ} (hf : fuel < 2 ^ 120) {valueLen bits : ℕ} {I : Idpf}
    (hI : Idpf.init valueLen bits = .ok I) {alpha : List Bool} {ctx : Bytes} (hctx : ctx.length + 8 < 2 ^ 16)
    {tv : IdpfVec} (h : genIdpfVec prims fuel I alpha ctx = .ok tv) :
    ∃ nonce pubB pub k0 k1 key0 key1,
      tv.bits = bits ∧ tv.alpha = alpha ∧ alpha.length = bits ∧
      tv.betaInner = (List.range (bits - 1)).map (List.replicate valueLen) ∧
      tv.betaLeaf = List.replicate valueLen (bits - 1) ∧
      fromHex tv.ctx = .ok ctx ∧ fromHex tv.nonce = .ok nonce ∧ fromHex tv.publicShare = .ok pubB ∧
      I.decodePublicShare pubB = .ok pub ∧ tv.keys = [k0, k1] ∧ fromHex k0 = .ok key0 ∧ fromHex k1 = .ok key1 ∧
      ∀ level < bits, ∀ prefixes : List (List Bool), prefixes.Nodup → (∀ p ∈ prefixes, p.length = level + 1) →
        I.eval prims fuel 0 pub key0 level prefixes ctx nonce = .error .fuel ∨
        I.eval prims fuel 1 pub key1 level prefixes ctx nonce = .error .fuel ∨
        ∃ out0 out1, I.eval prims fuel 0 pub key0 level prefixes ctx nonce = .ok out0 ∧
          I.eval prims fuel 1 pub key1 level prefixes ctx nonce = .ok out1 ∧
          out0.length = prefixes.length ∧ out1.length = prefixes.length ∧
          ∀ (i : ℕ) (p : List Bool), prefixes[i]? = some p → ∃ y0 y1 y, out0[i]? = some y0 ∧ out1[i]? = some y1 ∧
            vecAdd y0 y1 = .ok y ∧
            y.map PyField.toNat = List.replicate valueLen (if p <+: alpha then level else 0) := by
  obtain ⟨rfl, -, hb⟩ := Idpf.init_ok hI
  obtain ⟨betaInner, betaLeaf, pub, keys, pubB, h1, h2, h3, h4, rfl⟩ := genIdpfVec_inv (I := ⟨valueLen, bits⟩) hb h
  obtain ⟨g1, g2, g3, g4, g5, g6⟩ := (C60_gen_accepts_only prims hf hI _ _ _ _ _ _ hctx).2 ⟨_, h1⟩
  have typed : (⟨valueLen, bits⟩ : Idpf).Typed pub := by
    rcases (Idpf.gen_good (I := ⟨valueLen, bits⟩) (prims := prims) hf hctx g1 g2 g3 g4 g6 g5).cases with
      ⟨⟨pub', keys'⟩, hg, hk, N, hN⟩ | ⟨e, he, rfl⟩
    · rw [h1] at hg
      cases hg
      exact genRun_typed hN
    · rw [h1] at he; cases he
  rcases C31_idpf_correct prims hf hI g1 g2 g3 g4 hctx g5 g6 with h5 | ⟨pub', key0, key1, h5, h6⟩
  · rw [h1] at h5; cases h5
  rw [h1] at h5
  cases h5
  refine ⟨_, _, pub, _, _, key0, key1, rfl, rfl, g1, rfl, rfl, fromHex_hex _, fromHex_hex _, fromHex_hex _,
    (Idpf.decodePublicShare_iff hb).2 ⟨typed, h4⟩, rfl, fromHex_hex _, fromHex_hex _, fun level hl prefixes hnd hpl => ?_⟩
  rcases h6 level hl prefixes hnd hpl with h7 | h7 | ⟨out0, out1, h7, h8, h9, h10, h11⟩
  · exact .inl h7
  · exact .inr (.inl h7)
  refine .inr (.inr ⟨out0, out1, h7, h8, h9, h10, fun i p hp => ?_⟩)
  obtain ⟨y0, y1, y, e0, e1, e2, e3⟩ := h11 i p hp
  refine ⟨y0, y1, y, e0, e1, e2, ?_⟩
  have hplen := hpl p (List.mem_of_getElem? hp)
  unfold Spec.point at e3
  split at e3
  · next hpre =>
    rw [if_pos hpre]
    unfold Spec.beta at e3
    rw [hplen, Nat.add_sub_cancel] at e3
    split at e3
    · next hlt =>
      have : (betaInner.map (·.map PyField.toNat))[level]? = some (List.replicate valueLen level) := by
        rw [h2]
        simp [hlt]
      rw [List.getElem?_map] at this
      rw [this] at e3
      exact Option.some.inj e3
    · rw [Option.some.inj e3, h3]
      congr 1
      dsimp only at *
      omega
  · next hpre =>
    rw [if_neg hpre]
    exact Option.some.inj e3

example : (genIdpfVec toyPrims 40 ⟨2, 3⟩ [true, false, true] [1, 2]).isOk = true := by decide +kernel

/-- C71: the test vectors of the two XOFs -/
theorem C71_xof (prims : Prims) {fuel : ℕ} (hf : fuel < 2 ^ 120) {tv : XofVec} :
    (genXofVec (XofTurboShake128 prims fuel) = .ok tv → Spec.XofListed tv 32 (Spec.turboStream prims)) ∧
    (genXofVec (XofFixedKeyAes128 prims fuel) = .ok tv → Spec.XofListed tv 16 (Spec.fixedKeyStream prims)) := by
  constructor
  · intro h
    obtain ⟨derived, vec, e, h1, h2, h3, rfl⟩ := genXofVec_inv h
    obtain ⟨h4, pos, h5⟩ := turbo_expand h2
    exact ⟨_, _, _, derived, e, vec, pos, fromHex_hex _, fromHex_hex _, fromHex_hex _, fromHex_hex _, fromHex_hex _,
      show (testVecGenRand 32).length = 32 by decide, turbo_deriveSeed_eq h1, decodeVec_eq_ok.2 (Except.ok.inj (h3.symm.trans (encodeVec_eq _))), h4, h5⟩
  · intro h
    obtain ⟨derived, vec, e, h1, h2, h3, rfl⟩ := genXofVec_inv h
    obtain ⟨h4, pos, h5⟩ := aes_expand hf (show (testVecGenRand 16).length = 16 by decide) (by decide) h2
    exact ⟨_, _, _, derived, e, vec, pos, fromHex_hex _, fromHex_hex _, fromHex_hex _, fromHex_hex _, fromHex_hex _,
      show (testVecGenRand 16).length = 16 by decide, aes_derive (show (testVecGenRand 16).length = 16 by decide) (by decide) h1, decodeVec_eq_ok.2 (Except.ok.inj (h3.symm.trans (encodeVec_eq _))), h4, h5⟩

example : (genXofVec (XofTurboShake128 toyPrims 60)).isOk = true ∧ (genXofVec (XofFixedKeyAes128 toyPrims 60)).isOk = true := by
  decide +kernel

end Vdaf
