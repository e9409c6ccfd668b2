import Verif.Spec.GenTestVec
import Verif.Proofs.TestVectorsInst
import Verif.Proofs.TestVectorsOps

/-! The checker accepts the negative test vectors. -/

namespace Vdaf.TestVectors

theorem expectValueError_ok {α : Type} {r : Res α} {msg : String} :
    expectValueError r msg = .ok () ↔ ∃ m, r = .error (.value m) := by
  unfold expectValueError
  split
  · simp
  · simp
  · rename_i e h
    constructor
    · intro h; cases h
    · rintro ⟨m, hm⟩
      cases hm
      exact absurd rfl (h m)

section
variable {Meas AggParam PubShare InShare OutShare AggShare AggRes VState VShare VMsg : Type} [DecidableEq AggRes]
variable {V : VdafImpl Meas AggParam PubShare InShare OutShare AggShare AggRes VState VShare VMsg}
variable {C : ShareCodec AggParam OutShare AggShare}
variable {key ctx nonce ap pubB in0 in1 v0 v1 v0' v1' m : Bytes} {a : AggParam} {pub : PubShare} {s0 s1 : InShare}
  {st0 st1 st0' st1' : VState} {sh0 sh1 sh0' sh1' : VShare} {msg : VMsg} {tv : TestVec Meas AggRes} {rep : Report Meas}
  {e : Err}

theorem check_init (S : States VState) {j : ℕ} (hj : j < V.shares) {s : InShare} {inB : Bytes} {row : List Hex}
    {rows : List (List Hex)}
    {v : Bytes} {st : VState} {sh : VShare}
    (htv : tv.reports = [rep]) (hk : tv.verifyKey = hex key) (hctx : tv.ctx = hex ctx) (hap : tv.aggParam = hex ap)
    (hn : rep.nonce = hex nonce) (hpub : rep.publicShare = hex pubB) (hin : rep.inputShares[j]? = some (hex inB))
    (hrow : rep.verifierShares = row :: rows) (hv : row[j]? = some (hex v))
    (da : V.decodeAggParam ap = .ok a) (dp : V.decodePublicShare pubB = .ok pub) (di : V.decodeInputShare j inB = .ok s)
    (hi : V.verifyInit key ctx j a nonce pub s = .ok (st, sh)) (he : V.encodeVerifierShare sh = .ok v) :
    checkOperation V C tv S (.verifyInit j 0 true) = .ok (S.put 0 j 0 st) := by
  simp [checkOperation, htv, hk, hctx, hap, hn, hpub, hrow, hexAt, getI, hin, hv, fromHex_hex, checkVerifyInitSuccess, da,
    dp, di, hi, he, assertBytes, pyAssert, checkId, hj]

theorem check_message (S : States VState) {k : ℕ} {v0 v1 : Bytes} {st0 st1 : VState} {sh0 sh1 : VShare}
    (h2 : V.shares = 2)
    (htv : tv.reports = [rep]) (hctx : tv.ctx = hex ctx) (hap : tv.aggParam = hex ap)
    (hrow : rep.verifierShares[k]? = some [hex v0, hex v1]) (h0 : S 0 0 k = some st0) (h1 : S 0 1 k = some st1)
    (da : V.decodeAggParam ap = .ok a) (d0 : V.decodeVerifierShare st0 v0 = .ok sh0)
    (d1 : V.decodeVerifierShare st1 v1 = .ok sh1)
    (hm : V.sharesToMessage ctx a [sh0, sh1] = .error e) (he : e ≠ .fuel) :
    checkOperation V C tv S (.sharesToMessage k 0 false) = .ok S := by
  have : assertRaises (V.sharesToMessage ctx a [sh0, sh1]) = .ok () := by
    rw [hm]
    unfold assertRaises
    split
    · rename_i h; cases h
    · rename_i h; cases h; exact absurd rfl he
    · rfl
  simp [checkOperation, htv, hctx, hap, hrow, getI, fromHex_hex, checkSharesToMessageFailure, da, h2, getState, checkId, h0,
    h1, mapRes, List.range_succ, d0, d1, this]

theorem check_message_ok (S : States VState) {k : ℕ} {v0 v1 m : Bytes} {st0 st1 : VState} {sh0 sh1 : VShare}
    (h2 : V.shares = 2)
    (htv : tv.reports = [rep]) (hctx : tv.ctx = hex ctx) (hap : tv.aggParam = hex ap)
    (hrow : rep.verifierShares[k]? = some [hex v0, hex v1]) (h0 : S 0 0 k = some st0) (h1 : S 0 1 k = some st1)
    (da : V.decodeAggParam ap = .ok a) (d0 : V.decodeVerifierShare st0 v0 = .ok sh0)
    (d1 : V.decodeVerifierShare st1 v1 = .ok sh1)
    (hm : V.sharesToMessage ctx a [sh0, sh1] = .ok msg) (he : V.encodeVerifierMessage msg = .ok m)
    (hmsg : rep.verifierMessages[k]? = some (hex m)) :
    checkOperation V C tv S (.sharesToMessage k 0 true) = .ok S := by
  simp [checkOperation, htv, hctx, hap, hrow, getI, fromHex_hex, checkSharesToMessageSuccess, da, h2, getState, checkId, h0,
    h1, mapRes, List.range_succ, d0, d1, hm, he, hexAt, hmsg, assertBytes, pyAssert]

theorem check_next (S : States VState) {k j : ℕ} {m v : Bytes} {st st' : VState} {sh' : VShare} {row : List Hex}
    (hj : j < V.shares) (hk : k + 1 < V.rounds)
    (htv : tv.reports = [rep]) (hctx : tv.ctx = hex ctx)
    (hst : S 0 j k = some st) (hmsg : rep.verifierMessages[k]? = some (hex m))
    (hrow : rep.verifierShares[k + 1]? = some row) (hv : row[j]? = some (hex v))
    (dm : V.decodeVerifierMessage st m = .ok msg) (hn : V.verifyNextTuple ctx st msg = .ok (st', sh'))
    (he : V.encodeVerifierShare sh' = .ok v) :
    checkOperation V C tv S (.verifyNext (k + 1) j 0 true) = .ok (S.put 0 j (k + 1) st') := by
  simp [checkOperation, htv, hctx, getI, fromHex_hex, getState, checkId, hj, hst, hexAt, hmsg, hk, hrow, hv,
    checkVerifyNextCont, dm, hn, he, assertBytes, pyAssert]

theorem check_next_fails (S : States VState) {k j : ℕ} {m : Bytes} {st : VState}
    (hj : j < V.shares)
    (htv : tv.reports = [rep]) (hctx : tv.ctx = hex ctx)
    (hst : S 0 j k = some st) (hmsg : rep.verifierMessages[k]? = some (hex m))
    (dm : V.decodeVerifierMessage st m = .ok msg) (hn : V.verifyNext ctx st msg = .error e) (he : e ≠ .fuel) :
    checkOperation V C tv S (.verifyNext (k + 1) j 0 false) = .ok S := by
  have : assertRaises (V.verifyNext ctx st msg) = .ok () := by
    rw [hn]
    unfold assertRaises
    split
    · rename_i h; cases h
    · rename_i h; cases h; exact absurd rfl he
    · rfl
  simp [checkOperation, htv, hctx, getI, fromHex_hex, getState, checkId, hj, hst, hexAt, hmsg,
    checkVerifyNextFailure, dm, this]
end

section
variable {F : Type} [NttField F] {Meas Agg : Type} {prims : Prims} {fuel : ℕ}
  {P : Prio3 (XofTurboShake128 prims fuel) F Meas Agg} (W : P.WF)
  {none' : Meas} {key nonce rand ctx : Bytes} {pub : Option (List Bytes)} {s0 s1 : Prio3InputShare F}
  (hpub : Spec.PublicShareShape P pub) (h0 : Spec.InputShareShape P 0 s0) (h1 : Spec.InputShareShape P 1 s1)

theorem decodePublicShare_of_shape (hpub : Spec.PublicShareShape P pub) {b : Bytes}
    (h : Prio3.encodePublicShare pub = .ok b) : P.decodePublicShare b = .ok pub := by
  cases pub with
  | none =>
    unfold Prio3.decodePublicShare
    rw [if_pos (show P.flp.jointRandLen = 0 from hpub)]
  | some parts => exact (Prio3.decodePublicShare_ok hpub.1).2 ⟨hpub, h⟩

include W hpub h0 h1

theorem messageFailure_spec [DecidableEq Agg] (h2 : P.shares = 2) {tv : TestVec Meas Agg}
    (h : messageFailure P none' key nonce rand ctx pub s0 s1 = .ok tv) :
    Spec.NegativeFirst P tv key ctx nonce rand pub s0 s1 := by
  unfold messageFailure at h
  rw [Except.bind_eq_ok] at h; obtain ⟨⟨st0, sh0⟩, k1, h⟩ := h
  dsimp only at h
  rw [Except.bind_eq_ok] at h; obtain ⟨⟨st1, sh1⟩, k2, h⟩ := h
  dsimp only at h
  rw [Except.bind_eq_ok] at h; obtain ⟨_, k3, h⟩ := h
  obtain ⟨m, k3⟩ := expectValueError_ok.1 k3
  rw [Except.bind_eq_ok] at h; obtain ⟨pubB, k4, h⟩ := h
  rw [Except.bind_eq_ok] at h; obtain ⟨in0, k5, h⟩ := h
  rw [Except.bind_eq_ok] at h; obtain ⟨in1, k6, h⟩ := h
  rw [Except.bind_eq_ok] at h; obtain ⟨v0, k7, h⟩ := h
  rw [Except.bind_eq_ok] at h; obtain ⟨v1, k8, h⟩ := h
  have h := (Except.ok.inj h).symm
  have da : P.vdaf.decodeAggParam [] = .ok () := rfl
  have dp : P.vdaf.decodePublicShare pubB = .ok pub := decodePublicShare_of_shape hpub k4
  have d0 : P.vdaf.decodeInputShare 0 in0 = .ok s0 := Prio3.decodeInputShare_ok.2 ⟨h0, k5⟩
  have d1 : P.vdaf.decodeInputShare 1 in1 = .ok s1 := Prio3.decodeInputShare_ok.2 ⟨h1, k6⟩
  have e0 : P.vdaf.decodeVerifierShare st0 v0 = .ok sh0 := (Prio3.decodeVerifierShare_ok (st := st0)).2 ⟨Prio3.verifyInit_shape W k1, k7⟩
  have e1 : P.vdaf.decodeVerifierShare st1 v1 = .ok sh1 := (Prio3.decodeVerifierShare_ok (st := st1)).2 ⟨Prio3.verifyInit_shape W k2, k8⟩
  have hargs : Spec.OneReport P.vdaf tv key ctx () nonce rand pub s0 s1 := by
    rw [h]
    refine ⟨rfl, _, rfl, fromHex_hex _, rfl, ⟨fromHex_hex _, fromHex_hex _, ⟨[], rfl, da⟩, fromHex_hex _,
      ⟨_, fromHex_hex _, dp⟩, _, ⟨_, rfl, fromHex_hex _⟩, d0⟩, ⟨fromHex_hex _, fromHex_hex _, ⟨[], rfl, da⟩, fromHex_hex _,
      ⟨_, fromHex_hex _, dp⟩, _, ⟨_, rfl, fromHex_hex _⟩, d1⟩⟩
  refine ⟨hargs, by rw [h], ⟨_, _, _, _, _, k1, k2, k3⟩, ?_⟩
  unfold checkTestVector
  rw [h]
  dsimp only
  rw [forFold_cons, check_init (V := P.vdaf) (st := st0) (sh := sh0) _ (show 0 < P.shares by omega) rfl rfl rfl (ap := []) rfl rfl rfl rfl rfl rfl da dp d0 k1 k7,
    Except.ok_bind', forFold_cons,
    check_init (V := P.vdaf) (st := st1) (sh := sh1) _ (show 1 < P.shares by omega) rfl rfl rfl (ap := []) rfl rfl rfl rfl rfl rfl da dp d1 k2 k8, Except.ok_bind',
    forFold_cons, check_message (V := P.vdaf) (st0 := st0) (st1 := st1) _ h2 rfl rfl (ap := []) rfl rfl rfl rfl da e0 e1 k3 (by simp)]
  rfl

theorem messageFailure_generates (h : Spec.RejectedFirst P.vdaf key ctx () nonce pub s0 s1) :
    ∃ tv, messageFailure P none' key nonce rand ctx pub s0 s1 = .ok tv := by
  obtain ⟨st0, sh0, st1, sh1, m, k1, k2, k3⟩ := h
  replace k1 : P.verifyInit key ctx 0 () nonce pub s0 = .ok (st0, sh0) := k1
  replace k2 : P.verifyInit key ctx 1 () nonce pub s1 = .ok (st1, sh1) := k2
  replace k3 : P.sharesToMessage ctx () [sh0, sh1] = .error (.value m) := k3
  obtain ⟨pubB, k4⟩ : ∃ b, Prio3.encodePublicShare pub = .ok b := by cases pub <;> exact ⟨_, rfl⟩
  obtain ⟨in0, k5⟩ := Prio3.encodeInputShare_ok h0
  obtain ⟨in1, k6⟩ := Prio3.encodeInputShare_ok h1
  obtain ⟨v0, k7⟩ := Prio3.encodeVerifierShare_ok (Prio3.verifyInit_shape W k1)
  obtain ⟨v1, k8⟩ := Prio3.encodeVerifierShare_ok (Prio3.verifyInit_shape W k2)
  unfold messageFailure
  rw [k1, Except.ok_bind']
  dsimp only
  rw [k2, Except.ok_bind']
  dsimp only
  rw [k3, expectValueError_ok.2 ⟨m, rfl⟩, Except.ok_bind', k4, Except.ok_bind', k5, Except.ok_bind', k6, Except.ok_bind', k7,
    Except.ok_bind', k8]
  exact ⟨_, rfl⟩

omit W in
theorem badVerifierMessage_spec [DecidableEq Agg] (h2 : P.shares = 2) {tv : TestVec Meas Agg}
    (h : badVerifierMessage P none' key nonce rand ctx pub s0 s1 = .ok tv) :
    Spec.NegativeMessage P tv key ctx nonce rand pub s0 s1 (List.replicate 32 0) := by
  unfold badVerifierMessage at h
  rw [Except.bind_eq_ok] at h; obtain ⟨⟨st0, sh0⟩, k1, h⟩ := h
  dsimp only at h
  rw [Except.bind_eq_ok] at h; obtain ⟨_, k3, h⟩ := h
  obtain ⟨m, k3⟩ := expectValueError_ok.1 k3
  rw [Except.bind_eq_ok] at h; obtain ⟨pubB, k4, h⟩ := h
  rw [Except.bind_eq_ok] at h; obtain ⟨in0, k5, h⟩ := h
  rw [Except.bind_eq_ok] at h; obtain ⟨in1, k6, h⟩ := h
  rw [Except.bind_eq_ok] at h; obtain ⟨v0, k7, h⟩ := h
  have h := (Except.ok.inj h).symm
  have da : P.vdaf.decodeAggParam [] = .ok () := rfl
  have dp : P.vdaf.decodePublicShare pubB = .ok pub := decodePublicShare_of_shape hpub k4
  have d0 : P.vdaf.decodeInputShare 0 in0 = .ok s0 := Prio3.decodeInputShare_ok.2 ⟨h0, k5⟩
  have d1 : P.vdaf.decodeInputShare 1 in1 = .ok s1 := Prio3.decodeInputShare_ok.2 ⟨h1, k6⟩
  have dm : P.vdaf.decodeVerifierMessage st0 (zeros (XofTurboShake128 prims fuel).seedSize) =
      .ok (some (zeros (XofTurboShake128 prims fuel).seedSize)) := rfl
  have hargs : Spec.OneReport P.vdaf tv key ctx () nonce rand pub s0 s1 := by
    rw [h]
    refine ⟨rfl, _, rfl, fromHex_hex _, rfl, ⟨fromHex_hex _, fromHex_hex _, ⟨[], rfl, da⟩, fromHex_hex _,
      ⟨_, fromHex_hex _, dp⟩, _, ⟨_, rfl, fromHex_hex _⟩, d0⟩, ⟨fromHex_hex _, fromHex_hex _, ⟨[], rfl, da⟩, fromHex_hex _,
      ⟨_, fromHex_hex _, dp⟩, _, ⟨_, rfl, fromHex_hex _⟩, d1⟩⟩
  refine ⟨hargs, ?_, by rw [h], ⟨_, _, _, k1, k3⟩, ?_⟩
  · intro rep hrep
    rw [h, List.mem_singleton] at hrep
    subst hrep
    exact ⟨_, rfl, fromHex_hex _⟩
  unfold checkTestVector
  rw [h]
  dsimp only
  rw [forFold_cons, check_init (V := P.vdaf) (st := st0) (sh := sh0) _ (show 0 < P.shares by omega) rfl rfl rfl (ap := []) rfl rfl rfl rfl rfl rfl da dp d0 k1 k7,
    Except.ok_bind', forFold_cons,
    check_next_fails (V := P.vdaf) (st := st0) (k := 0) _ (show 0 < P.shares by omega) rfl rfl rfl rfl dm k3 (by simp)]
  rfl

theorem badVerifierMessage_generates
    (h : Spec.RejectedMessage P.vdaf key ctx () nonce pub s0 (some (List.replicate 32 0))) :
    ∃ tv, badVerifierMessage P none' key nonce rand ctx pub s0 s1 = .ok tv := by
  obtain ⟨st0, sh0, m, k1, k3⟩ := h
  replace k1 : P.verifyInit key ctx 0 () nonce pub s0 = .ok (st0, sh0) := k1
  replace k3 : Prio3.verifyNext ctx st0 (some (zeros (XofTurboShake128 prims fuel).seedSize)) = .error (.value m) := k3
  obtain ⟨pubB, k4⟩ : ∃ b, Prio3.encodePublicShare pub = .ok b := by cases pub <;> exact ⟨_, rfl⟩
  obtain ⟨in0, k5⟩ := Prio3.encodeInputShare_ok h0
  obtain ⟨in1, k6⟩ := Prio3.encodeInputShare_ok h1
  obtain ⟨v0, k7⟩ := Prio3.encodeVerifierShare_ok (Prio3.verifyInit_shape W k1)
  unfold badVerifierMessage
  rw [k1, Except.ok_bind']
  dsimp only
  rw [k3, expectValueError_ok.2 ⟨m, rfl⟩, Except.ok_bind', k4, Except.ok_bind', k5, Except.ok_bind', k6, Except.ok_bind', k7]
  exact ⟨_, rfl⟩
end

theorem modify_eq_set_getElem {α : Type} {l : List α} {i : ℕ} (h : i < l.length) (f : α → α) :
    l.modify i f = l.set i (f l[i]) := by
  apply List.ext_getElem?
  intro j
  rw [List.getElem?_modify, List.getElem?_set]
  by_cases hj : i = j
  · subst hj
    simp [h]
  · rw [if_neg hj]
    simp [hj]

theorem addOne_eq {F : Type} [Add F] [One F] {l l' : List F} {i : ℕ} :
    addOne l i = .ok l' ↔ i < l.length ∧ l' = Spec.incremented i l := by
  unfold addOne Spec.incremented
  rw [Except.bind_eq_ok]
  constructor
  · rintro ⟨x, h1, h2⟩
    rw [getI_eq_ok] at h1
    obtain ⟨hi, rfl⟩ := List.getElem?_eq_some_iff.1 h1
    obtain ⟨-, h2⟩ := setI_eq_ok.1 h2
    refine ⟨hi, ?_⟩
    rw [h2]
    exact (modify_eq_set_getElem hi (· + 1)).symm
  · rintro ⟨hi, rfl⟩
    refine ⟨l[i], getI_eq_ok.2 (List.getElem?_eq_getElem hi), setI_eq_ok.2 ⟨hi, ?_⟩⟩
    exact modify_eq_set_getElem hi (· + 1)

theorem flipBit_eq {b b' : Bytes} : flipBit b = .ok b' ↔ 0 < b.length ∧ b' = Spec.flipped b := by
  unfold flipBit Spec.flipped
  rw [Except.bind_eq_ok]
  constructor
  · rintro ⟨x, h1, h2⟩
    rw [getI_eq_ok] at h1
    obtain ⟨hi, rfl⟩ := List.getElem?_eq_some_iff.1 h1
    obtain ⟨-, h2⟩ := setI_eq_ok.1 h2
    refine ⟨hi, ?_⟩
    rw [h2]
    exact (modify_eq_set_getElem hi (· ^^^ 1)).symm
  · rintro ⟨hi, rfl⟩
    refine ⟨b[0], getI_eq_ok.2 (List.getElem?_eq_getElem hi), setI_eq_ok.2 ⟨hi, ?_⟩⟩
    exact modify_eq_set_getElem hi (· ^^^ 1)

section
variable {F : Type} [NttField F] {Meas Agg : Type} [DecidableEq Agg] {prims : Prims} {fuel : ℕ}
  {P : Prio3 (XofTurboShake128 prims fuel) F Meas Agg}

theorem unpackTwo_ok {PubShare InShare : Type} {r : Res (PubShare × List InShare)} {x : PubShare × InShare × InShare} :
    unpackTwo r = .ok x ↔ r = .ok (x.1, [x.2.1, x.2.2]) := by
  unfold unpackTwo
  rw [Except.bind_eq_ok]
  constructor
  · rintro ⟨y, h1, h2⟩
    split at h2
    · cases h2; exact h1
    · cases h2
  · rintro h
    exact ⟨_, h, rfl⟩

omit [NttField F] [DecidableEq Agg] in
theorem shares_of_shape {ish : List (Prio3InputShare F)} {s0 s1 : Prio3InputShare F} (hs : ish = [s0, s1])
    (h : ∀ j s, ish[j]? = some s → Spec.InputShareShape P j s) :
    ∃ meas proofs b0 seed b1, s0 = .leader meas proofs b0 ∧ s1 = .helper seed b1 ∧
      Spec.InputShareShape P 0 (.leader meas proofs b0) ∧ Spec.InputShareShape P 1 (.helper seed b1) := by
  subst hs
  have h0 := h 0 s0 rfl
  have h1 := h 1 s1 rfl
  cases s0 with
  | helper a b => exact absurd h0.1 (by simp)
  | leader a b c =>
    cases s1 with
    | leader a b c => exact absurd h1.1 (by simp)
    | helper d e => exact ⟨_, _, _, _, _, rfl, rfl, h0, h1⟩

variable (W : P.WF) (h2 : P.shares = 2) {none' m : Meas} {key nonce rand ctx : Bytes}
  (hctx : ctx.length + 8 < 2 ^ 16) {enc : List F} (he : P.flp.encode m = .ok enc) (hl : enc.length = P.flp.measLen)
include W h2 hctx he hl

theorem countNegative_spec {vs : List (String × TestVec Meas Agg)}
    (h : countNegative P none' m key nonce rand ctx = .ok vs) :
    ∃ pub meas proofs b0 seed b1 v1 v2 v3 v4,
      P.shard ctx m nonce rand = .ok (pub, [.leader meas proofs b0, .helper seed b1]) ∧
      vs = [("bad_meas_share", v1), ("bad_wire_seed", v2), ("bad_gadget_poly", v3), ("bad_helper_seed", v4)] ∧
      Spec.NegativeFirst P v1 key ctx nonce rand pub (.leader (Spec.incremented 0 meas) proofs b0) (.helper seed b1) ∧
      Spec.NegativeFirst P v2 key ctx nonce rand pub (.leader meas (Spec.incremented 0 proofs) b0) (.helper seed b1) ∧
      Spec.NegativeFirst P v3 key ctx nonce rand pub
        (.leader meas (Spec.incremented (proofs.length - 1) proofs) b0) (.helper seed b1) ∧
      Spec.NegativeFirst P v4 key ctx nonce rand pub (.leader meas proofs b0) (.helper (Spec.flipped seed) b1) := by
  unfold countNegative at h
  rw [Except.bind_eq_ok] at h; obtain ⟨⟨pub, s0, s1⟩, k0, h⟩ := h
  dsimp only at h
  rw [unpackTwo_ok] at k0
  dsimp only at k0
  obtain ⟨hp, -, hsh⟩ := Prio3.shard_shape W hctx he hl k0
  obtain ⟨meas, proofs, b0, seed, b1, rfl, rfl, z0, z1⟩ := shares_of_shape rfl hsh
  rw [Except.bind_eq_ok] at h; obtain ⟨bad1, k1, h⟩ := h
  rw [Except.bind_eq_ok] at h; obtain ⟨v1, j1, h⟩ := h
  rw [Except.bind_eq_ok] at h; obtain ⟨bad2, k2, h⟩ := h
  rw [Except.bind_eq_ok] at h; obtain ⟨v2, j2, h⟩ := h
  rw [Except.bind_eq_ok] at h; obtain ⟨bad3, k3, h⟩ := h
  rw [Except.bind_eq_ok] at h; obtain ⟨v3, j3, h⟩ := h
  rw [Except.bind_eq_ok] at h; obtain ⟨bad4, k4, h⟩ := h
  rw [Except.bind_eq_ok] at h; obtain ⟨v4, j4, h⟩ := h
  have h := (Except.ok.inj h).symm
  unfold modifyLeader at k1 k2 k3
  unfold modifyHelper at k4
  dsimp only [Except.ok_bind'] at k1 k2 k3 k4
  rw [Except.bind_eq_ok] at k1; obtain ⟨x1, i1, k1⟩ := k1
  obtain ⟨-, rfl⟩ := addOne_eq.1 i1
  rw [Except.bind_eq_ok] at k2; obtain ⟨x2, i2, k2⟩ := k2
  obtain ⟨-, rfl⟩ := addOne_eq.1 i2
  rw [Except.bind_eq_ok] at k3; obtain ⟨x3, i3, k3⟩ := k3
  unfold addOneLast at i3
  split at i3
  · cases i3
  obtain ⟨-, rfl⟩ := addOne_eq.1 i3
  rw [Except.bind_eq_ok] at k4; obtain ⟨x4, i4, k4⟩ := k4
  obtain ⟨-, rfl⟩ := flipBit_eq.1 i4
  cases k1; cases k2; cases k3; cases k4
  refine ⟨pub, meas, proofs, b0, seed, b1, v1, v2, v3, v4, k0, h, messageFailure_spec W hp ?_ z1 h2 j1,
    messageFailure_spec W hp ?_ z1 h2 j2, messageFailure_spec W hp ?_ z1 h2 j3, messageFailure_spec W hp z0 ?_ h2 j4⟩
  · exact ⟨z0.1, (List.length_modify ..).trans z0.2.1, z0.2.2.1, z0.2.2.2⟩
  · exact ⟨z0.1, z0.2.1, (List.length_modify ..).trans z0.2.2.1, z0.2.2.2⟩
  · exact ⟨z0.1, z0.2.1, (List.length_modify ..).trans z0.2.2.1, z0.2.2.2⟩
  · exact ⟨z1.1, (List.length_modify ..).trans z1.2.1, z1.2.2⟩

theorem jointRandNegative_spec {vs : List (String × TestVec Meas Agg)}
    (h : jointRandNegative P none' m key nonce rand ctx = .ok vs) :
    ∃ parts meas proofs b0 seed b1 v1 v2 v3 v4,
      P.shard ctx m nonce rand = .ok (some parts, [.leader meas proofs (some b0), .helper seed (some b1)]) ∧
      vs = [("bad_leader_jr_blind", v1), ("bad_helper_jr_blind", v2), ("bad_public_share", v3),
        ("bad_verifier_message", v4)] ∧
      Spec.NegativeFirst P v1 key ctx nonce rand (some parts) (.leader meas proofs (some (Spec.flipped b0)))
        (.helper seed (some b1)) ∧
      Spec.NegativeFirst P v2 key ctx nonce rand (some parts) (.leader meas proofs (some b0))
        (.helper seed (some (Spec.flipped b1))) ∧
      Spec.NegativeFirst P v3 key ctx nonce rand (some (parts.modify 0 Spec.flipped)) (.leader meas proofs (some b0))
        (.helper seed (some b1)) ∧
      Spec.NegativeMessage P v4 key ctx nonce rand (some parts) (.leader meas proofs (some b0)) (.helper seed (some b1))
        (List.replicate 32 0) := by
  unfold jointRandNegative at h
  rw [Except.bind_eq_ok] at h; obtain ⟨⟨pub, s0, s1⟩, k0, h⟩ := h
  dsimp only at h
  rw [unpackTwo_ok] at k0
  dsimp only at k0
  obtain ⟨hp, -, hsh⟩ := Prio3.shard_shape W hctx he hl k0
  obtain ⟨meas, proofs, b0, seed, b1, rfl, rfl, z0, z1⟩ := shares_of_shape rfl hsh
  rw [Except.bind_eq_ok] at h; obtain ⟨bad1, k1, h⟩ := h
  rw [Except.bind_eq_ok] at h; obtain ⟨v1, j1, h⟩ := h
  rw [Except.bind_eq_ok] at h; obtain ⟨bad2, k2, h⟩ := h
  rw [Except.bind_eq_ok] at h; obtain ⟨v2, j2, h⟩ := h
  cases pub with
  | none => cases h
  | some parts =>
  dsimp only at h
  rw [Except.bind_eq_ok] at h; obtain ⟨part, k3, h⟩ := h
  rw [Except.bind_eq_ok] at h; obtain ⟨part', k4, h⟩ := h
  rw [Except.bind_eq_ok] at h; obtain ⟨parts', k5, h⟩ := h
  rw [Except.bind_eq_ok] at h; obtain ⟨v3, j3, h⟩ := h
  rw [Except.bind_eq_ok] at h; obtain ⟨v4, j4, h⟩ := h
  have h := (Except.ok.inj h).symm
  unfold modifyLeader at k1
  unfold modifyHelper at k2
  dsimp only [Except.ok_bind'] at k1 k2
  rw [Except.bind_eq_ok] at k1; obtain ⟨x1, i1, k1⟩ := k1
  rw [Except.bind_eq_ok] at k2; obtain ⟨x2, i2, k2⟩ := k2
  unfold flipBlind at i1 i2
  cases b0 with
  | none => cases i1
  | some b0 =>
  cases b1 with
  | none => cases i2
  | some b1 =>
  dsimp only at i1 i2
  rw [Except.bind_eq_ok] at i1; obtain ⟨y1, i1, i1'⟩ := i1
  rw [Except.bind_eq_ok] at i2; obtain ⟨y2, i2, i2'⟩ := i2
  obtain ⟨-, rfl⟩ := flipBit_eq.1 i1
  obtain ⟨-, rfl⟩ := flipBit_eq.1 i2
  cases i1'; cases i2'; cases k1; cases k2
  rw [getI_eq_ok] at k3
  obtain ⟨hi, rfl⟩ := List.getElem?_eq_some_iff.1 k3
  obtain ⟨-, rfl⟩ := flipBit_eq.1 k4
  obtain ⟨-, rfl⟩ := setI_eq_ok.1 k5
  rw [← modify_eq_set_getElem hi Spec.flipped] at j3
  refine ⟨parts, meas, proofs, b0, seed, b1, v1, v2, v3, v4, k0, h, messageFailure_spec W hp ?_ z1 h2 j1,
    messageFailure_spec W hp z0 ?_ h2 j2, messageFailure_spec W ?_ z0 z1 h2 j3, badVerifierMessage_spec hp z0 z1 h2 j4⟩
  · exact ⟨z0.1, z0.2.1, z0.2.2.1, z0.2.2.2.1, (List.length_modify ..).trans z0.2.2.2.2⟩
  · exact ⟨z1.1, z1.2.1, z1.2.2.1, (List.length_modify ..).trans z1.2.2.2⟩
  · refine ⟨hp.1, (List.length_modify ..).trans hp.2.1, fun p hp' => ?_⟩
    rw [modify_eq_set_getElem hi] at hp'
    rcases List.mem_or_eq_of_mem_set hp' with h | rfl
    · exact hp.2.2 p h
    · exact (List.length_modify ..).trans (hp.2.2 _ (List.getElem_mem _))
end

/-! ### Poplar1 -/

theorem corrInnerNegative_spec {prims : Prims} {fuel : ℕ} (hf : fuel < 2 ^ 120) {P : Poplar1} (hb : 0 < P.idpf.bits)
    (hv : P.idpf.valueLen = 2) {none' alpha : List Bool} {a : Poplar1AggParam} {key nonce rand ctx : Bytes}
    (hc : ctx.length + 8 < 2 ^ 16) (ha : alpha.length = P.idpf.bits) (hap : Spec.WellFormed a)
    {tv : TestVec (List Bool) (List ℕ)}
    (h : corrInnerNegative prims fuel P none' alpha a key nonce rand ctx = .ok tv) :
    ∃ pub s0 s1, P.shard prims fuel ctx alpha nonce rand = .ok (pub, [s0, s1]) ∧
      Spec.NegativeSecond prims fuel P tv key ctx a nonce rand pub
        { s0 with corrInner := Spec.incremented 0 s0.corrInner } s1 := by
  unfold corrInnerNegative at h
  dsimp only at h
  rw [Except.bind_eq_ok] at h; obtain ⟨⟨pub, s0, s1⟩, k0, h⟩ := h
  rw [unpackTwo_ok] at k0
  dsimp only at k0 h
  rw [Except.bind_eq_ok] at h; obtain ⟨corr, k1, h⟩ := h
  obtain ⟨-, rfl⟩ := addOne_eq.1 k1
  rw [Except.bind_eq_ok] at h; obtain ⟨⟨st0, sh0⟩, k2, h⟩ := h
  dsimp only at h
  rw [Except.bind_eq_ok] at h; obtain ⟨⟨st1, sh1⟩, k3, h⟩ := h
  dsimp only at h
  rw [Except.bind_eq_ok] at h; obtain ⟨msg, k4, h⟩ := h
  rw [Except.bind_eq_ok] at h; obtain ⟨⟨st0', sh0'⟩, k5, h⟩ := h
  dsimp only at h
  rw [Except.bind_eq_ok] at h; obtain ⟨⟨st1', sh1'⟩, k6, h⟩ := h
  dsimp only at h
  rw [Except.bind_eq_ok] at h; obtain ⟨_, k7, h⟩ := h
  obtain ⟨e, k7⟩ := expectValueError_ok.1 k7
  rw [Except.bind_eq_ok] at h; obtain ⟨ap, e1, h⟩ := h
  rw [Except.bind_eq_ok] at h; obtain ⟨pubB, e2, h⟩ := h
  rw [Except.bind_eq_ok] at h; obtain ⟨in0, e3, h⟩ := h
  rw [Except.bind_eq_ok] at h; obtain ⟨in1, e4, h⟩ := h
  rw [Except.bind_eq_ok] at h; obtain ⟨v0, e5, h⟩ := h
  rw [Except.bind_eq_ok] at h; obtain ⟨v1, e6, h⟩ := h
  rw [Except.bind_eq_ok] at h; obtain ⟨v0', e7, h⟩ := h
  rw [Except.bind_eq_ok] at h; obtain ⟨v1', e8, h⟩ := h
  rw [Except.bind_eq_ok] at h; obtain ⟨m, e9, h⟩ := h
  have h := (Except.ok.inj h).symm
  refine ⟨pub, s0, s1, k0, ?_⟩
  obtain ⟨hp, hs⟩ := Poplar1.shard_shape hf hb hv hc ha k0
  have hs0 := hs s0 (by simp)
  have hs1 := hs s1 (by simp)
  have n0 : (P.vdaf prims fuel).verifyNext ctx st0 msg = .ok (.cont st0' sh0') := by
    unfold VdafImpl.verifyNextTuple at k5
    rw [Except.bind_eq_ok] at k5
    obtain ⟨x, k5, k5'⟩ := k5
    split at k5' <;> cases k5'
    exact k5
  have n1 : (P.vdaf prims fuel).verifyNext ctx st1 msg = .ok (.cont st1' sh1') := by
    unfold VdafImpl.verifyNextTuple at k6
    rw [Except.bind_eq_ok] at k6
    obtain ⟨x, k6, k6'⟩ := k6
    split at k6' <;> cases k6'
    exact k6
  have held0 : Spec.Held (P.vdaf prims fuel) key ctx a nonce pub 0 _ 0 st0 sh0 := .init k2
  have held1 : Spec.Held (P.vdaf prims fuel) key ctx a nonce pub 1 _ 0 st1 sh1 := .init k3
  have held0' : Spec.Held (P.vdaf prims fuel) key ctx a nonce pub 0 _ 1 st0' sh0' := .next held0 n0
  have held1' : Spec.Held (P.vdaf prims fuel) key ctx a nonce pub 1 _ 1 st1' sh1' := .next held1 n1
  have da : (P.vdaf prims fuel).decodeAggParam ap = .ok a := Poplar1.decodeAggParam_iff.2 ⟨hap.2.2, e1⟩
  have dp : (P.vdaf prims fuel).decodePublicShare pubB = .ok pub := (Idpf.decodePublicShare_iff hb).2 ⟨hp, e2⟩
  have d0 : (P.vdaf prims fuel).decodeInputShare 0 in0 = .ok { s0 with corrInner := Spec.incremented 0 s0.corrInner } :=
    (Poplar1.decodeInputShare_iff (aggId := 0)).2
      ⟨⟨hs0.1, hs0.2.1, (List.length_modify ..).trans hs0.2.2.1, hs0.2.2.2⟩, e3⟩
  have d1 : (P.vdaf prims fuel).decodeInputShare 1 in1 = .ok s1 := (Poplar1.decodeInputShare_iff (aggId := 1)).2 ⟨hs1, e4⟩
  have dsh : ∀ {j s k st sh b}, Spec.Held (P.vdaf prims fuel) key ctx a nonce pub j s k st sh →
      (P.vdaf prims fuel).encodeVerifierShare sh = .ok b → (P.vdaf prims fuel).decodeVerifierShare st b = .ok sh := by
    intro j s k st sh b hh hb'
    obtain ⟨h1, h2, h3, -⟩ := Poplar1.held_shape hh
    refine Poplar1.decodeAtLevel_iff.2 ⟨?_, hb'⟩
    rw [h1]
    exact h3
  have dm : ∀ {j s st sh}, Spec.Held (P.vdaf prims fuel) key ctx a nonce pub j s 0 st sh →
      (P.vdaf prims fuel).decodeVerifierMessage st m = .ok msg := by
    intro j s st sh hh
    refine Poplar1.decodeVerifierMessage_iff.2 ⟨?_, e9⟩
    rw [(Poplar1.held_shape hh).1]
    refine Poplar1.sharesToMessage_shape (ctx := ctx) (a := a) (shs := [sh0, sh1]) (κ := P.idpf.currentField a.1) ?_ k4
    intro v hv
    rcases List.mem_cons.1 hv with rfl | hv
    · exact (Poplar1.held_shape held0).2.2.1
    · rw [List.mem_singleton] at hv
      subst hv
      exact (Poplar1.held_shape held1).2.2.1
  have hargs : Spec.OneReport (P.vdaf prims fuel) tv key ctx a nonce rand pub
      { s0 with corrInner := Spec.incremented 0 s0.corrInner } s1 := by
    rw [h]
    refine ⟨rfl, _, rfl, fromHex_hex _, rfl, ⟨fromHex_hex _, fromHex_hex _, ⟨_, fromHex_hex _, da⟩, fromHex_hex _,
      ⟨_, fromHex_hex _, dp⟩, _, ⟨_, rfl, fromHex_hex _⟩, d0⟩, ⟨fromHex_hex _, fromHex_hex _, ⟨_, fromHex_hex _, da⟩,
      fromHex_hex _, ⟨_, fromHex_hex _, dp⟩, _, ⟨_, rfl, fromHex_hex _⟩, d1⟩⟩
  refine ⟨hargs, by rw [h], ⟨_, _, _, _, _, _, _, _, _, _, k2, k3, k4, n0, n1, k7⟩, ?_⟩
  have hsh : (P.vdaf prims fuel).shares = 2 := rfl
  unfold checkTestVector
  rw [h]
  dsimp only
  rw [forFold_cons, check_init (V := P.vdaf prims fuel) (st := st0) (sh := sh0) _ (show 0 < 2 by omega) rfl rfl rfl rfl
      rfl rfl rfl rfl rfl da dp d0 k2 e5, Except.ok_bind',
    forFold_cons, check_init (V := P.vdaf prims fuel) (st := st1) (sh := sh1) _ (show 1 < 2 by omega) rfl rfl rfl rfl
      rfl rfl rfl rfl rfl da dp d1 k3 e6, Except.ok_bind',
    forFold_cons, check_message_ok (V := P.vdaf prims fuel) (st0 := st0) (st1 := st1) (msg := msg) _ hsh rfl rfl rfl rfl rfl
      rfl da (dsh held0 e5) (dsh held1 e6) k4 e9 rfl, Except.ok_bind',
    forFold_cons, check_next (V := P.vdaf prims fuel) (k := 0) (j := 0) (st := st0) _ (show 0 < 2 by omega)
      (show 1 < 2 by omega) rfl rfl rfl rfl rfl rfl (dm held0) k5 e7, Except.ok_bind',
    forFold_cons, check_next (V := P.vdaf prims fuel) (k := 0) (j := 1) (st := st1) _ (show 1 < 2 by omega)
      (show 1 < 2 by omega) rfl rfl rfl rfl rfl rfl (dm held1) k6 e8, Except.ok_bind',
    forFold_cons, check_message (V := P.vdaf prims fuel) (k := 1) (st0 := st0') (st1 := st1') _ hsh rfl rfl rfl rfl rfl
      rfl da (dsh held0' e7) (dsh held1' e8) k7 (by simp)]
  rfl

end Vdaf.TestVectors
