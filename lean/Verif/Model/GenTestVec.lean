import Verif.Model.TestVectors
import Verif.Model.Constructors

/-!
# Model of `poc/gen_test_vec.py`: the negative test vectors and the vectors of the IDPF and the XOFs

`gen_prio3_negative_test_vec` and `gen_poplar1_negative_test_vec` shard one measurement, tamper with the report, check that
the verification of the report fails with `ValueError`, and write a test vector of the failed execution.

Simplifications: the vectors are returned, in the order in which they are written; printing, writing the files and
the type parameters (`test_vec_set_type_param`) are not modelled.  The entry `measurement` of the reports is `None` in
Python.  Here it is a value `none'` given by the caller; the vectors have no operation `shard`, so no one reads it.
A negative vector fixes the parameters of the VDAF, the measurement and the random bytes, here they are arguments of
`countNegative`, `jointRandNegative`, `badVerifierMessage` and `corrInnerNegative`; `genPrio3Negative` and
`genPoplar1Negative` pass the values of the code.
-/

namespace Vdaf.TestVectors

/-- `try: f() except ValueError: pass else: raise Exception(msg)` (gen_test_vec.py:282-287, 384-390, 510-522).  The
exception is modelled by the constructor `assertion`. -/
def expectValueError {α : Type} (r : Res α) (msg : String) : Res Unit :=
  match r with
  | .ok _ => .error (.assertion msg)
  | .error (.value _) => .ok ()
  | .error e => .error e

/-- `l = list(l); l[i] += F(1)` (gen_test_vec.py:128, 149, 473) -/
def addOne {F : Type} [Add F] [One F] (l : List F) (i : Nat) : Res (List F) := do
  let x ← getI l i
  setI l i (x + 1)

/-- `l = list(l); l[-1] += F(1)` (gen_test_vec.py:170) -/
def addOneLast {F : Type} [Add F] [One F] (l : List F) : Res (List F) :=
  if l.length = 0 then .error .index else addOne l (l.length - 1)

/-- `b = bytearray(b); b[0] ^= 1` (gen_test_vec.py:188-189, 216-217, 235-236, 255-257) -/
def flipBit (b : Bytes) : Res Bytes := do
  let x ← getI b 0
  setI b 0 (x ^^^ 1)

/-- `bytearray(b)` for a blind raises `TypeError` if it is `None`. -/
def flipBlind (blind : Option Bytes) : Res (Option Bytes) :=
  match blind with
  | none => .error .type
  | some b => do
    let b ← flipBit b
    return some b

section
variable {X : Xof} {F : Type} [NttField F] {Meas Agg : Type} (P : Prio3 X F Meas Agg)

/-! ## Prio3 -/

/-- gen_test_vec.py:124-131, 146-151, 167-172 and 215-219: replace entry 0 (the measurement share), entry 1 (the
proofs share) or entry 2 (the blind) of the leader's input share.  The input share of Aggregator 0 is always that of a
leader. -/
def modifyLeader (s : Prio3InputShare F) (m p : List F → Res (List F)) (b : Option Bytes → Res (Option Bytes)) :
    Res (Prio3InputShare F) :=
  match s with
  | .leader meas proofs blind => do
    let meas ← m meas
    let proofs ← p proofs
    let blind ← b blind
    return .leader meas proofs blind
  | .helper .. => .error .type

/-- gen_test_vec.py:187-191 and 234-238: replace entry 0 (the seed) or entry 1 (the blind) of the helper's input share. -/
def modifyHelper (s : Prio3InputShare F) (f : Bytes → Res Bytes) (b : Option Bytes → Res (Option Bytes)) :
    Res (Prio3InputShare F) :=
  match s with
  | .helper seed blind => do
    let seed ← f seed
    let blind ← b blind
    return .helper seed blind
  | .leader .. => .error .type

/-- gen_test_vec.py:350-448 `_prio3_verifier_shares_to_message_failure` -/
def messageFailure (none' : Meas) (verifyKey nonce rand ctx : Bytes) (publicShare : Option (List Bytes))
    (inputShare0 inputShare1 : Prio3InputShare F) : Res (TestVec Meas Agg) := do
  let (_, share0) ← P.verifyInit verifyKey ctx 0 () nonce publicShare inputShare0
  let (_, share1) ← P.verifyInit verifyKey ctx 1 () nonce publicShare inputShare1
  expectValueError (P.sharesToMessage ctx () [share0, share1]) "verifier_shares_to_message should fail"
  let pub ← Prio3.encodePublicShare publicShare
  let in0 ← P.encodeInputShare inputShare0
  let in1 ← P.encodeInputShare inputShare1
  let v0 ← P.encodeVerifierShare share0
  let v1 ← P.encodeVerifierShare share1
  return {
    operations := [.verifyInit 0 0 true, .verifyInit 1 0 true, .sharesToMessage 0 0 false]
    shares := 2
    verifyKey := hex verifyKey
    aggParam := []
    ctx := hex ctx
    reports := [{
      measurement := none', rand := hex rand, nonce := hex nonce, publicShare := hex pub
      inputShares := [hex in0, hex in1], verifierShares := [[hex v0, hex v1]], verifierMessages := [], outShares := [] }]
    aggShares := []
    aggResult := none }

/-- gen_test_vec.py:271-347, the last part of `gen_prio3_negative_test_vec`: the verifier message is replaced by zeros. -/
def badVerifierMessage (none' : Meas) (verifyKey nonce rand ctx : Bytes) (publicShare : Option (List Bytes))
    (inputShare0 inputShare1 : Prio3InputShare F) : Res (TestVec Meas Agg) := do
  let (state0, share0) ← P.verifyInit verifyKey ctx 0 () nonce publicShare inputShare0
  let msg := zeros X.seedSize
  expectValueError (Prio3.verifyNext ctx state0 (some msg)) "pep_next should fail"
  let pub ← Prio3.encodePublicShare publicShare
  let in0 ← P.encodeInputShare inputShare0
  let in1 ← P.encodeInputShare inputShare1
  let v0 ← P.encodeVerifierShare share0
  return {
    operations := [.verifyInit 0 0 true, .verifyNext 1 0 0 false]
    shares := 2
    verifyKey := hex verifyKey
    aggParam := []
    ctx := hex ctx
    reports := [{
      measurement := none', rand := hex rand, nonce := hex nonce, publicShare := hex pub
      inputShares := [hex in0, hex in1], verifierShares := [[hex v0]], verifierMessages := [hex msg], outShares := [] }]
    aggShares := []
    aggResult := none }

/-- `public_share, [input_share_0, input_share_1] = vdaf.shard(...)`, which raises `ValueError` if there are not exactly two
input shares (gen_test_vec.py:115-120, 207-212, 460-465) -/
def unpackTwo {PubShare InShare : Type} (r : Res (PubShare × List InShare)) : Res (PubShare × InShare × InShare) := do
  match ← r with
  | (pub, [s0, s1]) => return (pub, s0, s1)
  | _ => .error (.value "unpack")

/-- gen_test_vec.py:115-203, the first part of `gen_prio3_negative_test_vec`, with the names of the vectors -/
def countNegative (none' measurement : Meas) (verifyKey nonce rand ctx : Bytes) :
    Res (List (String × TestVec Meas Agg)) := do
  let (pub, s0, s1) ← unpackTwo (P.shard ctx measurement nonce rand)
  let bad ← modifyLeader s0 (addOne · 0) .ok .ok
  let v1 ← messageFailure P none' verifyKey nonce rand ctx pub bad s1
  let bad ← modifyLeader s0 .ok (addOne · 0) .ok
  let v2 ← messageFailure P none' verifyKey nonce rand ctx pub bad s1
  let bad ← modifyLeader s0 .ok addOneLast .ok
  let v3 ← messageFailure P none' verifyKey nonce rand ctx pub bad s1
  let bad ← modifyHelper s1 flipBit .ok
  let v4 ← messageFailure P none' verifyKey nonce rand ctx pub s0 bad
  return [("bad_meas_share", v1), ("bad_wire_seed", v2), ("bad_gadget_poly", v3), ("bad_helper_seed", v4)]

/-- gen_test_vec.py:205-347, the second part of `gen_prio3_negative_test_vec` -/
def jointRandNegative (none' measurement : Meas) (verifyKey nonce rand ctx : Bytes) :
    Res (List (String × TestVec Meas Agg)) := do
  let (pub, s0, s1) ← unpackTwo (P.shard ctx measurement nonce rand)
  let bad ← modifyLeader s0 .ok .ok flipBlind
  let v1 ← messageFailure P none' verifyKey nonce rand ctx pub bad s1
  let bad ← modifyHelper s1 .ok flipBlind
  let v2 ← messageFailure P none' verifyKey nonce rand ctx pub s0 bad
  match pub with
  | none => .error (.assertion "public_share is not None")
  | some parts => do
    let part ← getI parts 0
    let part ← flipBit part
    let bad ← setI parts 0 part
    let v3 ← messageFailure P none' verifyKey nonce rand ctx (some bad) s0 s1
    let v4 ← badVerifierMessage P none' verifyKey nonce rand ctx pub s0 s1
    return [("bad_leader_jr_blind", v1), ("bad_helper_jr_blind", v2), ("bad_public_share", v3),
      ("bad_verifier_message", v4)]
end

/-- gen_test_vec.py:107-347 `gen_prio3_negative_test_vec`: the vectors of `Prio3Count(2)` for the measurement `True` and
those of `Prio3Histogram(2, 5, 2)` for the measurement `3`. -/
def genPrio3Negative (prims : Prims) (fuel : Nat) (ctx : Bytes) :
    Res (List (String × TestVec Int Nat) × List (String × TestVec Int (List Nat))) := do
  let count ← Prio3Count prims fuel 2
  let nonce := testVecGenRand Prio3.NONCE_SIZE
  let verifyKey := testVecGenRand (XofTurboShake128 prims fuel).seedSize
  let c ← countNegative count 0 1 verifyKey nonce (testVecGenRand count.randSize) ctx
  let histogram ← Prio3Histogram prims fuel 2 5 2
  let h ← jointRandNegative histogram 0 3 verifyKey nonce (testVecGenRand histogram.randSize) ctx
  return (c, h)

/-! ## Poplar1 -/

/-- gen_test_vec.py:456-610 `gen_poplar1_negative_test_vec`, with the parameters given by the caller.  The Python code does
not check that `verify_next` returns a state and a verifier share before the last round, but fails to unpack an output
share of another length than two (and would encode the wrong thing for an output share of length two): as for
`gen_test_vec_for_vdaf`, the model raises. -/
def corrInnerNegative (prims : Prims) (fuel : Nat) (P : Poplar1) (none' measurement : List Bool)
    (aggParam : Poplar1AggParam) (verifyKey nonce rand ctx : Bytes) : Res (TestVec (List Bool) (List Nat)) := do
  let V := P.vdaf prims fuel
  let (pub, s0, s1) ← unpackTwo (P.shard prims fuel ctx measurement nonce rand)
  let corr ← addOne s0.corrInner 0
  let bad := { s0 with corrInner := corr }
  let (st0, sh0) ← V.verifyInit verifyKey ctx 0 aggParam nonce pub bad
  let (st1, sh1) ← V.verifyInit verifyKey ctx 1 aggParam nonce pub s1
  let msg ← V.sharesToMessage ctx aggParam [sh0, sh1]
  let (_, sh0') ← V.verifyNextTuple ctx st0 msg
  let (_, sh1') ← V.verifyNextTuple ctx st1 msg
  expectValueError (V.sharesToMessage ctx aggParam [sh0', sh1']) "verifier_shares_to_message should fail"
  let ap ← V.encodeAggParam aggParam
  let pubB ← V.encodePublicShare pub
  let in0 ← V.encodeInputShare bad
  let in1 ← V.encodeInputShare s1
  let v0 ← V.encodeVerifierShare sh0
  let v1 ← V.encodeVerifierShare sh1
  let v0' ← V.encodeVerifierShare sh0'
  let v1' ← V.encodeVerifierShare sh1'
  let m ← V.encodeVerifierMessage msg
  return {
    operations := [.verifyInit 0 0 true, .verifyInit 1 0 true, .sharesToMessage 0 0 true, .verifyNext 1 0 0 true,
      .verifyNext 1 1 0 true, .sharesToMessage 1 0 false]
    shares := 2
    verifyKey := hex verifyKey
    aggParam := hex ap
    ctx := hex ctx
    reports := [{
      measurement := none', rand := hex rand, nonce := hex nonce, publicShare := hex pubB
      inputShares := [hex in0, hex in1], verifierShares := [[hex v0, hex v1], [hex v0', hex v1']]
      verifierMessages := [hex m], outShares := [] }]
    aggShares := []
    aggResult := none }

/-- gen_test_vec.py:451-610 `gen_poplar1_negative_test_vec` -/
def genPoplar1Negative (prims : Prims) (fuel : Nat) (ctx : Bytes) : Res (TestVec (List Bool) (List Nat)) := do
  let P ← Poplar1.init 2
  corrInnerNegative prims fuel P [] [false, true] (0, [[false], [true]]) (testVecGenRand 32) (testVecGenRand 16)
    (testVecGenRand 128) ctx

/-! ## The IDPF and the XOFs -/

/-- The test vector of an IDPF (gen_test_vec.py:49-58).  The field elements are printed in decimal. -/
structure IdpfVec where
  bits : Nat
  alpha : List Bool
  betaInner : List (List Nat)
  betaLeaf : List Nat
  ctx : Hex
  nonce : Hex
  publicShare : Hex
  keys : List Hex
deriving DecidableEq

/-- gen_test_vec.py:25-67 `gen_test_vec_for_idpf` -/
def genIdpfVec (prims : Prims) (fuel : Nat) (I : Idpf) (alpha : List Bool) (ctx : Bytes) : Res IdpfVec := do
  let betaInner ← mapRes (fun (level : Nat) => do
    let x ← ofInt Field64 level
    return List.replicate I.valueLen x) (List.range (I.bits - 1))
  let x ← ofInt Field255 ((I.bits : Int) - 1)
  let betaLeaf := List.replicate I.valueLen x
  let rand := testVecGenRand Idpf.RAND_SIZE
  let nonce := testVecGenRand Idpf.NONCE_SIZE
  let (publicShare, keys) ← I.gen prims fuel alpha betaInner betaLeaf ctx nonce rand
  let pub ← Idpf.encodePublicShare publicShare
  return { bits := I.bits, alpha, betaInner := betaInner.map (·.map PyField.toNat)
           betaLeaf := betaLeaf.map PyField.toNat, ctx := hex ctx, nonce := hex nonce, publicShare := hex pub
           keys := keys.map hex }

/-- The test vector of an XOF (gen_test_vec.py:76-83) -/
structure XofVec where
  seed : Hex
  dst : Hex
  binder : Hex
  length : Nat
  derivedSeed : Hex
  expandedVecField128 : Hex
deriving DecidableEq

/-- gen_test_vec.py:70-104 `gen_test_vec_for_xof` -/
def genXofVec (X : Xof) : Res XofVec := do
  let seed := testVecGenRand X.seedSize
  let dst : Bytes := "domain separation tag".toUTF8.data.toList
  let binder : Bytes := "binder string".toUTF8.data.toList
  let length := 40
  let derived ← X.deriveSeed seed dst binder
  let vec ← X.expandIntoVec Field128 seed dst binder length
  let e ← encodeVec vec
  return { seed := hex seed, dst := hex dst, binder := hex binder, length
           derivedSeed := hex derived, expandedVecField128 := hex e }

end Vdaf.TestVectors
