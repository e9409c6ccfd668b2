import Verif.Model.Prio3
import Verif.Model.Poplar1

/-!
# Model of the test vectors: `poc/vdaf_poc/test_utils.py` and `poc/tests/test_test_vectors.py`

The generator `gen_test_vec_for_vdaf` and the checker `check_test_vector`.  Not modelled: printing, writing and reading
the JSON file (the checker gets the value that the generator returns), and the type parameters added to the file by
`test_vec_set_type_param`.
-/

namespace Vdaf

/-- vdaf.py:239-245 and 262-268, the abstract methods `encode_agg_share`, `decode_agg_share`, `encode_out_share` and
`decode_out_share` of the class `Vdaf`, which only the test vectors use. -/
structure ShareCodec (AggParam OutShare AggShare : Type) where
  encodeAggShare : AggShare → Res Bytes
  /-- `decode_agg_share(agg_param, encoded)` -/
  decodeAggShare : AggParam → Bytes → Res AggShare
  encodeOutShare : OutShare → Res Bytes
  /-- `decode_out_share(agg_param, encoded)` -/
  decodeOutShare : AggParam → Bytes → Res OutShare

/-- vdaf_prio3.py:585-589 and 626-630 -/
def Prio3.shareCodec (F : Type) [NttField F] : ShareCodec Unit (List F) (List F) where
  encodeAggShare := Prio3.encodeAggShare
  decodeAggShare := Prio3.decodeAggShare
  encodeOutShare := Prio3.encodeOutShare
  decodeOutShare := Prio3.decodeOutShare

/-- vdaf_poplar1.py:525-534 and 553-562 -/
def Poplar1.shareCodec (P : Poplar1) : ShareCodec Poplar1AggParam FieldVec FieldVec where
  encodeAggShare := Poplar1.encodeAggShare
  decodeAggShare := P.decodeAggShare
  encodeOutShare := Poplar1.encodeOutShare
  decodeOutShare := P.decodeOutShare

namespace TestVectors

/-- A hexadecimal string. -/
abbrev Hex := List Char

/-- The digits of `bytes.hex()` -/
def hexDigits : List Char :=
  ['0', '1', '2', '3', '4', '5', '6', '7', '8', '9', 'a', 'b', 'c', 'd', 'e', 'f']

/-- `bytes.hex()`: two lower case digits for each byte. -/
def hex : Bytes → Hex
  | [] => []
  | b :: bs => hexDigits.getD (b.toNat / 16) '0' :: hexDigits.getD (b.toNat % 16) '0' :: hex bs

/-- The value of a hexadecimal digit of either case -/
def digitValue (c : Char) : Option Nat :=
  if '0' ≤ c ∧ c ≤ '9' then some (c.toNat - 48)
  else if 'a' ≤ c ∧ c ≤ 'f' then some (c.toNat - 87)
  else if 'A' ≤ c ∧ c ≤ 'F' then some (c.toNat - 55)
  else none

/-- The ASCII white space that `bytes.fromhex` skips between the bytes -/
def isSpace (c : Char) : Bool := c = ' ' ∨ (9 ≤ c.toNat ∧ c.toNat ≤ 13)

/-- `bytes.fromhex(s)` -/
def fromHex : Hex → Res Bytes
  | [] => .ok []
  | [c] => if isSpace c then .ok [] else .error (.value "non-hexadecimal number found in fromhex() arg")
  | c :: d :: rest =>
    if isSpace c then fromHex (d :: rest)
    else
      match digitValue c, digitValue d with
      | some x, some y => do
        let bs ← fromHex rest
        return UInt8.ofNat (16 * x + y) :: bs
      | _, _ => .error (.value "non-hexadecimal number found in fromhex() arg")

/-- test_utils.py:72-111 `VdafTestVectorOperationDict`.  The keys that are present depend on the operation; an operation
with another name, for which the checker raises, cannot be expressed. -/
inductive Operation where
  | shard (reportIndex : Nat) (success : Bool)
  | verifyInit (aggregatorId reportIndex : Nat) (success : Bool)
  | sharesToMessage (round reportIndex : Nat) (success : Bool)
  | verifyNext (round aggregatorId reportIndex : Nat) (success : Bool)
  | aggregate (aggregatorId : Nat) (success : Bool)
  | unshard (success : Bool)
deriving DecidableEq, Repr

/-- test_utils.py:114-147 `VdafReportTestVectorDict` -/
structure Report (Meas : Type) where
  measurement : Meas
  nonce : Hex
  rand : Hex
  publicShare : Hex
  inputShares : List Hex
  /-- indexed by the round, then by the aggregator ID -/
  verifierShares : List (List Hex)
  verifierMessages : List Hex
  outShares : List Hex
deriving DecidableEq

/-- test_utils.py:150-194 `VdafTestVectorDict`.  `agg_result` is `None` only while the vector is being generated (it may
also be absent in negative test vectors, which have no operation that reads it). -/
structure TestVec (Meas AggRes : Type) where
  operations : List Operation
  shares : Nat
  verifyKey : Hex
  aggParam : Hex
  ctx : Hex
  reports : List (Report Meas)
  aggShares : List Hex
  aggResult : Option AggRes
deriving DecidableEq

/-- test_utils.py:28-35 `test_vec_gen_rand` -/
def testVecGenRand (length : Nat) : Bytes := (List.range length).map fun i => UInt8.ofNat (i % 256)

section
variable {Meas AggParam PubShare InShare OutShare AggShare AggRes VState VShare VMsg : Type}
variable (V : VdafImpl Meas AggParam PubShare InShare OutShare AggShare AggRes VState VShare VMsg)
variable (C : ShareCodec AggParam OutShare AggShare)

/-! ## The generator -/

/-- The local variables `verify_states` and `outbound_verifier_shares` of `gen_test_vec_for_vdaf`, the entries
`verifier_shares` and `verifier_messages` of the report and the operations that were appended for the report -/
structure GenState (VState VShare : Type) where
  states : List VState
  shares : List VShare
  rows : List (List Hex)
  messages : List Hex
  ops : List Operation

/-- test_utils.py:271-290, the initialization of verification: all the Aggregators call `verify_init`, then their
verifier shares are encoded.  `report_test_vec['verifier_shares'][0]` does not exist if `ROUNDS` is 0. -/
def genInit (verifyKey ctx : Bytes) (aggParam : AggParam) (reportIndex : Nat) (nonce : Bytes) (publicShare : PubShare)
    (inputShares : List InShare) : Res (GenState VState VShare) := do
  let outs ← mapRes (fun j => do
    let inputShare ← getI inputShares j
    V.verifyInit verifyKey ctx j aggParam nonce publicShare inputShare) (List.range V.shares)
  let row ← mapRes (fun share => do
    if V.rounds = 0 then .error .index
    let b ← V.encodeVerifierShare share
    return hex b) (outs.map Prod.snd)
  return { states := outs.map Prod.fst, shares := outs.map Prod.snd, rows := [row], messages := []
           ops := (List.range V.shares).map fun j => .verifyInit j reportIndex true }

/-- test_utils.py:294-321, round `i` of the first `ROUNDS - 1` rounds.  `verify_states[j]` is read and written only in
iteration `j` of the loop over the Aggregators.  The rows `verifier_shares[i + 1]` of the report, which all exist from
the beginning in Python, are added when they are filled. -/
def genRound (ctx : Bytes) (aggParam : AggParam) (reportIndex : Nat) (s : GenState VState VShare) (i : Nat) :
    Res (GenState VState VShare) := do
  let msg ← V.sharesToMessage ctx aggParam s.shares
  let m ← V.encodeVerifierMessage msg
  let outs ← mapRes (fun j => do
    let state ← getI s.states j
    let (state, share) ← V.verifyNextTuple ctx state msg
    let b ← V.encodeVerifierShare share
    return (state, share, hex b)) (List.range V.shares)
  return { states := outs.map (·.1), shares := outs.map (·.2.1), rows := s.rows ++ [outs.map (·.2.2)]
           messages := s.messages ++ [hex m]
           ops := s.ops ++ .sharesToMessage i reportIndex true ::
             (List.range V.shares).map fun j => .verifyNext (i + 1) j reportIndex true }

/-- test_utils.py:242-353, the body of the loop over the measurements: the entry of the report, the operations appended
for it and the output shares of the Aggregators. -/
def genReport (verifyKey ctx : Bytes) (aggParam : AggParam) (reportIndex : Nat) (report : Meas × Bytes × Bytes) :
    Res (Report Meas × List Operation × List OutShare) := do
  let (measurement, nonce, rand) := report
  pyAssert (nonce.length = V.nonceSize)
  let (publicShare, inputShares) ← V.shard ctx measurement nonce rand
  let pub ← V.encodePublicShare publicShare
  let ins ← mapRes (fun inputShare => do
    let b ← V.encodeInputShare inputShare
    return hex b) inputShares
  let s ← genInit V verifyKey ctx aggParam reportIndex nonce publicShare inputShares
  let s ← forFold (List.range (V.rounds - 1)) s fun s i => genRound V ctx aggParam reportIndex s i
  let msg ← V.sharesToMessage ctx aggParam s.shares
  let m ← V.encodeVerifierMessage msg
  let outs ← mapRes (fun j => do
    let state ← getI s.states j
    let outShare ← V.verifyNextOut ctx state msg
    let b ← C.encodeOutShare outShare
    return (outShare, hex b)) (List.range V.shares)
  return ({ measurement, nonce := hex nonce, rand := hex rand, publicShare := hex pub, inputShares := ins
            verifierShares := s.rows, verifierMessages := s.messages ++ [hex m], outShares := outs.map (·.2) },
          .shard reportIndex true :: s.ops ++ .sharesToMessage (V.rounds - 1) reportIndex true ::
            (List.range V.shares).map fun j => .verifyNext V.rounds j reportIndex true,
          outs.map (·.1))

/-- test_utils.py:225-393 `gen_test_vec_for_vdaf`, with the verification key and, for each measurement, the nonce and the
random bytes given by the caller. -/
def genTestVecWith (verifyKey : Bytes) (aggParam : AggParam) (ctx : Bytes) (reports : List (Meas × Bytes × Bytes)) :
    Res (TestVec Meas AggRes) := do
  let ap ← V.encodeAggParam aggParam
  let reps ← mapRes (fun (report, reportIndex) => genReport V C verifyKey ctx aggParam reportIndex report)
    reports.zipIdx
  let aggs ← mapRes (fun j => do
    let own ← mapRes (fun out => getI out j) (reps.map (·.2.2))
    let a ← V.aggInit aggParam
    let a ← forFold own a fun a o => V.aggUpdate aggParam a o
    let b ← C.encodeAggShare a
    return (a, hex b)) (List.range V.shares)
  let aggResult ← V.unshard aggParam (aggs.map (·.1)) reports.length
  return { operations := (reps.map (·.2.1)).flatten ++
             (List.range V.shares).map (fun j => .aggregate j true) ++ [.unshard true]
           shares := V.shares, verifyKey := hex verifyKey, aggParam := hex ap, ctx := hex ctx
           reports := reps.map (·.1), aggShares := aggs.map (·.2), aggResult := some aggResult }

/-- test_utils.py:197-393 `gen_test_vec_for_vdaf` -/
def genTestVec (aggParam : AggParam) (ctx : Bytes) (measurements : List Meas) : Res (TestVec Meas AggRes) :=
  genTestVecWith V C (testVecGenRand V.verifyKeySize) aggParam ctx
    (measurements.map fun m => (m, testVecGenRand V.nonceSize, testVecGenRand V.randSize))

/-! ## The checker -/

/-- `verify_states` of `check_test_vector` (test_test_vectors.py:44-49): the entries of the dictionaries, by the report
index, the aggregator ID and the round. -/
abbrev States (VState : Type) := Nat → Nat → Nat → Option VState

/-- `verify_states[report_index][aggregator_id][round] = state` -/
def States.put (S : States VState) (reportIndex aggregatorId round : Nat) (state : VState) : States VState :=
  fun r j k => if r = reportIndex ∧ j = aggregatorId ∧ k = round then some state else S r j k

/-- `verify_states[report_index][aggregator_id]`, where the report index is known to be in range, raises `IndexError` if
the aggregator ID is out of range. -/
def checkId (aggregatorId : Nat) : Res Unit :=
  if aggregatorId < V.shares then .ok () else .error .index

/-- `verify_states[report_index][aggregator_id][round]`.  A missing key raises `KeyError`, which is modelled by
the error of a list index out of range. -/
def getState (S : States VState) (reportIndex aggregatorId round : Nat) : Res VState := do
  checkId V aggregatorId
  match S reportIndex aggregatorId round with
  | some state => .ok state
  | none => .error .index

/-- `self.assertRaises(Exception, f)`; a diverging computation is not an exception. -/
def assertRaises {α : Type} (r : Res α) : Res Unit :=
  match r with
  | .ok _ => .error (.assertion "Exception not raised")
  | .error .fuel => .error .fuel
  | .error _ => .ok ()

/-- `self.assertEqual(encoded, expected)` for byte strings -/
def assertBytes (encoded expected : Bytes) : Res Unit := pyAssert (encoded = expected)

/-- test_test_vectors.py:243-279 `check_shard_success` -/
def checkShardSuccess (ctx : Bytes) (measurement : Meas) (nonce rand expectedPublicShare : Bytes)
    (expectedInputShares : List Bytes) : Res Unit := do
  let (publicShare, inputShares) ← V.shard ctx measurement nonce rand
  let encoded ← V.encodePublicShare publicShare
  assertBytes encoded expectedPublicShare
  pyAssert (inputShares.length = expectedInputShares.length)
  forFold (inputShares.zip expectedInputShares) () fun _ (inputShare, expected) => do
    let encoded ← V.encodeInputShare inputShare
    assertBytes encoded expected

/-- test_test_vectors.py:304-343 `check_verify_init_success`; lines 345-383, `check_verify_init_failure`, use the same
decoded arguments. -/
def checkVerifyInitSuccess (verifyKey ctx : Bytes) (aggregatorId : Nat)
    (aggParamBytes nonce publicShareBytes inputShareBytes expectedVerifierShare : Bytes) : Res VState := do
  let aggParam ← V.decodeAggParam aggParamBytes
  let publicShare ← V.decodePublicShare publicShareBytes
  let inputShare ← V.decodeInputShare aggregatorId inputShareBytes
  let (state, share) ← V.verifyInit verifyKey ctx aggregatorId aggParam nonce publicShare inputShare
  let encoded ← V.encodeVerifierShare share
  assertBytes encoded expectedVerifierShare
  return state

/-- test_test_vectors.py:345-383 `check_verify_init_failure` -/
def checkVerifyInitFailure (verifyKey ctx : Bytes) (aggregatorId : Nat)
    (aggParamBytes nonce publicShareBytes inputShareBytes : Bytes) : Res Unit := do
  let aggParam ← V.decodeAggParam aggParamBytes
  let publicShare ← V.decodePublicShare publicShareBytes
  let inputShare ← V.decodeInputShare aggregatorId inputShareBytes
  assertRaises (V.verifyInit verifyKey ctx aggregatorId aggParam nonce publicShare inputShare)

/-- test_test_vectors.py:385-419 `check_verifier_shares_to_message_success` -/
def checkSharesToMessageSuccess (ctx aggParamBytes : Bytes) (verifyStates : List VState)
    (verifierShares : List Bytes) (expectedVerifierMessage : Bytes) : Res Unit := do
  let aggParam ← V.decodeAggParam aggParamBytes
  let shares ← mapRes (fun (state, b) => V.decodeVerifierShare state b) (verifyStates.zip verifierShares)
  let msg ← V.sharesToMessage ctx aggParam shares
  let encoded ← V.encodeVerifierMessage msg
  assertBytes encoded expectedVerifierMessage

/-- test_test_vectors.py:421-454 `check_verifier_shares_to_message_failure` -/
def checkSharesToMessageFailure (ctx aggParamBytes : Bytes) (verifyStates : List VState)
    (verifierShares : List Bytes) : Res Unit := do
  let aggParam ← V.decodeAggParam aggParamBytes
  let shares ← mapRes (fun (state, b) => V.decodeVerifierShare state b) (verifyStates.zip verifierShares)
  assertRaises (V.sharesToMessage ctx aggParam shares)

/-- test_test_vectors.py:456-495 `check_verify_next_success`, called with a round less than `ROUNDS` -/
def checkVerifyNextCont (ctx : Bytes) (verifyState : VState) (verifierMessage expectedVerifierShare : Bytes) :
    Res VState := do
  let msg ← V.decodeVerifierMessage verifyState verifierMessage
  let (state, share) ← V.verifyNextTuple ctx verifyState msg
  let encoded ← V.encodeVerifierShare share
  assertBytes encoded expectedVerifierShare
  return state

/-- test_test_vectors.py:456-495 `check_verify_next_success`, called with a round that is not less than `ROUNDS`.  The
result of `verify_next` is cast to an output share without a check; encoding a tuple of a state and a verifier share as an
output share raises. -/
def checkVerifyNextOut (ctx : Bytes) (verifyState : VState) (verifierMessage expectedOutShare : Bytes) : Res Unit := do
  let msg ← V.decodeVerifierMessage verifyState verifierMessage
  match ← V.verifyNext ctx verifyState msg with
  | .cont _ _ => .error .type
  | .out o => do
    let encoded ← C.encodeOutShare o
    assertBytes encoded expectedOutShare

/-- test_test_vectors.py:497-524 `check_verify_next_failure` -/
def checkVerifyNextFailure (ctx : Bytes) (verifyState : VState) (verifierMessage : Bytes) : Res Unit := do
  let msg ← V.decodeVerifierMessage verifyState verifierMessage
  assertRaises (V.verifyNext ctx verifyState msg)

/-- test_test_vectors.py:526-552 `check_aggregate_success` -/
def checkAggregateSuccess (aggParamBytes : Bytes) (outShares : List Bytes) (expectedAggShare : Bytes) : Res Unit := do
  let aggParam ← V.decodeAggParam aggParamBytes
  let outShares ← mapRes (fun b => C.decodeOutShare aggParam b) outShares
  let a ← V.aggInit aggParam
  let a ← forFold outShares a fun a o => V.aggUpdate aggParam a o
  let encoded ← C.encodeAggShare a
  assertBytes encoded expectedAggShare

/-- test_test_vectors.py:554-582 `check_aggregate_failure` -/
def checkAggregateFailure (aggParamBytes : Bytes) (outShares : List Bytes) : Res Unit := do
  let aggParam ← V.decodeAggParam aggParamBytes
  let outShares ← mapRes (fun b => C.decodeOutShare aggParam b) outShares
  assertRaises (do
    let a ← V.aggInit aggParam
    forFold outShares a fun a o => V.aggUpdate aggParam a o)

/-- test_test_vectors.py:584-608 `check_unshard_success` -/
def checkUnshardSuccess [DecidableEq AggRes] (aggParamBytes : Bytes) (aggShares : List Bytes) (numMeasurements : Nat)
    (expectedAggResult : Option AggRes) : Res Unit := do
  let aggParam ← V.decodeAggParam aggParamBytes
  let aggShares ← mapRes (fun b => C.decodeAggShare aggParam b) aggShares
  let r ← V.unshard aggParam aggShares numMeasurements
  pyAssert (some r = expectedAggResult)

/-- test_test_vectors.py:610-635 `check_unshard_failure` -/
def checkUnshardFailure (aggParamBytes : Bytes) (aggShares : List Bytes) (numMeasurements : Nat) : Res Unit := do
  let aggParam ← V.decodeAggParam aggParamBytes
  let aggShares ← mapRes (fun b => C.decodeAggShare aggParam b) aggShares
  assertRaises (V.unshard aggParam aggShares numMeasurements)

/-- `bytes.fromhex(l[i])` -/
def hexAt (l : List Hex) (i : Nat) : Res Bytes := do
  let h ← getI l i
  fromHex h

/-- test_test_vectors.py:51-241, the body of the loop over the operations. -/
def checkOperation [DecidableEq AggRes] (tv : TestVec Meas AggRes) (S : States VState) (op : Operation) :
    Res (States VState) :=
  match op with
  | .shard reportIndex success => do
    let rep ← getI tv.reports reportIndex
    let ctx ← fromHex tv.ctx
    let nonce ← fromHex rep.nonce
    let rand ← fromHex rep.rand
    if success then do
      let pub ← fromHex rep.publicShare
      let ins ← mapRes fromHex rep.inputShares
      checkShardSuccess V ctx rep.measurement nonce rand pub ins
      return S
    else do
      assertRaises (V.shard ctx rep.measurement nonce rand)
      return S
  | .verifyInit aggregatorId reportIndex success => do
    let rep ← getI tv.reports reportIndex
    let key ← fromHex tv.verifyKey
    let ctx ← fromHex tv.ctx
    let ap ← fromHex tv.aggParam
    let nonce ← fromHex rep.nonce
    let pub ← fromHex rep.publicShare
    let inputShare ← hexAt rep.inputShares aggregatorId
    if success then do
      let row ← getI rep.verifierShares 0
      let expected ← hexAt row aggregatorId
      let state ← checkVerifyInitSuccess V key ctx aggregatorId ap nonce pub inputShare expected
      checkId V aggregatorId
      return S.put reportIndex aggregatorId 0 state
    else do
      checkVerifyInitFailure V key ctx aggregatorId ap nonce pub inputShare
      return S
  | .sharesToMessage round reportIndex success => do
    let rep ← getI tv.reports reportIndex
    let ctx ← fromHex tv.ctx
    let ap ← fromHex tv.aggParam
    let states ← mapRes (fun i => getState V S reportIndex i round) (List.range V.shares)
    let row ← getI rep.verifierShares round
    let shares ← mapRes fromHex row
    if success then do
      let expected ← hexAt rep.verifierMessages round
      checkSharesToMessageSuccess V ctx ap states shares expected
      return S
    else do
      checkSharesToMessageFailure V ctx ap states shares
      return S
  | .verifyNext round aggregatorId reportIndex success => do
    let rep ← getI tv.reports reportIndex
    let ctx ← fromHex tv.ctx
    -- no dictionary has the key -1
    if round = 0 then .error .index
    let state ← getState V S reportIndex aggregatorId (round - 1)
    let msg ← hexAt rep.verifierMessages (round - 1)
    if success then
      if round < V.rounds then do
        let row ← getI rep.verifierShares round
        let expected ← hexAt row aggregatorId
        let state ← checkVerifyNextCont V ctx state msg expected
        return S.put reportIndex aggregatorId round state
      else do
        let expected ← hexAt rep.outShares aggregatorId
        checkVerifyNextOut V C ctx state msg expected
        return S
    else do
      checkVerifyNextFailure V ctx state msg
      return S
  | .aggregate aggregatorId success => do
    let ap ← fromHex tv.aggParam
    let outShares ← mapRes (fun rep : Report Meas => hexAt rep.outShares aggregatorId) tv.reports
    if success then do
      let expected ← hexAt tv.aggShares aggregatorId
      checkAggregateSuccess V C ap outShares expected
      return S
    else do
      checkAggregateFailure V C ap outShares
      return S
  | .unshard success => do
    let ap ← fromHex tv.aggParam
    let aggShares ← mapRes fromHex tv.aggShares
    if success then do
      checkUnshardSuccess V C ap aggShares tv.reports.length tv.aggResult
      return S
    else do
      checkUnshardFailure V C ap aggShares tv.reports.length
      return S

/-- test_test_vectors.py:29-241 `check_test_vector`: raises iff the test fails. -/
def checkTestVector [DecidableEq AggRes] (tv : TestVec Meas AggRes) : Res Unit := do
  let _ ← forFold tv.operations (fun _ _ _ => none) fun S op => checkOperation V C tv S op
  return ()

end
end TestVectors
end Vdaf
