import Verif.Model.Common

/-!
# Model of `poc/vdaf_poc/vdaf.py` and `poc/vdaf_poc/daf.py`

Abstract classes are records of functions.  The outputs of `gen_rand` are explicit arguments.
-/

namespace Vdaf

/-- The result of `verify_next` (vdaf.py:139-157): a tuple of the next state and the outbound
verifier share, or an output share. -/
inductive Next (State Share Out : Type) where
  | cont (state : State) (share : Share)
  | out (share : Out)

/-- vdaf.py:25-280, class `Vdaf`.  The type parameters are those of the Python class. -/
structure VdafImpl (Meas AggParam PubShare InShare OutShare AggShare AggRes VState VShare VMsg : Type)
    where
  /-- `ID` -/
  id : Nat
  /-- `VERIFY_KEY_SIZE` -/
  verifyKeySize : Nat
  /-- `NONCE_SIZE` -/
  nonceSize : Nat
  /-- `RAND_SIZE` -/
  randSize : Nat
  /-- `ROUNDS` -/
  rounds : Nat
  /-- `SHARES` -/
  shares : Nat
  /-- `shard(ctx, measurement, nonce, rand)` -/
  shard : Bytes → Meas → Bytes → Bytes → Res (PubShare × List InShare)
  /-- `is_valid(agg_param, previous_agg_params)` -/
  isValid : AggParam → List AggParam → Res Bool
  /-- `verify_init(verify_key, ctx, agg_id, agg_param, nonce, public_share, input_share)` -/
  verifyInit : Bytes → Bytes → Nat → AggParam → Bytes → PubShare → InShare → Res (VState × VShare)
  /-- `verifier_shares_to_message(ctx, agg_param, verifier_shares)` -/
  sharesToMessage : Bytes → AggParam → List VShare → Res VMsg
  /-- `verify_next(ctx, verify_state, verifier_message)` -/
  verifyNext : Bytes → VState → VMsg → Res (Next VState VShare OutShare)
  /-- `agg_init(agg_param)` -/
  aggInit : AggParam → Res AggShare
  /-- `agg_update(agg_param, agg_share, out_share)` -/
  aggUpdate : AggParam → AggShare → OutShare → Res AggShare
  /-- `merge(agg_param, agg_shares)` -/
  merge : AggParam → List AggShare → Res AggShare
  /-- `unshard(agg_param, agg_shares, num_measurements)` -/
  unshard : AggParam → List AggShare → Nat → Res AggRes
  encodeAggParam : AggParam → Res Bytes
  decodeAggParam : Bytes → Res AggParam
  encodePublicShare : PubShare → Res Bytes
  decodePublicShare : Bytes → Res PubShare
  encodeInputShare : InShare → Res Bytes
  /-- `decode_input_share(agg_id, encoded)` -/
  decodeInputShare : Nat → Bytes → Res InShare
  encodeVerifierShare : VShare → Res Bytes
  decodeVerifierShare : VState → Bytes → Res VShare
  encodeVerifierMessage : VMsg → Res Bytes
  decodeVerifierMessage : VState → Bytes → Res VMsg

/-- vdaf.py:203-212 `domain_separation_tag` -/
def domainSeparationTag (id usage : Nat) (ctx : Bytes) : Res Bytes := do
  let t ← formatDst 0 id usage
  return t ++ ctx

section
variable {Meas AggParam PubShare InShare OutShare AggShare AggRes VState VShare VMsg : Type}
variable (V : VdafImpl Meas AggParam PubShare InShare OutShare AggShare AggRes VState VShare VMsg)

/-- `out = vdaf.verify_next(...); assert isinstance(out, tuple)` (vdaf.py:341-345) -/
def VdafImpl.verifyNextTuple (ctx : Bytes) (state : VState) (msg : VMsg) : Res (VState × VShare) := do
  let out ← V.verifyNext ctx state msg
  match out with
  | .cont state share => .ok (state, share)
  | .out _ => .error (.assertion "isinstance(out, tuple)")

/-- `out_share = vdaf.verify_next(...); assert not isinstance(out_share, tuple)`
(vdaf.py:355-357) -/
def VdafImpl.verifyNextOut (ctx : Bytes) (state : VState) (msg : VMsg) : Res OutShare := do
  let out ← V.verifyNext ctx state msg
  match out with
  | .cont _ _ => .error (.assertion "not isinstance(out_share, tuple)")
  | .out o => .ok o

/-- vdaf.py:336-347, one of the first `ROUNDS - 1` rounds; `verify_states[j]` is read and
written only in iteration `j`. -/
def VdafImpl.runRound (ctx : Bytes) (aggParam : AggParam) (st : List VState × List VShare) :
    Res (List VState × List VShare) := do
  let msg ← V.sharesToMessage ctx aggParam st.2
  let outs ← mapRes (fun j => do
    let s ← getI st.1 j
    V.verifyNextTuple ctx s msg) (List.range V.shares)
  return (outs.map Prod.fst, outs.map Prod.snd)

/-- vdaf.py:310-350: sharding, the initialization and all but the last step of verification for
one measurement: the states of the Aggregators and the last verifier message. -/
def VdafImpl.runVerify (verifyKey : Bytes) (aggParam : AggParam) (ctx : Bytes) (measurement : Meas)
    (nonce rand : Bytes) : Res (List VState × VMsg) := do
  let (publicShare, inputShares) ← V.shard ctx measurement nonce rand
  let outs ← mapRes (fun j => do
    let inputShare ← getI inputShares j
    V.verifyInit verifyKey ctx j aggParam nonce publicShare inputShare) (List.range V.shares)
  let (states, shares) ← forFold (List.range (V.rounds - 1)) (outs.map Prod.fst, outs.map Prod.snd)
    fun st _ => V.runRound ctx aggParam st
  let msg ← V.sharesToMessage ctx aggParam shares
  return (states, msg)

/-- vdaf.py:309-362, the body of the loop over the measurements; `nonce` and `rand` are the
outputs of `gen_rand`. -/
def VdafImpl.runReport (verifyKey : Bytes) (aggParam : AggParam) (ctx : Bytes)
    (aggShares : List AggShare) (measurement : Meas) (nonce rand : Bytes) : Res (List AggShare) := do
  let (states, msg) ← V.runVerify verifyKey aggParam ctx measurement nonce rand
  forFold (List.range V.shares) aggShares fun aggShares j => do
    let s ← getI states j
    let outShare ← V.verifyNextOut ctx s msg
    let a ← getI aggShares j
    let a ← V.aggUpdate aggParam a outShare
    setI aggShares j a

/-- vdaf.py:284-371 `run_vdaf`; each measurement comes with the nonce and the random bytes
generated for it. -/
def runVdaf (verifyKey : Bytes) (aggParam : AggParam) (ctx : Bytes)
    (measurements : List (Meas × Bytes × Bytes)) : Res AggRes := do
  raiseIf (verifyKey.length ≠ V.verifyKeySize) "incorrect verify_key size"
  let aggShares ← mapRes (fun _ => V.aggInit aggParam) (List.range V.shares)
  let aggShares ← forFold measurements aggShares fun aggShares (m, nonce, rand) =>
    V.runReport verifyKey aggParam ctx aggShares m nonce rand
  V.unshard aggParam aggShares measurements.length

end

/-- daf.py:67-203, class `Daf` (the parts used by `run_daf`). -/
structure DafImpl (Meas AggParam PubShare InShare OutShare AggShare AggRes : Type) where
  shares : Nat
  nonceSize : Nat
  randSize : Nat
  shard : Bytes → Meas → Bytes → Bytes → Res (PubShare × List InShare)
  /-- `prep(ctx, agg_id, agg_param, nonce, public_share, input_share)` -/
  prep : Bytes → Nat → AggParam → Bytes → PubShare → InShare → Res OutShare
  aggInit : AggParam → Res AggShare
  aggUpdate : AggParam → AggShare → OutShare → Res AggShare
  unshard : AggParam → List AggShare → Nat → Res AggRes

section
variable {Meas AggParam PubShare InShare OutShare AggShare AggRes : Type}
variable (D : DafImpl Meas AggParam PubShare InShare OutShare AggShare AggRes)

/-- daf.py:227-239, the body of the loop over the measurements of `run_daf` -/
def DafImpl.runReport (ctx : Bytes) (aggParam : AggParam)
    (aggShares : List AggShare) (measurement : Meas) (nonce rand : Bytes) : Res (List AggShare) := do
  let (publicShare, inputShares) ← D.shard ctx measurement nonce rand
  forFold (List.range D.shares) aggShares fun aggShares j => do
    let inputShare ← getI inputShares j
    let outShare ← D.prep ctx j aggParam nonce publicShare inputShare
    let a ← getI aggShares j
    let a ← D.aggUpdate aggParam a outShare
    setI aggShares j a

/-- daf.py:211-246 `run_daf`; each measurement comes with the nonce and the random bytes
generated for it. -/
def runDaf (ctx : Bytes) (aggParam : AggParam) (measurements : List (Meas × Bytes × Bytes)) :
    Res AggRes := do
  let aggShares ← mapRes (fun _ => D.aggInit aggParam) (List.range D.shares)
  let aggShares ← forFold measurements aggShares fun aggShares (m, nonce, rand) =>
    D.runReport ctx aggParam aggShares m nonce rand
  D.unshard aggParam aggShares measurements.length

end
end Vdaf
