import Verif.Model.Vdaf

/-!
# Model of `poc/vdaf_poc/vdaf_ping_pong.py`

The class `PingPong` adds its methods to an arbitrary `Vdaf`; here they are functions of a `VdafImpl`.

`except Exception` catches every exception of the model except `Err.fuel`, which stands for a computation that
does not terminate and hence propagates.
-/

namespace Vdaf

/-- vdaf_ping_pong.py:26-71: the states `Start`, `Continued`, `Finished`, `FinishedWithOutbound` and
`Rejected`.  `Finished` and `FinishedWithOutbound` hold whatever `verify_next` returned. -/
inductive PingPongState (VState VShare OutShare : Type) where
  | start
  | continued (verifyState : VState) (verifyRound : Nat) (outbound : Bytes)
  | finished (out : Next VState VShare OutShare)
  | finishedWithOutbound (out : Next VState VShare OutShare) (outbound : Bytes)
  | rejected

namespace PingPong

/-- vdaf_ping_pong.py:260-266 `encode` -/
def encode (messageType : Nat) (items : List Bytes) : Res Bytes := do
  let b ← byte messageType
  forFold items b fun encoded item => do
    let l ← toBeBytes item.length 4
    return encoded ++ l ++ item

/-- vdaf_ping_pong.py:282-286, the body of the loop -/
def decodeItem (st : Bytes × List Bytes) : Res (Bytes × List Bytes) := do
  let (encodedItemLen, encoded) ← front 4 st.1
  let itemLen := fromBeBytes encodedItemLen
  let (item, encoded) ← front itemLen encoded
  return (encoded, st.2 ++ [item])

/-- vdaf_ping_pong.py:271-280 -/
def numCounts (messageType : Nat) : Res Nat :=
  if messageType = 0 then .ok 1
  else if messageType = 1 then .ok 2
  else if messageType = 2 then .ok 1
  else .error (.value "unexpected message type")

/-- vdaf_ping_pong.py:269-287 `decode` -/
def decode (encoded : Bytes) : Res (Nat × List Bytes) := do
  let (t, encoded) ← front 1 encoded
  let messageType ← getI t 0
  let n ← numCounts messageType.toNat
  let (encoded, items) ← forFold (List.range n) (encoded, []) fun st _ => decodeItem st
  raiseIf (encoded.length > 0) "unexpected message length"
  return (messageType.toNat, items)

/-- `try: ... except Exception: return Rejected()` -/
def catchAll {VState VShare OutShare : Type} (r : Res (PingPongState VState VShare OutShare)) :
    Res (PingPongState VState VShare OutShare) :=
  match r with
  | .ok s => .ok s
  | .error .fuel => .error .fuel
  | .error _ => .ok .rejected

variable {Meas AggParam PubShare InShare OutShare AggShare AggRes VState VShare VMsg : Type}
variable (V : VdafImpl Meas AggParam PubShare InShare OutShare AggShare AggRes VState VShare VMsg)

/-- `(verify_state, verifier_share) = cast(tuple[VerifyState, VerifierShare], out)`.  Simplified: an
output share is taken not to be a pair, so that unpacking it raises. -/
def unpack (out : Next VState VShare OutShare) : Res (VState × VShare) :=
  match out with
  | .cont st sh => .ok (st, sh)
  | .out _ => .error .type

/-- vdaf_ping_pong.py:166-188 `ping_pong_transition` -/
def transition (ctx : Bytes) (aggParam : AggParam) (verifierShares : List VShare) (verifyState : VState)
    (verifyRound : Nat) : Res (PingPongState VState VShare OutShare) := do
  let verifierMessage ← V.sharesToMessage ctx aggParam verifierShares
  let encodedVerifierMessage ← V.encodeVerifierMessage verifierMessage
  let out ← V.verifyNext ctx verifyState verifierMessage
  if verifyRound + 1 = V.rounds then do
    let outbound ← encode 2 [encodedVerifierMessage]
    return .finishedWithOutbound out outbound
  else do
    let (verifyState, verifierShare) ← unpack out
    let encodedVerifierShare ← V.encodeVerifierShare verifierShare
    let outbound ← encode 1 [encodedVerifierMessage, encodedVerifierShare]
    return .continued verifyState (verifyRound + 1) outbound

/-- vdaf_ping_pong.py:95-122 `ping_pong_leader_init` -/
def leaderInit (verifyKey ctx aggParam nonce publicShare inputShare : Bytes) :
    Res (PingPongState VState VShare OutShare) := catchAll do
  let aggParam ← V.decodeAggParam aggParam
  let publicShare ← V.decodePublicShare publicShare
  let inputShare ← V.decodeInputShare 0 inputShare
  let (verifyState, verifierShare) ← V.verifyInit verifyKey ctx 0 aggParam nonce publicShare inputShare
  let encodedVerifierShare ← V.encodeVerifierShare verifierShare
  let outbound ← encode 0 [encodedVerifierShare]
  return .continued verifyState 0 outbound

/-- vdaf_ping_pong.py:124-164 `ping_pong_helper_init` -/
def helperInit (verifyKey ctx aggParam nonce publicShare inputShare inbound : Bytes) :
    Res (PingPongState VState VShare OutShare) := catchAll do
  let aggParam' ← V.decodeAggParam aggParam
  let publicShare ← V.decodePublicShare publicShare
  let inputShare ← V.decodeInputShare 1 inputShare
  let (verifyState, verifierShare) ← V.verifyInit verifyKey ctx 1 aggParam' nonce publicShare inputShare
  let (inboundType, inboundItems) ← decode inbound
  if inboundType ≠ 0 then return .rejected
  else do
    let encodedVerifierShare ← getI inboundItems 0
    let peer ← V.decodeVerifierShare verifyState encodedVerifierShare
    let aggParam' ← V.decodeAggParam aggParam
    transition V ctx aggParam' [peer, verifierShare] verifyState 0

/-- vdaf_ping_pong.py:203-246 `ping_pong_continued`, called with a state `Continued(verify_state, verify_round, _)` -/
def continued (isLeader : Bool) (ctx aggParam : Bytes) (verifyState : VState) (verifyRound : Nat) (inbound : Bytes) :
    Res (PingPongState VState VShare OutShare) := catchAll do
  let (inboundType, inboundItems) ← decode inbound
  if inboundType = 0 then return .rejected
  else do
    let encodedVerifierMessage ← getI inboundItems 0
    let verifierMessage ← V.decodeVerifierMessage verifyState encodedVerifierMessage
    let out ← V.verifyNext ctx verifyState verifierMessage
    if verifyRound + 1 < V.rounds ∧ inboundType = 1 then do
      let (verifyState, verifierShare) ← unpack out
      let encodedVerifierShare ← getI inboundItems 1
      let peer ← V.decodeVerifierShare verifyState encodedVerifierShare
      let verifierShares := [peer, verifierShare]
      let verifierShares := if isLeader then verifierShares.reverse else verifierShares
      let aggParam ← V.decodeAggParam aggParam
      transition V ctx aggParam verifierShares verifyState (verifyRound + 1)
    else if verifyRound + 1 = V.rounds ∧ inboundType = 2 then return .finished out
    else return .rejected

/-- vdaf_ping_pong.py:190-201 `ping_pong_leader_continued` -/
def leaderContinued (ctx aggParam : Bytes) (verifyState : VState) (verifyRound : Nat) (inbound : Bytes) :
    Res (PingPongState VState VShare OutShare) :=
  continued V true ctx aggParam verifyState verifyRound inbound

/-- vdaf_ping_pong.py:248-257 `ping_pong_helper_continued` -/
def helperContinued (ctx aggParam : Bytes) (verifyState : VState) (verifyRound : Nat) (inbound : Bytes) :
    Res (PingPongState VState VShare OutShare) :=
  continued V false ctx aggParam verifyState verifyRound inbound

end PingPong
end Vdaf
