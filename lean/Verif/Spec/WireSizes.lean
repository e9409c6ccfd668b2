import Verif.Spec.Sizes
import Verif.Spec.PingPong

/-! # Specification vocabulary for the sizes of the messages in the ping-pong topology -/

namespace Vdaf.Spec
open PingPong

variable {Meas AggParam PubShare InShare OutShare AggShare AggRes VState VShare VMsg : Type}

/-- The number of bytes of a ping-pong message with items of these sizes: one for the type, and four for the length of
each item -/
def pingPongSize (items : List ℕ) : ℕ := 1 + (items.map fun n => 4 + n).sum

/-- The number of bytes of the message that a party in this state has for its peer: a verifier share at first (only the
Leader); afterwards the verifier message of a round and the verifier share of the next one; the last verifier message -/
def outboundSize (S : Sizes) (rounds : ℕ) : PingPongState VState VShare OutShare → Option ℕ
  | .continued _ 0 _ => some (pingPongSize [S.verifierShare 0])
  | .continued _ (r + 1) _ => some (pingPongSize [S.verifierMessage r, S.verifierShare (r + 1)])
  | .finishedWithOutbound _ _ => some (pingPongSize [S.verifierMessage (rounds - 1)])
  | _ => none

/-- The messages that an honest Leader and an honest Helper send have these sizes, whatever report they process and
whatever they receive. -/
structure HasWireSizes (V : VdafImpl Meas AggParam PubShare InShare OutShare AggShare AggRes VState VShare VMsg)
    (aggParam : Bytes) (S : Sizes) : Prop where
  leader : ∀ verifyKey ctx nonce publicShare inputShare inbounds s s',
    leaderInit V verifyKey ctx aggParam nonce publicShare inputShare = .ok s →
    receive V true ctx aggParam s inbounds = .ok s' → (outbound s').map List.length = outboundSize S V.rounds s'
  helper : ∀ verifyKey ctx nonce publicShare inputShare inbound inbounds s s',
    helperInit V verifyKey ctx aggParam nonce publicShare inputShare inbound = .ok s →
    receive V false ctx aggParam s inbounds = .ok s' → (outbound s').map List.length = outboundSize S V.rounds s'

end Vdaf.Spec
