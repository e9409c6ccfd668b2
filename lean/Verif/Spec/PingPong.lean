import Verif.Model.PingPong
import Verif.Spec.Vdaf

/-! # Specification vocabulary for the ping-pong topology -/

namespace Vdaf.Spec
open PingPong

variable {Meas AggParam PubShare InShare OutShare AggShare AggRes VState VShare VMsg : Type}

section
variable (s : PingPongState VState VShare OutShare)

/-- The message that a party in this state has for its peer -/
def outbound : Option Bytes :=
  match s with
  | .continued _ _ m => some m
  | .finishedWithOutbound _ m => some m
  | _ => none

/-- The output share of a party in this state -/
def outShare : Option OutShare :=
  match s with
  | .finished (.out o) => some o
  | .finishedWithOutbound (.out o) _ => some o
  | _ => none

/-- The number of messages, 0 or 1, that a party sends in this state -/
def sent : ℕ := if (outbound s).isSome then 1 else 0
end

variable (V : VdafImpl Meas AggParam PubShare InShare OutShare AggShare AggRes VState VShare VMsg)

/-- The states of the Leader and the Helper and the number of messages they sent so far -/
abbrev Exchange (VState VShare OutShare : Type) :=
  PingPongState VState VShare OutShare × PingPongState VState VShare OutShare × ℕ

/-- Deliver at most `k` messages, in turns, the first one to the Leader if `toLeader`; stop when the party whose
turn it is has nothing to receive or is done. -/
def deliver (ctx aggParam : Bytes) :
    (k : ℕ) → (toLeader : Bool) → Exchange VState VShare OutShare → Res (Exchange VState VShare OutShare)
  | 0, _, x => .ok x
  | k + 1, true, (l, h, n) =>
    match l, outbound h with
    | .continued st r _, some m => do
      let l ← leaderContinued V ctx aggParam st r m
      deliver ctx aggParam k false (l, h, n + sent l)
    | _, _ => .ok (l, h, n)
  | k + 1, false, (l, h, n) =>
    match h, outbound l with
    | .continued st r _, some m => do
      let h ← helperContinued V ctx aggParam st r m
      deliver ctx aggParam k true (l, h, n + sent h)
    | _, _ => .ok (l, h, n)

/-- The exchange between an honest Leader and an honest Helper: both initialize, then at most `k` messages are
delivered in turns. -/
def exchange (verifyKey ctx aggParam nonce publicShare leaderShare helperShare : Bytes) (k : ℕ) :
    Res (Exchange VState VShare OutShare) := do
  let l ← leaderInit V verifyKey ctx aggParam nonce publicShare leaderShare
  match outbound l with
  | none => return (l, .start, 0)
  | some m => do
    let h ← helperInit V verifyKey ctx aggParam nonce publicShare helperShare m
    deliver V ctx aggParam k true (l, h, 1 + sent h)

/-- The execution of the verification of one report in which all the Aggregators broadcast their verifier shares
(vdaf.py:314-357, the part of `run_vdaf` that verifies a report): the output shares of the Aggregators -/
def broadcast (verifyKey : Bytes) (aggParam : AggParam) (ctx nonce : Bytes) (publicShare : PubShare)
    (inputShares : List InShare) : Res (List OutShare) := do
  let outs ← mapRes (fun j => do
    let inputShare ← getI inputShares j
    V.verifyInit verifyKey ctx j aggParam nonce publicShare inputShare) (List.range V.shares)
  let (states, shares) ← forFold (List.range (V.rounds - 1)) (outs.map Prod.fst, outs.map Prod.snd)
    fun st _ => V.runRound ctx aggParam st
  let msg ← V.sharesToMessage ctx aggParam shares
  mapRes (fun j => do
    let s ← getI states j
    V.verifyNextOut ctx s msg) (List.range V.shares)

/-- Aggregator `j` may, in round `r` of the verification of a report, hold the state `st` and have sent the verifier
share `sh`. -/
inductive Held (verifyKey ctx : Bytes) (aggParam : AggParam) (nonce : Bytes) (pub : PubShare) (j : ℕ) (s : InShare) :
    ℕ → VState → VShare → Prop
  | init {st : VState} {sh : VShare} : V.verifyInit verifyKey ctx j aggParam nonce pub s = .ok (st, sh) →
      Held verifyKey ctx aggParam nonce pub j s 0 st sh
  | next {r : ℕ} {st st' : VState} {sh sh' : VShare} {msg : VMsg} :
      Held verifyKey ctx aggParam nonce pub j s r st sh → V.verifyNext ctx st msg = .ok (.cont st' sh') →
      Held verifyKey ctx aggParam nonce pub j s (r + 1) st' sh'

/-- A party, in the state `s`, receives the byte strings `inbound` one after the other.  In every state but `Continued`
it does not process further messages. -/
def receive (isLeader : Bool) (ctx aggParam : Bytes) :
    PingPongState VState VShare OutShare → (inbound : List Bytes) → Res (PingPongState VState VShare OutShare)
  | s, [] => .ok s
  | .continued st r _, m :: ms => do
    let s ← (if isLeader then leaderContinued V ctx aggParam st r m else helperContinued V ctx aggParam st r m)
    receive isLeader ctx aggParam s ms
  | s, _ :: _ => .ok s

/-- No computation of the VDAF that ping-ponging uses diverges. -/
structure Terminates : Prop where
  decodeAggParam : ∀ b, V.decodeAggParam b ≠ .error .fuel
  decodePublicShare : ∀ b, V.decodePublicShare b ≠ .error .fuel
  decodeInputShare : ∀ j b, V.decodeInputShare j b ≠ .error .fuel
  verifyInit : ∀ k c j a n p s, V.verifyInit k c j a n p s ≠ .error .fuel
  sharesToMessage : ∀ c a s, V.sharesToMessage c a s ≠ .error .fuel
  verifyNext : ∀ c s m, V.verifyNext c s m ≠ .error .fuel
  encodeVerifierShare : ∀ s, V.encodeVerifierShare s ≠ .error .fuel
  decodeVerifierShare : ∀ s b, V.decodeVerifierShare s b ≠ .error .fuel
  encodeVerifierMessage : ∀ s, V.encodeVerifierMessage s ≠ .error .fuel
  decodeVerifierMessage : ∀ s b, V.decodeVerifierMessage s b ≠ .error .fuel

/-- The layout of a ping-pong message: the type, then the items, each preceded by its length in four bytes, most
significant first. -/
def pingPongMessage (messageType : ℕ) (items : List Bytes) : Bytes :=
  UInt8.ofNat messageType :: (items.map fun item =>
    [UInt8.ofNat (item.length / 256 ^ 3), UInt8.ofNat (item.length / 256 ^ 2 % 256),
      UInt8.ofNat (item.length / 256 % 256), UInt8.ofNat (item.length % 256)] ++ item).flatten

/-- The message types and the number of items of each: initialize (a verifier share), continue (a verifier message and
a verifier share), finish (a verifier message) -/
def pingPongItems (messageType : ℕ) : Option ℕ :=
  match messageType with
  | 0 => some 1
  | 1 => some 2
  | 2 => some 1
  | _ => none

/-- `b` is an encoding that fits into a ping-pong message. -/
def Fits32 (b : Bytes) : Prop := b.length < 2 ^ 32

/-- What the ping-pong topology needs from the VDAF for a report: `verify_next` returns an output
share exactly in the last round, and the verifier shares and messages survive encoding and decoding by the
peer. -/
structure PingPongReady (verifyKey ctx : Bytes) (aggParam : AggParam) (nonce : Bytes) (pub : PubShare)
    (s0 s1 : InShare) : Prop where
  last : ∀ r st sh msg out, (Held V verifyKey ctx aggParam nonce pub 0 s0 r st sh ∨
    Held V verifyKey ctx aggParam nonce pub 1 s1 r st sh) → r < V.rounds →
    V.verifyNext ctx st msg = .ok out → (r + 1 < V.rounds ↔ ∃ st' sh', out = .cont st' sh')
  share : ∀ r st0 sh0 st1 sh1, Held V verifyKey ctx aggParam nonce pub 0 s0 r st0 sh0 →
    Held V verifyKey ctx aggParam nonce pub 1 s1 r st1 sh1 →
    (∃ b, V.encodeVerifierShare sh0 = .ok b ∧ Fits32 b ∧ V.decodeVerifierShare st1 b = .ok sh0) ∧
    ∃ b, V.encodeVerifierShare sh1 = .ok b ∧ Fits32 b ∧ V.decodeVerifierShare st0 b = .ok sh1
  message : ∀ r st0 sh0 st1 sh1 msg, Held V verifyKey ctx aggParam nonce pub 0 s0 r st0 sh0 →
    Held V verifyKey ctx aggParam nonce pub 1 s1 r st1 sh1 →
    V.sharesToMessage ctx aggParam [sh0, sh1] = .ok msg →
    ∃ b, V.encodeVerifierMessage msg = .ok b ∧ Fits32 b ∧
      V.decodeVerifierMessage st0 b = .ok msg ∧ V.decodeVerifierMessage st1 b = .ok msg

end Vdaf.Spec
