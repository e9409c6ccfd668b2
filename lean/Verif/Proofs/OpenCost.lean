import Verif.Proofs.OpenSim

/-! How often the honest Aggregator evaluates the primitives in the ping-pong topology. -/

set_option linter.unusedSectionVars false

namespace Vdaf.Open
open Spec PingPong

section
variable {Meas AggParam PubShare InShare OutShare AggShare AggRes VState VShare VMsg : Type}

/-- The functions that do not evaluate the primitives are the same for all the primitives. -/
structure Static (V : Prims → VdafImpl Meas AggParam PubShare InShare OutShare AggShare AggRes VState VShare VMsg)
    (p0 : Prims) : Prop where
  rounds : ∀ p, (V p).rounds = (V p0).rounds
  isValid : ∀ p, (V p).isValid = (V p0).isValid
  aggUpdate : ∀ p, (V p).aggUpdate = (V p0).aggUpdate
  decodeAggParam : ∀ p, (V p).decodeAggParam = (V p0).decodeAggParam
  decodePublicShare : ∀ p, (V p).decodePublicShare = (V p0).decodePublicShare
  decodeInputShare : ∀ p, (V p).decodeInputShare = (V p0).decodeInputShare
  encodeVerifierShare : ∀ p, (V p).encodeVerifierShare = (V p0).encodeVerifierShare
  decodeVerifierShare : ∀ p, (V p).decodeVerifierShare = (V p0).decodeVerifierShare
  encodeVerifierMessage : ∀ p, (V p).encodeVerifierMessage = (V p0).encodeVerifierMessage
  decodeVerifierMessage : ∀ p, (V p).decodeVerifierMessage = (V p0).decodeVerifierMessage

variable {V : Prims → VdafImpl Meas AggParam PubShare InShare OutShare AggShare AggRes VState VShare VMsg}
  {p0 : Prims} {A : Set Prims} {cI cM : ℕ} (H : Static V p0)
  (hM : ∀ ctx a shares, Uses A cM fun p => (V p).sharesToMessage ctx a shares)
  (hN : ∀ ctx st msg, Uses A 0 fun p => (V p).verifyNext ctx st msg)

include H hM hN

theorem uses_transition (ctx : Bytes) (a : AggParam) (shares : List VShare) (st : VState) (r : ℕ) :
    Uses A cM fun p => transition (V p) ctx a shares st r := by
  unfold transition
  refine (Uses.bind (d := 0) (hM ctx a shares) fun msg => ?_).mono le_rfl
  refine Uses.bindConst ((V p0).encodeVerifierMessage msg) (fun p _ => by rw [H.encodeVerifierMessage p]) fun em _ => ?_
  refine (Uses.bind (d := 0) (hN ctx st msg) fun out => ?_).mono le_rfl
  refine (Uses.const (if r + 1 = (V p0).rounds then do
      let outbound ← encode 2 [em]
      return .finishedWithOutbound out outbound
    else do
      let (verifyState, verifierShare) ← unpack out
      let encodedVerifierShare ← (V p0).encodeVerifierShare verifierShare
      let outbound ← encode 1 [em, encodedVerifierShare]
      return .continued verifyState (r + 1) outbound)).congr fun p _ => ?_
  rw [H.rounds p, H.encodeVerifierShare p]

theorem uses_leaderInit (vk ctx aggParam nonce pub share : Bytes)
    (hI : ∀ a, (V p0).decodeAggParam aggParam = .ok a → ∀ j pub share,
      Uses A cI fun p => (V p).verifyInit vk ctx j a nonce pub share) :
    Uses A cI fun p => leaderInit (V p) vk ctx aggParam nonce pub share := by
  unfold leaderInit
  refine Uses.map catchAll ?_
  refine Uses.bindConst ((V p0).decodeAggParam aggParam) (fun p _ => by rw [H.decodeAggParam p]) fun a ha => ?_
  refine Uses.bindConst ((V p0).decodePublicShare pub) (fun p _ => by rw [H.decodePublicShare p]) fun pub' _ => ?_
  refine Uses.bindConst ((V p0).decodeInputShare 0 share) (fun p _ => by rw [H.decodeInputShare p]) fun share' _ => ?_
  refine (Uses.bind (d := 0) (hI a ha 0 pub' share') fun x => ?_).mono le_rfl
  refine Uses.bindConst ((V p0).encodeVerifierShare x.2) (fun p _ => by rw [H.encodeVerifierShare p]) fun e _ => ?_
  exact Uses.const _

theorem uses_helperInit (vk ctx aggParam nonce pub share inbound : Bytes)
    (hI : ∀ a, (V p0).decodeAggParam aggParam = .ok a → ∀ j pub share,
      Uses A cI fun p => (V p).verifyInit vk ctx j a nonce pub share) :
    Uses A (cI + cM) fun p => helperInit (V p) vk ctx aggParam nonce pub share inbound := by
  unfold helperInit
  refine Uses.map catchAll ?_
  refine Uses.bindConst ((V p0).decodeAggParam aggParam) (fun p _ => by rw [H.decodeAggParam p]) fun a ha => ?_
  refine Uses.bindConst ((V p0).decodePublicShare pub) (fun p _ => by rw [H.decodePublicShare p]) fun pub' _ => ?_
  refine Uses.bindConst ((V p0).decodeInputShare 1 share) (fun p _ => by rw [H.decodeInputShare p]) fun share' _ => ?_
  refine Uses.bind (hI a ha 1 pub' share') fun x => ?_
  refine Uses.bindConst (decode inbound) (fun _ _ => rfl) fun y _ => ?_
  dsimp only
  split
  · exact Uses.const _
  · refine Uses.bindConst (getI y.2 0) (fun _ _ => rfl) fun e _ => ?_
    refine Uses.bindConst ((V p0).decodeVerifierShare x.1 e) (fun p _ => by rw [H.decodeVerifierShare p]) fun peer _ => ?_
    refine Uses.bindConst ((V p0).decodeAggParam aggParam) (fun p _ => by rw [H.decodeAggParam p]) fun a' _ => ?_
    exact uses_transition H hM hN _ _ _ _ _

theorem uses_continued (isLeader : Bool) (ctx aggParam : Bytes) (st : VState) (r : ℕ) (inbound : Bytes) :
    Uses A cM fun p => continued (V p) isLeader ctx aggParam st r inbound := by
  unfold continued
  refine Uses.map catchAll ?_
  refine Uses.bindConst (decode inbound) (fun _ _ => rfl) fun y _ => ?_
  dsimp only
  split
  · exact Uses.const _
  · refine Uses.bindConst (getI y.2 0) (fun _ _ => rfl) fun e _ => ?_
    refine Uses.bindConst ((V p0).decodeVerifierMessage st e) (fun p _ => by rw [H.decodeVerifierMessage p]) fun msg _ => ?_
    refine (Uses.bind (d := cM) (hN ctx st msg) fun out => ?_).mono (by omega)
    by_cases h1 : r + 1 < (V p0).rounds ∧ y.1 = 1
    · refine Uses.congr (f := fun p => do
        let (verifyState, verifierShare) ← unpack out
        let encodedVerifierShare ← getI y.2 1
        let peer ← (V p).decodeVerifierShare verifyState encodedVerifierShare
        let verifierShares := [peer, verifierShare]
        let verifierShares := if isLeader then verifierShares.reverse else verifierShares
        let aggParam ← (V p).decodeAggParam aggParam
        transition (V p) ctx aggParam verifierShares verifyState (r + 1)) ?_ fun p _ => ?_
      · refine Uses.bindConst (unpack out) (fun _ _ => rfl) fun x _ => ?_
        refine Uses.bindConst (getI y.2 1) (fun _ _ => rfl) fun e _ => ?_
        refine Uses.bindConst ((V p0).decodeVerifierShare x.1 e) (fun p _ => by rw [H.decodeVerifierShare p]) fun peer _ => ?_
        refine Uses.bindConst ((V p0).decodeAggParam aggParam) (fun p _ => by rw [H.decodeAggParam p]) fun a' _ => ?_
        exact uses_transition H hM hN _ _ _ _ _
      · rw [if_pos (by rw [H.rounds p]; exact h1)]
    · refine (Uses.const (if r + 1 = (V p0).rounds ∧ y.1 = 2 then .ok (.finished out) else .ok .rejected)).congr
        fun p _ => ?_
      rw [if_neg (c := r + 1 < (V p).rounds ∧ y.1 = 1) (by rw [H.rounds p]; exact h1), H.rounds p]
      split <;> rfl

theorem uses_start {isLeader : Bool} {vk ctx : Bytes} (reports : List WireReport)
    (mem : PeerMemory AggParam VState VShare OutShare) (j : ℕ) (aggParam inbound : Bytes)
    (hI : ∀ a, (V p0).decodeAggParam aggParam = .ok a → ∀ j nonce pub share,
      Uses A cI fun p => (V p).verifyInit vk ctx j a nonce pub share) :
    Uses A (cI + cM) fun p => peerRespond (V p) p isLeader vk ctx reports mem (.start j aggParam inbound) := by
  unfold peerRespond
  dsimp only
  cases hr : reports[j]? with
  | none => exact (Uses.const (.ok (.refused, mem))).congr fun p _ => by dsimp only; rfl
  | some rep =>
    cases hd : (V p0).decodeAggParam aggParam with
    | error e => exact (Uses.const (.ok (.refused, mem))).congr fun p _ => by rw [H.decodeAggParam p, hd]; rfl
    | ok a =>
      by_cases hv : (V p0).isValid a (mem.previous j) = .ok true
      · refine Uses.congr (f := fun p => do
          let s ← if isLeader then leaderInit (V p) vk ctx aggParam rep.nonce rep.publicShare rep.leaderShare
            else helperInit (V p) vk ctx aggParam rep.nonce rep.publicShare rep.helperShare inbound
          return (seenOf s, (mem.begin j a).put j aggParam s)) ?_ fun p _ => ?_
        · cases isLeader with
          | true =>
            exact ((uses_leaderInit H hM hN _ _ _ _ _ _ fun a ha j => hI a ha j _).mono (by omega)).map fun r =>
              r >>= fun s => pure (seenOf s, (mem.begin j a).put j aggParam s)
          | false =>
            exact (uses_helperInit H hM hN _ _ _ _ _ _ _ fun a ha j => hI a ha j _).map fun r =>
              r >>= fun s => pure (seenOf s, (mem.begin j a).put j aggParam s)
        · rw [H.decodeAggParam p, hd]
          dsimp only
          rw [H.isValid p, hv]
      · refine (Uses.const (.ok (.refused, mem))).congr fun p _ => ?_
        rw [H.decodeAggParam p, hd]
        dsimp only
        rw [H.isValid p]
        split
        · next h => exact absurd h hv
        · rfl

theorem uses_deliver {isLeader : Bool} {vk ctx : Bytes} (reports : List WireReport)
    (mem : PeerMemory AggParam VState VShare OutShare) (j : ℕ) (aggParam inbound : Bytes) :
    Uses A cM fun p => peerRespond (V p) p isLeader vk ctx reports mem (.deliver j aggParam inbound) := by
  unfold peerRespond
  dsimp only
  cases mem.states j aggParam with
  | continued st r m =>
    cases isLeader <;> exact (uses_continued H hM hN _ _ _ _ _ _).map fun r =>
      r >>= fun s => pure (seenOf s, mem.put j aggParam s)
  | _ => exact Uses.const _

end
end Vdaf.Open
