import Verif.Spec.PingPongAttack
import Verif.Proofs.Simulate
import Verif.Proofs.PingPongInst
import Verif.Proofs.TestVectorsInst
import Verif.Proofs.GenTestVec
import Verif.Proofs.PrivacyBound
import Verif.Proofs.FuelPrio3

/-! The Aggregators of Prio3 in the ping-pong topology, with honest Clients: what they do with the bytes that they get is to be
seen from the other Aggregator's view. -/

set_option linter.unusedSectionVars false

namespace Vdaf.Prio3
open Spec PingPong

section
variable {X : Xof} {F : Type} [NttField F] {Meas Agg : Type} (P : Prio3 X F Meas Agg)

/-- The first message of the Leader, computed from its verifier share. -/
def firstMessage (own : List F × Option Bytes) : Option Bytes :=
  match (do
    let e ← P.encodeVerifierShare own
    encode 0 [e] : Res Bytes) with
  | .ok m => some m
  | .error _ => none

/-- The verifier message in the Leader's second message. -/
def lastMessage (inbound : Bytes) : Option (Option Bytes) :=
  match decode inbound with
  | .ok (2, b :: _) => some (if b.length = 0 then none else some b)
  | _ => none

/-- The verifier share in the Helper's first message. -/
def peerShare (inbound : Bytes) : Option (List F × Option Bytes) :=
  match decode inbound with
  | .ok (0, b :: _) =>
    match P.decodeVerifierShare ([], none) b with
    | .ok s => some s
    | .error _ => none
  | _ => none

/-- The loop of `sharesToMessage`. -/
def sumShares (shares : List (List F × Option Bytes)) : Res (List F × List Bytes) :=
  forFold shares (fieldZeros F (P.flp.verifierLen * P.proofs), ([] : List Bytes))
      fun (verifiers, jointRandParts) (verifiersShare, part) => do
        let verifiers ← vecAdd verifiers verifiersShare
        let jointRandParts ← P.appendPart jointRandParts part
        return (verifiers, jointRandParts)

/-- What `sharesToMessage` feeds into TurboSHAKE128, if it comes to that; nothing without joint randomness. -/
def messageInput (ctx : Bytes) (shares : List (List F × Option Bytes)) : Option (Option Bytes) :=
  match (do
    let (vs, parts) ← P.sumShares shares
    P.decideLoop vs
    return parts : Res (List Bytes)) with
  | .ok parts =>
    some (if P.flp.jointRandLen > 0 then some (turboInput (List.replicate 32 0) (tag P.id 6 ctx) parts.flatten) else none)
  | .error _ => none

/-- What the Helper feeds into TurboSHAKE128 to check the Leader's first message. -/
def helperInput (ctx : Bytes) (own : List F × Option Bytes) (inbound : Bytes) : Option (Option Bytes) :=
  (peerShare P inbound).bind fun peer => messageInput P ctx [peer, own]

theorem decideLoop_ne_fuel (L : P.flp.Lawful) {vs : List F} (hl : vs.length = P.flp.verifierLen * P.proofs) :
    P.decideLoop vs ≠ .error .fuel := by
  have : Good (fun e => e ≠ .fuel) (P.decideLoop vs) fun _ => True := by
    unfold decideLoop
    refine Good.bind (Good.forFold_range P.proofs _ _ (fun i r => r = vs.drop (P.flp.verifierLen * i)) (by simp) ?_) ?_
    · rintro i hi _ rfl
      rw [front_blk (by rw [hl]; exact mul_succ_le hi)]
      simp only [Except.ok_bind']
      obtain ⟨b, hb⟩ := L.decide_total (blk P.flp.verifierLen vs i) (by
        unfold blk
        rw [List.length_take, List.length_drop, hl]
        have := mul_succ_le (k := P.flp.verifierLen) hi
        rw [Nat.mul_succ] at this
        omega)
      rw [hb]
      simp only [Except.ok_bind']
      cases b
      · exact Good.error (by intro h; cases h)
      · exact Good.ok rfl
    · exact fun _ _ _ => Good.ok trivial
  intro h
  rw [h] at this
  exact this rfl

theorem sumShares_good (shares : List (List F × Option Bytes)) :
    Good (fun e => e ≠ .fuel) (P.sumShares shares) fun r => r.1.length = P.flp.verifierLen * P.proofs := by
  unfold sumShares
  refine Good.forFold _ _ _ (fun _ (r : List F × List Bytes) => r.1.length = P.flp.verifierLen * P.proofs)
    (by simp [fieldZeros]) ?_
  rintro i hi ⟨vs, parts⟩ h
  dsimp only at h ⊢
  cases h1 : vecAdd vs shares[i].1 with
  | error e => exact Good.error fun he => (NF.vecAdd vs shares[i].1).1 (he ▸ h1)
  | ok w =>
    simp only [Except.ok_bind']
    have hw := vecAdd_length_ok h1
    cases h2 : P.appendPart parts shares[i].2 with
    | error e =>
      refine Good.error fun he => ?_
      subst he
      unfold appendPart at h2
      split at h2
      · split at h2 <;> cases h2
      · cases h2
    | ok x => exact Good.ok (show w.length = _ by omega)

end

section
variable {F : Type} [NttField F] {Meas Agg : Type} {prims : Prims} {fuel : ℕ}
  {P : Prio3 (XofTurboShake128 prims fuel) F Meas Agg} {T : Bytes → ℕ → UInt8} (W : P.WF)
  {vk ctx : Bytes} (hctx : ctx.length + 8 < 2 ^ 16)

include W hctx in
theorem sharesToMessage_input (shares : List (List F × Option Bytes)) :
    (∃ q, messageInput P ctx shares = some q ∧
      (runWith P T).sharesToMessage ctx () shares = .ok (q.map fun m => bytesAt (T m) 0 32)) ∨
    (messageInput P ctx shares = none ∧ ∃ e, e ≠ .fuel ∧ (runWith P T).sharesToMessage ctx () shares = .error e) := by
  have hstm : (runWith P T).sharesToMessage ctx () shares = (do
      let (vs, parts) ← P.sumShares shares
      P.decideLoop vs
      if P.flp.jointRandLen > 0 then do
        let seed ← (runWith P T).jointRandSeed ctx parts
        return some seed
      else return none) := rfl
  rw [hstm]
  unfold messageInput
  have hg := sumShares_good P shares
  cases h1 : P.sumShares shares with
  | error e =>
    rw [h1] at hg
    exact .inr ⟨rfl, e, hg, rfl⟩
  | ok r =>
    obtain ⟨vs, parts⟩ := r
    rw [h1] at hg
    simp only [Except.ok_bind']
    cases h2 : P.decideLoop vs with
    | error e => exact .inr ⟨rfl, e, fun he => decideLoop_ne_fuel P W.lawful hg (he ▸ h2), rfl⟩
    | ok u =>
      simp only [Except.ok_bind', Except.pure_eq']
      refine .inl ⟨_, rfl, ?_⟩
      split
      · rw [jointRandSeed_val W hctx]
        rfl
      · rfl

theorem NF_encodeVerifierShare (sh : List F × Option Bytes) : NF (P.encodeVerifierShare sh) := by
  unfold Prio3.encodeVerifierShare; nf

theorem NF_decodeVerifierShare (st : List F × Option Bytes) (b : Bytes) : NF (P.decodeVerifierShare st b) := by
  unfold Prio3.decodeVerifierShare Prio3.decodeBlind; nf

theorem catchAll_rejected {VState VShare OutShare : Type} {e : Err} (h : e ≠ .fuel) :
    catchAll (.error e : Res (PingPongState VState VShare OutShare)) = .ok .rejected := by
  cases e <;> first | rfl | exact absurd rfl h

/-- What the Leader does with an honest report. -/
theorem leaderInit_honest {nonce pb b : Bytes} {pub : Option (List Bytes)} {s : Prio3InputShare F}
    {st sh : List F × Option Bytes} (h1 : (runWith P T).decodePublicShare pb = .ok pub)
    (h2 : (runWith P T).decodeInputShare 0 b = .ok s)
    (h3 : (runWith P T).verifyInit vk ctx 0 () nonce pub s = .ok (st, sh)) :
    leaderInit (runWith P T).vdaf vk ctx [] nonce pb b = .ok (match firstMessage P sh with
      | some m => .continued st 0 m
      | none => .rejected) := by
  have e : leaderInit (runWith P T).vdaf vk ctx [] nonce pb b = catchAll (do
      let m ← (do
        let e ← P.encodeVerifierShare sh
        encode 0 [e] : Res Bytes)
      return .continued st 0 m) := by
    unfold leaderInit
    have h0 : (runWith P T).vdaf.decodeAggParam [] = .ok () := rfl
    rw [h0]
    simp only [Except.ok_bind']
    rw [show (runWith P T).vdaf.decodePublicShare pb = .ok pub from h1]
    simp only [Except.ok_bind']
    rw [show (runWith P T).vdaf.decodeInputShare 0 b = .ok s from h2]
    simp only [Except.ok_bind']
    rw [show (runWith P T).vdaf.verifyInit vk ctx 0 () nonce pub s = .ok (st, sh) from h3]
    simp only [Except.ok_bind']
    rw [show (runWith P T).vdaf.encodeVerifierShare sh = P.encodeVerifierShare sh from rfl]
    cases P.encodeVerifierShare sh <;> rfl
  rw [e]
  unfold firstMessage
  cases hm : (do
      let e ← P.encodeVerifierShare sh
      encode 0 [e] : Res Bytes) with
  | ok m => rfl
  | error x =>
    have hx : x ≠ .fuel := by
      rintro rfl
      refine PingPong.bind_ne_fuel (x := P.encodeVerifierShare sh) ?_ (fun e => PingPong.encode_ne_fuel _ _) hm
      exact (NF_encodeVerifierShare sh).1
    exact catchAll_rejected hx

theorem encodeMessage_ok (m : Option Bytes) (hm : ∀ b, m = some b → b.length = 32) :
    ∃ b, encode 2 [optBytes m] = .ok b := by
  refine ⟨_, (PingPong.encode_iff 2 [optBytes m] _).2 ⟨by norm_num, ?_, rfl⟩⟩
  intro i hi
  rw [List.mem_singleton] at hi
  subst hi
  cases m with
  | none => simp [optBytes]
  | some b =>
    show b.length < _
    rw [hm b rfl]
    norm_num

theorem verifyNext_eq {st : List F × Option Bytes} {m : Option Bytes} (h : m = st.2) :
    verifyNext ctx st m = .ok (.out st.1) := by
  unfold verifyNext
  rw [h]
  simp [raiseIf]

theorem verifyNext_ne {st : List F × Option Bytes} {m : Option Bytes} (h : m ≠ st.2) :
    verifyNext ctx st m = .error (.value "joint randomness check failed") := by
  unfold verifyNext
  simp [raiseIf, h]

/-- The Helper's message -/
def helperMessage (m : Option Bytes) : Option Bytes :=
  match encode 2 [optBytes m] with
  | .ok b => some b
  | .error _ => none

/-- The new state of an Aggregator that gets the message `m` -/
def verdict (st : List F × Option Bytes) (m : Option Bytes)
    (f : Next (List F × Option Bytes) (List F × Option Bytes) (List F) →
      PingPongState (List F × Option Bytes) (List F × Option Bytes) (List F)) :
    PingPongState (List F × Option Bytes) (List F × Option Bytes) (List F) :=
  if m = st.2 then f (.out st.1) else .rejected

include W hctx in
/-- What the Helper does with an honest report. -/
theorem helperInit_honest {nonce pb b inbound : Bytes} {pub : Option (List Bytes)} {s : Prio3InputShare F}
    {st sh : List F × Option Bytes} (h1 : (runWith P T).decodePublicShare pb = .ok pub)
    (h2 : (runWith P T).decodeInputShare 1 b = .ok s)
    (h3 : (runWith P T).verifyInit vk ctx 1 () nonce pub s = .ok (st, sh)) :
    helperInit (runWith P T).vdaf vk ctx [] nonce pb b inbound = .ok (match helperInput P ctx sh inbound with
      | some q => verdict st (q.map fun m => bytesAt (T m) 0 32) fun o =>
        .finishedWithOutbound o ((helperMessage (q.map fun m => bytesAt (T m) 0 32)).getD [])
      | none => .rejected) := by
  have h0 : (runWith P T).vdaf.decodeAggParam [] = .ok () := rfl
  unfold helperInit
  rw [h0]
  simp only [Except.ok_bind']
  rw [show (runWith P T).vdaf.decodePublicShare pb = .ok pub from h1]
  simp only [Except.ok_bind']
  rw [show (runWith P T).vdaf.decodeInputShare 1 b = .ok s from h2]
  simp only [Except.ok_bind']
  rw [show (runWith P T).vdaf.verifyInit vk ctx 1 () nonce pub s = .ok (st, sh) from h3]
  simp only [Except.ok_bind']
  unfold helperInput peerShare
  cases hd : decode inbound with
  | error e => exact catchAll_rejected fun he => PingPong.decode_ne_fuel inbound (he ▸ hd)
  | ok r =>
    obtain ⟨t, items⟩ := r
    simp only [Except.ok_bind']
    by_cases ht : t = 0
    swap
    · rw [if_pos ht]
      cases t with
      | zero => exact absurd rfl ht
      | succ t => rfl
    subst ht
    rw [if_neg (by simp)]
    cases items with
    | nil => rfl
    | cons i items =>
      simp only [getI, List.getElem?_cons_zero, Except.ok_bind']
      rw [show (runWith P T).vdaf.decodeVerifierShare st i = P.decodeVerifierShare ([], none) i from rfl]
      cases hs : P.decodeVerifierShare ([], none) i with
      | error e => exact catchAll_rejected fun he => (NF_decodeVerifierShare (P := P) _ i).1 (he ▸ hs)
      | ok peer =>
        simp only [Except.ok_bind', Option.bind_some]
        unfold transition
        rcases sharesToMessage_input (T := T) W hctx [peer, sh] with ⟨q, e1, e2⟩ | ⟨e1, e, he, e2⟩
        · rw [e1, show (runWith P T).vdaf.sharesToMessage ctx () [peer, sh] = _ from e2]
          simp only [Except.ok_bind']
          rw [show (runWith P T).vdaf.encodeVerifierMessage _ = .ok (optBytes _) from rfl]
          simp only [Except.ok_bind']
          unfold verdict helperMessage
          obtain ⟨bm, hb⟩ := encodeMessage_ok (q.map fun m => bytesAt (T m) 0 32) (by
            intro b hb
            obtain ⟨m, -, rfl⟩ := Option.map_eq_some_iff.1 hb
            simp [bytesAt])
          rw [hb]
          by_cases hm : (q.map fun m => bytesAt (T m) 0 32) = st.2
          · rw [if_pos hm]
            rw [show (runWith P T).vdaf.verifyNext ctx st _ = .ok (.out st.1) from verifyNext_eq (ctx := ctx) hm]
            rfl
          · rw [if_neg hm]
            rw [show (runWith P T).vdaf.verifyNext ctx st _ = .error (.value "joint randomness check failed") from
            verifyNext_ne (ctx := ctx) hm]
            rfl
        · rw [e1, show (runWith P T).vdaf.sharesToMessage ctx () [peer, sh] = _ from e2]
          exact catchAll_rejected he

theorem lastMessage_eq {inbound : Bytes} {t : ℕ} {items : List Bytes} (h : decode inbound = .ok (t, items)) :
    lastMessage inbound =
      if t = 2 then items.head?.map fun b => if b.length = 0 then none else some b else none := by
  unfold lastMessage
  rw [h]
  by_cases ht : t = 2
  · subst ht
    rw [if_pos rfl]
    cases items <;> rfl
  · rw [if_neg ht]
    split
    · rename_i h; cases h; exact absurd rfl ht
    · rfl

/-- What the Leader does with the Helper's message. -/
theorem leaderContinued_honest {st : List F × Option Bytes} {inbound : Bytes} :
    leaderContinued (runWith P T).vdaf ctx [] st 0 inbound = .ok (match lastMessage inbound with
      | some m => verdict st m .finished
      | none => .rejected) := by
  unfold leaderContinued continued
  cases hd : decode inbound with
  | error e =>
    have : lastMessage inbound = none := by
      unfold lastMessage
      rw [hd]
    rw [this]
    exact catchAll_rejected fun he => PingPong.decode_ne_fuel inbound (he ▸ hd)
  | ok r =>
    obtain ⟨t, items⟩ := r
    rw [lastMessage_eq hd]
    simp only [Except.ok_bind']
    by_cases ht : t = 0
    · rw [if_pos ht]
      subst ht
      rfl
    rw [if_neg ht]
    cases items with
    | nil =>
      rw [show (if t = 2 then List.head? [] |>.map _ else none : Option (Option Bytes)) = none by split <;> rfl]
      rfl
    | cons b items =>
      simp only [getI, List.getElem?_cons_zero, Except.ok_bind', List.head?_cons, Option.map_some]
      have hm : (runWith P T).vdaf.decodeVerifierMessage st b = .ok (if b.length = 0 then none else some b) := by
        show decodeVerifierMessage st b = _
        unfold decodeVerifierMessage
        split <;> rfl
      rw [hm]
      simp only [Except.ok_bind']
      have hr : (runWith P T).vdaf.rounds = 1 := rfl
      rw [hr]
      by_cases hc : (if b.length = 0 then none else some b) = st.2
      · rw [show (runWith P T).vdaf.verifyNext ctx st _ = .ok (.out st.1) from verifyNext_eq (ctx := ctx) hc]
        simp only [Except.ok_bind']
        rw [if_neg (by omega)]
        by_cases h2 : t = 2
        · subst h2
          rw [if_pos ⟨trivial, rfl⟩, if_pos rfl]
          dsimp only
          unfold verdict
          rw [if_pos hc]
          rfl
        · rw [if_neg (by tauto), if_neg h2]
          rfl
      · rw [show (runWith P T).vdaf.verifyNext ctx st _ = .error (.value "joint randomness check failed") from
            verifyNext_ne (ctx := ctx) hc]
        by_cases h2 : t = 2
        · rw [if_pos h2]
          dsimp only
          unfold verdict
          rw [if_neg hc]
          rfl
        · rw [if_neg h2]
          rfl

end
end Vdaf.Prio3
