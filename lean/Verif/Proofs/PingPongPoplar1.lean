import Verif.Spec.PingPongAttack
import Verif.Proofs.Simulate
import Verif.Proofs.PingPongInst
import Verif.Proofs.FuelPoplar1
import Verif.Proofs.Poplar1Run
import Verif.Proofs.Poplar1Valid

/-! The Aggregators of Poplar1 in the ping-pong topology, with honest Clients: what they do with the bytes that they get. -/

set_option linter.unusedSectionVars false

namespace Vdaf.Poplar1
open Spec PingPong

/-- The states of an Aggregator of Poplar1 -/
abbrev PState := PingPongState Poplar1VerifyState FieldVec FieldVec

/-- An exception leads to `Rejected`. -/
def settle (r : Res PState) : PState :=
  match r with
  | .ok s => s
  | .error _ => .rejected

theorem catchAll_settle {r : Res PState} (h : NF r) : catchAll r = .ok (settle r) := by
  cases r with
  | ok s => rfl
  | error e =>
    cases e <;> first | rfl | exact absurd rfl h.1

section
variable (P : Poplar1)

/-- The first message of the Leader, from its verifier share -/
def firstOut (own : FieldVec) : Res Bytes := do
  let e ← encodeVerifierShare own
  encode 0 [e]

/-- The Helper's first verifier message and its encoding, from its verifier share and the Leader's message -/
def helperFirst (level : ℕ) (own : FieldVec) (inbound : Bytes) : Res (Option FieldVec × Bytes) := do
  let (t, items) ← decode inbound
  if t ≠ 0 then .error .type
  else do
    let e ← getI items 0
    let peer ← P.decodeAtLevel level e
    let m ← sharesToMessage [] (0, []) [peer, own]
    let b ← encodeVerifierMessage m
    return (m, b)

/-- The Helper's first message, from the encoded verifier message and its second verifier share -/
def helperOut (b : Bytes) (sh : FieldVec) : Res Bytes := do
  let e ← encodeVerifierShare sh
  encode 1 [b, e]

/-- The first verifier message for the Leader, and the encoded second verifier share of the Helper -/
def leaderFirst (level : ℕ) (inbound : Bytes) : Res (Option FieldVec × Bytes) := do
  let (t, items) ← decode inbound
  if t = 1 then do
    let e ← getI items 0
    let m ← P.decodeVerifierMessage ⟨.evaluate, level, ⟨.inner, []⟩⟩ e
    let e1 ← getI items 1
    return (m, e1)
  else .error .type

/-- The second verifier message of the Leader and its last message -/
def leaderSecond (level : ℕ) (own : FieldVec) (e1 : Bytes) : Res (Option FieldVec × Bytes) := do
  let peer ← P.decodeAtLevel level e1
  let m ← sharesToMessage [] (0, []) [own, peer]
  let b ← encodeVerifierMessage m
  let ob ← encode 2 [b]
  return (m, ob)

/-- The second verifier message for the Helper -/
def helperLast (level : ℕ) (inbound : Bytes) : Res (Option FieldVec) := do
  let (t, items) ← decode inbound
  if t = 2 then do
    let e ← getI items 0
    P.decodeVerifierMessage ⟨.evaluate, level, ⟨.inner, []⟩⟩ e
  else .error .type
end

/-- The new state of the Leader or the Helper at the beginning, given its first state and verifier share -/
def initState (P : Poplar1) (isLeader : Bool) (ctx : Bytes) (level : ℕ) (st : Poplar1VerifyState) (own : FieldVec)
    (inbound : Bytes) : PState :=
  if isLeader then settle do
    let ob ← firstOut own
    return .continued st 0 ob
  else settle do
    let (m, b) ← helperFirst P level own inbound
    let o ← verifyNext ctx st m
    let (st', sh') ← unpack o
    let ob ← helperOut b sh'
    return .continued st' 1 ob

section
variable {P : Poplar1} {prims : Prims} {fuel : ℕ} {vk ctx ap nonce pb b : Bytes} {a : Poplar1AggParam}
  {pub : List CorrectionWord} {s : Poplar1InputShare} {st : Poplar1VerifyState} {sh : FieldVec}

theorem NF_decode (b : Bytes) : NF (decode b) := ⟨PingPong.decode_ne_fuel b⟩
theorem NF_encode (t : ℕ) (l : List Bytes) : NF (encode t l) := ⟨PingPong.encode_ne_fuel t l⟩
theorem NF_share (v : FieldVec) : NF (encodeVerifierShare v) := NF.encodeIdpfFieldVec v
theorem NF_encMsg (m : Option FieldVec) : NF (encodeVerifierMessage m) := by
  cases m
  · exact NF.ok _
  · exact NF.encodeIdpfFieldVec _
theorem NF_decMsg (st : Poplar1VerifyState) (b : Bytes) : NF (P.decodeVerifierMessage st b) := by
  unfold decodeVerifierMessage
  refine NF.ite (NF.ok _) (NF.bind' (NF.decodeAtLevel _ _ _) fun _ => NF.pure _)
theorem NF_message (c : Bytes) (a : Poplar1AggParam) (l : List FieldVec) : NF (sharesToMessage c a l) := by
  unfold sharesToMessage
  split
  · refine NF.bind' (NF.vecAddF _ _) fun v => ?_
    split
    · exact NF.ok _
    · exact NF.ite (NF.ok _) (NF.error (by intro h; cases h))
    · exact NF.error (by intro h; cases h)
  · exact NF.error (by intro h; cases h)
theorem NF_verifyNext (c : Bytes) (st : Poplar1VerifyState) (m : Option FieldVec) : NF (verifyNext c st m) := by
  unfold verifyNext
  split
  · split
    · exact NF.error (by intro h; cases h)
    · split
      · nf
      · exact NF.error (by intro h; cases h)
  · split
    · exact NF.ok _
    · exact NF.error (by intro h; cases h)
theorem NF_unpack (o : Next Poplar1VerifyState FieldVec FieldVec) : NF (unpack o) := by
  cases o
  · exact NF.ok _
  · exact NF.error (by intro h; cases h)
theorem NF_decodeAggParam (e : Bytes) : NF (decodeAggParam e) := by
  unfold decodeAggParam decodePrefix
  refine NF.bind' (NF.front _ _) fun x => NF.bind' (NF.front _ _) fun y => NF.bind' (NF.front _ _) fun z =>
    NF.bind' (NF.mapRes fun c => ?_) fun _ => NF.bind' (NF.raiseIf _ _) fun _ => NF.pure _
  split
  · exact NF.error (by intro h; cases h)
  · nf

theorem leaderInit_eq (h0 : decodeAggParam ap = .ok a) (h1 : P.decodePublicShare pb = .ok pub)
    (h2 : P.decodeInputShare prims fuel 0 b = .ok s) :
    leaderInit (P.vdaf prims fuel) vk ctx ap nonce pb b = catchAll (do
      let (st, sh) ← P.verifyInit prims fuel vk ctx 0 a nonce pub s
      let ob ← firstOut sh
      return .continued st 0 ob) := by
  unfold leaderInit
  rw [show (P.vdaf prims fuel).decodeAggParam ap = .ok a from h0]
  simp only [Except.ok_bind']
  rw [show (P.vdaf prims fuel).decodePublicShare pb = .ok pub from h1]
  simp only [Except.ok_bind']
  rw [show (P.vdaf prims fuel).decodeInputShare 0 b = .ok s from h2]
  simp only [Except.ok_bind', firstOut, bind_assoc]
  rfl

theorem transition_eq {r : ℕ} {l : List FieldVec} :
    transition (P.vdaf prims fuel) ctx a l st r = (do
      let m ← sharesToMessage [] (0, []) l
      let b ← encodeVerifierMessage m
      let o ← verifyNext ctx st m
      if r + 1 = 2 then do
        let ob ← encode 2 [b]
        return .finishedWithOutbound o ob
      else do
        let (st', sh') ← unpack o
        let ob ← helperOut b sh'
        return .continued st' (r + 1) ob) := by
  unfold transition helperOut
  simp only [bind_assoc]
  rfl

theorem helperInit_eq {inbound : Bytes} (h0 : decodeAggParam ap = .ok a) (h1 : P.decodePublicShare pb = .ok pub)
    (h2 : P.decodeInputShare prims fuel 1 b = .ok s) :
    helperInit (P.vdaf prims fuel) vk ctx ap nonce pb b inbound = catchAll (do
      let (st, sh) ← P.verifyInit prims fuel vk ctx 1 a nonce pub s
      let (t, items) ← decode inbound
      if t ≠ 0 then return .rejected
      else do
        let e ← getI items 0
        let peer ← P.decodeAtLevel st.level e
        transition (P.vdaf prims fuel) ctx a [peer, sh] st 0) := by
  unfold helperInit
  rw [show (P.vdaf prims fuel).decodeAggParam ap = .ok a from h0]
  simp only [Except.ok_bind']
  rw [show (P.vdaf prims fuel).decodePublicShare pb = .ok pub from h1]
  simp only [Except.ok_bind']
  rw [show (P.vdaf prims fuel).decodeInputShare 1 b = .ok s from h2]
  simp only [Except.ok_bind']
  rfl

theorem leaderInit_ok (h0 : decodeAggParam ap = .ok a) (h1 : P.decodePublicShare pb = .ok pub)
    (h2 : P.decodeInputShare prims fuel 0 b = .ok s) (h3 : P.verifyInit prims fuel vk ctx 0 a nonce pub s = .ok (st, sh))
    (inbound : Bytes) :
    leaderInit (P.vdaf prims fuel) vk ctx ap nonce pb b = .ok (initState P true ctx a.1 st sh inbound) := by
  rw [leaderInit_eq h0 h1 h2, h3]
  simp only [Except.ok_bind']
  refine catchAll_settle (NF.bind' ?_ fun _ => NF.pure _)
  exact NF.bind' (NF_share _) fun _ => NF_encode _ _

theorem leaderInit_error (h0 : decodeAggParam ap = .ok a) (h1 : P.decodePublicShare pb = .ok pub)
    (h2 : P.decodeInputShare prims fuel 0 b = .ok s) {e : Err}
    (h3 : P.verifyInit prims fuel vk ctx 0 a nonce pub s = .error e) :
    leaderInit (P.vdaf prims fuel) vk ctx ap nonce pb b = catchAll (.error e) := by
  rw [leaderInit_eq h0 h1 h2, h3]
  rfl

theorem helperInit_error (h0 : decodeAggParam ap = .ok a) (h1 : P.decodePublicShare pb = .ok pub)
    (h2 : P.decodeInputShare prims fuel 1 b = .ok s) {e : Err}
    (h3 : P.verifyInit prims fuel vk ctx 1 a nonce pub s = .error e) (inbound : Bytes) :
    helperInit (P.vdaf prims fuel) vk ctx ap nonce pb b inbound = catchAll (.error e) := by
  rw [helperInit_eq h0 h1 h2, h3]
  rfl

theorem NF_transition {r : ℕ} {l : List FieldVec} : NF (transition (P.vdaf prims fuel) ctx a l st r) := by
  rw [transition_eq]
  refine NF.bind' (NF_message _ _ _) fun _ => NF.bind' (NF_encMsg _) fun _ => NF.bind' (NF_verifyNext _ _ _) fun _ => ?_
  refine NF.ite (NF.bind' (NF_encode _ _) fun _ => NF.pure _) (NF.bind' (NF_unpack _) fun _ => NF.bind' ?_ fun _ => NF.pure _)
  exact NF.bind' (NF_share _) fun _ => NF_encode _ _

theorem helperInit_ok (h0 : decodeAggParam ap = .ok a) (h1 : P.decodePublicShare pb = .ok pub)
    (h2 : P.decodeInputShare prims fuel 1 b = .ok s) (h3 : P.verifyInit prims fuel vk ctx 1 a nonce pub s = .ok (st, sh))
    (hl : st.level = a.1) (inbound : Bytes) :
    helperInit (P.vdaf prims fuel) vk ctx ap nonce pb b inbound = .ok (initState P false ctx a.1 st sh inbound) := by
  rw [helperInit_eq h0 h1 h2, h3]
  simp only [Except.ok_bind']
  rw [catchAll_settle]
  · rw [hl]
    unfold initState helperFirst
    rw [if_neg (by simp)]
    congr 1
    cases decode inbound with
    | error e => rfl
    | ok r =>
      obtain ⟨t, items⟩ := r
      simp only [Except.ok_bind']
      by_cases ht : t = 0
      · rw [if_neg (by simpa using ht), if_neg (by simpa using ht)]
        simp only [bind_assoc, transition_eq]
        rfl
      · rw [if_pos ht, if_pos ht]
        rfl
  · refine NF.bind' (NF_decode _) fun _ => NF.ite (NF.pure _) (NF.bind' (NF.getI _ _) fun _ =>
      NF.bind' (NF.decodeAtLevel _ _ _) fun _ => NF_transition)

/-- What the Leader does with a message -/
def leaderState (P : Poplar1) (ctx : Bytes) (level : ℕ) (st : Poplar1VerifyState) (inbound : Bytes) : PState :=
  settle do
    let (m, e1) ← leaderFirst P level inbound
    let o ← verifyNext ctx st m
    let (st', sh') ← unpack o
    let (m', ob) ← leaderSecond P level sh' e1
    let o' ← verifyNext ctx st' m'
    return .finishedWithOutbound o' ob

/-- What the Helper does with the second message -/
def helperState (P : Poplar1) (ctx : Bytes) (level : ℕ) (st : Poplar1VerifyState) (inbound : Bytes) : PState :=
  settle do
    let m ← helperLast P level inbound
    let o ← verifyNext ctx st m
    return .finished o

theorem NF_continued {l : Bool} {r : ℕ} {inbound : Bytes} {V : VdafImpl (List Bool) Poplar1AggParam (List CorrectionWord)
    Poplar1InputShare FieldVec FieldVec (List Nat) Poplar1VerifyState FieldVec (Option FieldVec)} (hV : V = P.vdaf prims fuel) :
    NF (do
  let (inboundType, inboundItems) ← decode inbound
  if inboundType = 0 then return (.rejected : PState)
  else do
    let encodedVerifierMessage ← getI inboundItems 0
    let verifierMessage ← V.decodeVerifierMessage st encodedVerifierMessage
    let out ← V.verifyNext ctx st verifierMessage
    if r + 1 < V.rounds ∧ inboundType = 1 then do
      let (verifyState, verifierShare) ← unpack out
      let encodedVerifierShare ← getI inboundItems 1
      let peer ← V.decodeVerifierShare verifyState encodedVerifierShare
      let verifierShares := [peer, verifierShare]
      let verifierShares := if l then verifierShares.reverse else verifierShares
      let aggParam ← V.decodeAggParam ap
      transition V ctx aggParam verifierShares verifyState (r + 1)
    else if r + 1 = V.rounds ∧ inboundType = 2 then return .finished out
    else return .rejected) := by
  subst hV
  refine NF.bind' (NF_decode _) fun x => ?_
  obtain ⟨t, items⟩ := x
  refine NF.ite (NF.pure _) (NF.bind' (NF.getI _ _) fun e => NF.bind' (NF_decMsg _ _) fun m =>
    NF.bind' (NF_verifyNext ctx st m) fun o => NF.ite ?_ (NF.ite (NF.pure _) (NF.pure _)))
  refine NF.bind' (NF_unpack _) fun y => ?_
  obtain ⟨st', sh'⟩ := y
  exact NF.bind' (NF.getI _ _) fun _ => NF.bind' (NF.decodeAtLevel _ _ _) fun _ =>
    NF.bind' (NF_decodeAggParam _) fun _ => NF_transition

theorem decMsg_level {st' : Poplar1VerifyState} (h : st.level = st'.level) (e : Bytes) :
    P.decodeVerifierMessage st e = P.decodeVerifierMessage st' e := by
  unfold decodeVerifierMessage
  rw [h]

theorem verifyNext_level {m : Option FieldVec} {st' : Poplar1VerifyState} {sh' : FieldVec}
    (h : verifyNext ctx st m = .ok (.cont st' sh')) : st.step = .evaluate ∧ st'.step = .reveal ∧ st'.level = st.level := by
  unfold verifyNext at h
  split at h
  · rename_i hst
    split at h
    · cases h
    · split at h
      · rw [Except.bind_eq_ok] at h; obtain ⟨A, -, h⟩ := h
        rw [Except.bind_eq_ok] at h; obtain ⟨B, -, h⟩ := h
        rw [Except.bind_eq_ok] at h; obtain ⟨id, -, h⟩ := h
        cases h
        exact ⟨hst, rfl, rfl⟩
      · cases h
  · split at h <;> cases h

theorem leaderContinued_ok (h0 : decodeAggParam ap = .ok a) (hl : st.level = a.1) (inbound : Bytes) :
    leaderContinued (P.vdaf prims fuel) ctx ap st 0 inbound = .ok (leaderState P ctx a.1 st inbound) := by
  unfold leaderContinued continued
  rw [catchAll_settle (NF_continued rfl)]
  unfold leaderState leaderFirst
  congr 1
  cases decode inbound with
  | error e => rfl
  | ok r =>
    obtain ⟨t, items⟩ := r
    simp only [Except.ok_bind']
    by_cases h1 : t = 1
    · subst h1
      rw [if_neg (by decide), if_pos rfl]
      simp only [bind_assoc]
      cases getI items 0 with
      | error e => rfl
      | ok e =>
        simp only [Except.ok_bind']
        rw [show (P.vdaf prims fuel).decodeVerifierMessage st e =
          P.decodeVerifierMessage ⟨.evaluate, a.1, ⟨.inner, []⟩⟩ e from decMsg_level hl e]
        cases P.decodeVerifierMessage ⟨.evaluate, a.1, ⟨.inner, []⟩⟩ e with
        | error e => rfl
        | ok m =>
          simp only [Except.ok_bind']
          rw [show (P.vdaf prims fuel).verifyNext ctx st m = verifyNext ctx st m from rfl]
          simp only [if_pos (show 0 + 1 < (P.vdaf prims fuel).rounds ∧ True from ⟨Nat.lt_succ_self 1, trivial⟩)]
          cases hv : verifyNext ctx st m with
          | error e =>
            cases getI items 1 with
            | error e => rfl
            | ok x => simp only [Except.ok_bind', Except.pure_eq', hv]; rfl
          | ok o =>
            simp only [Except.ok_bind']
            cases hu : unpack o with
            | error e =>
              cases getI items 1 with
              | error e => rfl
              | ok x => simp only [Except.ok_bind', Except.pure_eq', hv, hu]; rfl
            | ok x =>
              obtain ⟨st', sh'⟩ := x
              simp only [Except.ok_bind']
              have hst' : st'.level = a.1 := by
                cases o with
                | out o => cases hu
                | cont st2 sh2 => cases hu; rw [(verifyNext_level hv).2.2, hl]
              cases getI items 1 with
              | error e => rfl
              | ok e1 =>
                simp only [Except.ok_bind', Except.pure_eq', hv, hu]
                unfold leaderSecond
                rw [show (P.vdaf prims fuel).decodeVerifierShare st' e1 = P.decodeAtLevel a.1 e1 by
                  show P.decodeAtLevel st'.level e1 = _
                  rw [hst']]
                simp only [bind_assoc]
                cases P.decodeAtLevel a.1 e1 with
                | error e => rfl
                | ok peer =>
                  simp only [Except.ok_bind']
                  rw [show (P.vdaf prims fuel).decodeAggParam ap = .ok a from h0]
                  simp only [Except.ok_bind', transition_eq, if_true]
                  rw [show [peer, sh'].reverse = [sh', peer] from rfl]
                  cases sharesToMessage [] (0, []) [sh', peer] with
                  | error e => rfl
                  | ok m2 =>
                    simp only [Except.ok_bind']
                    cases encodeVerifierMessage m2 with
                    | error e => rfl
                    | ok b2 =>
                      simp only [Except.ok_bind', show 0 + 1 + 1 = 2 from rfl, if_true]
                      cases encode 2 [b2] with
                      | error e => cases verifyNext ctx st' m2 <;> rfl
                      | ok ob =>
                        simp only [Except.ok_bind', Except.pure_eq']
    · rw [if_neg h1]
      by_cases h3 : t = 0
      · rw [if_pos h3]; rfl
      · rw [if_neg h3]
        cases getI items 0 with
        | error e => rfl
        | ok e =>
          simp only [Except.ok_bind']
          cases (P.vdaf prims fuel).decodeVerifierMessage st e with
          | error e => rfl
          | ok m =>
            simp only [Except.ok_bind']
            cases (P.vdaf prims fuel).verifyNext ctx st m with
            | error e => rfl
            | ok o =>
              simp only [Except.ok_bind']
              rw [if_neg (fun h => h1 h.2), if_neg (fun h => by
                have := h.1
                have : (P.vdaf prims fuel).rounds = 2 := rfl
                omega)]
              rfl

theorem helperContinued_ok (hl : st.level = a.1) (inbound : Bytes) :
    helperContinued (P.vdaf prims fuel) ctx ap st 1 inbound = .ok (helperState P ctx a.1 st inbound) := by
  unfold helperContinued continued
  rw [catchAll_settle (NF_continued rfl)]
  unfold helperState helperLast
  congr 1
  cases decode inbound with
  | error e => rfl
  | ok r =>
    obtain ⟨t, items⟩ := r
    simp only [Except.ok_bind']
    by_cases h3 : t = 0
    · subst h3
      rw [if_pos rfl, if_neg (by decide)]
      rfl
    rw [if_neg h3]
    by_cases h2 : t = 2
    · subst h2
      rw [if_pos rfl]
      simp only [bind_assoc]
      cases getI items 0 with
      | error e => rfl
      | ok e =>
        simp only [Except.ok_bind']
        rw [show (P.vdaf prims fuel).decodeVerifierMessage st e =
          P.decodeVerifierMessage ⟨.evaluate, a.1, ⟨.inner, []⟩⟩ e from decMsg_level hl e]
        cases P.decodeVerifierMessage ⟨.evaluate, a.1, ⟨.inner, []⟩⟩ e with
        | error e => rfl
        | ok m =>
          simp only [Except.ok_bind']
          rw [show (P.vdaf prims fuel).verifyNext ctx st m = verifyNext ctx st m from rfl]
          cases hv : verifyNext ctx st m with
          | error e => rfl
          | ok o => rfl
    · rw [if_neg h2]
      cases getI items 0 with
      | error e => rfl
      | ok e =>
        simp only [Except.ok_bind']
        cases (P.vdaf prims fuel).decodeVerifierMessage st e with
        | error e => rfl
        | ok m =>
          simp only [Except.ok_bind']
          cases (P.vdaf prims fuel).verifyNext ctx st m with
          | error e => rfl
          | ok o =>
            simp only [Except.ok_bind']
            rw [if_neg (fun h => by
              have := h.1
              have : (P.vdaf prims fuel).rounds = 2 := rfl
              omega), if_neg (fun h => h2 h.2)]
            rfl

end
end Vdaf.Poplar1
