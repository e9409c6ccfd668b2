import Verif.Proofs.Agreement
import Verif.Props.Privacy

/-!
# Property C90: do the Leader and the Helper agree on which reports they accept?

Both Aggregators are honest and follow the ping-pong functions, and all messages are delivered; the encoded public share,
the input shares and the nonce are arbitrary, as if from a malicious Client.
-/

namespace Vdaf
open Spec

/-- C90, for every VDAF with any number of rounds and for any number of delivered messages: a party that is `Finished` (it
accepted upon the last message) never accepts alone; the other one, which sent the last message, has accepted. -/
theorem C90_last_message
    {Meas AggParam PubShare InShare OutShare AggShare AggRes VState VShare VMsg : Type}
    (V : VdafImpl Meas AggParam PubShare InShare OutShare AggShare AggRes VState VShare VMsg)
    (verifyKey ctx aggParam nonce publicShare leaderShare helperShare : Bytes) (n c : ℕ)
    (l h : PingPongState VState VShare OutShare)
    (he : exchange V verifyKey ctx aggParam nonce publicShare leaderShare helperShare n = .ok (l, h, c)) :
    ((∃ o, l = .finished o) → ∃ o m, h = .finishedWithOutbound o m) ∧
    ((∃ o, h = .finished o) → ∃ o m, l = .finishedWithOutbound o m) :=
  PingPong.exchange_paired he

section
variable {F : Type} [NttField F] {Meas Agg : Type} {prims : Prims} {fuel : ℕ}

/-- C90 for Prio3, over any circuit: if the Leader accepts, so does the Helper.  The converse is missing (and false, see
`C90_counterexample`) if the circuit uses joint randomness. -/
theorem C90_prio3_partial (P : Prio3 (XofTurboShake128 prims fuel) F Meas Agg)
    (verifyKey ctx aggParam nonce publicShare leaderShare helperShare : Bytes) (n c : ℕ) (hn : 1 ≤ n)
    (l h : PingPongState (List F × Option Bytes) (List F × Option Bytes) (List F))
    (he : exchange P.vdaf verifyKey ctx aggParam nonce publicShare leaderShare helperShare n = .ok (l, h, c)) :
    Accepted l → Accepted h :=
  Prio3.exchange_helper hn he

/-- C90 for Prio3 over a circuit without joint randomness: the Leader accepts if and only if the Helper does. -/
theorem C90_prio3_no_joint_rand (P : Prio3 (XofTurboShake128 prims fuel) F Meas Agg) (hj : P.flp.jointRandLen = 0)
    (verifyKey ctx aggParam nonce publicShare leaderShare helperShare : Bytes) (n c : ℕ) (hn : 1 ≤ n)
    (l h : PingPongState (List F × Option Bytes) (List F × Option Bytes) (List F))
    (he : exchange P.vdaf verifyKey ctx aggParam nonce publicShare leaderShare helperShare n = .ok (l, h, c)) :
    Accepted l ↔ Accepted h :=
  ⟨Prio3.exchange_helper hn he, Prio3.exchange_leader hj hn he⟩

/-- C90 for Prio3 with two Aggregators over any circuit: the Leader accepts if and only if the Helper does, provided that the
Client published the part of the joint randomness that the Helper computes (`share.2`, which it sends with its verifier
share).  This is all that is missing in `C90_prio3_partial`. -/
theorem C90_prio3_published (P : Prio3 (XofTurboShake128 prims fuel) F Meas Agg) (hs : P.shares = 2)
    (verifyKey ctx aggParam nonce publicShare leaderShare helperShare : Bytes) (n c : ℕ) (hn : 1 ≤ n)
    (hp : ∀ parts s state share, P.decodePublicShare publicShare = .ok (some parts) →
      P.decodeInputShare 1 helperShare = .ok s →
      P.verifyInit verifyKey ctx 1 () nonce (some parts) s = .ok (state, share) → share.2 = parts[1]?)
    (l h : PingPongState (List F × Option Bytes) (List F × Option Bytes) (List F))
    (he : exchange P.vdaf verifyKey ctx aggParam nonce publicShare leaderShare helperShare n = .ok (l, h, c)) :
    Accepted l ↔ Accepted h :=
  ⟨Prio3.exchange_helper hn he, Prio3.exchange_leader_parts hs hn hp he⟩

end

/-- C90 for Poplar1: the Leader accepts if and only if the Helper does. -/
theorem C90_poplar1 (P : Poplar1) (prims : Prims) (fuel : ℕ)
    (verifyKey ctx aggParam nonce publicShare leaderShare helperShare : Bytes) (n c : ℕ) (hn : 2 ≤ n)
    (l h : PingPongState Poplar1VerifyState FieldVec FieldVec)
    (he : exchange (P.vdaf prims fuel) verifyKey ctx aggParam nonce publicShare leaderShare helperShare n = .ok (l, h, c)) :
    Accepted l ↔ Accepted h :=
  Poplar1.exchange_agree hn he

/-! ## The converse is false with joint randomness

The malicious Client changes, in the public share, the part of the joint randomness that belongs to the Helper.  The Helper
replaces it by the part that it computes; the Leader uses it and so computes another seed than the one in the verifier
message.  An honest proof would then be rejected by the Helper.  But if all elements of the encoded measurement are one,
then one of the two factors of every multiplication of the range check is zero; with the seeds of these wires zero, too, the
proof is valid whatever joint randomness each of the Aggregators uses.  So the Helper accepts, and the Leader rejects. -/

/-- 1: accepted; 2: rejected; 0: neither -/
def verdict {VState VShare OutShare : Type} : PingPongState VState VShare OutShare → ℕ
  | .finished _ => 1
  | .finishedWithOutbound _ _ => 1
  | .rejected => 2
  | _ => 0

theorem accepted_iff_verdict {VState VShare OutShare : Type} (s : PingPongState VState VShare OutShare) :
    Accepted s ↔ verdict s = 1 := by
  cases s <;> simp [Accepted, verdict]

/-- `Prio3Histogram` with two Aggregators and one bucket -/
def agreementExample (prims : Prims) : Prio3 (XofTurboShake128 prims 40) Field128 Int (List Nat) :=
  ⟨4, 2, 1, Histogram.circuit Field128 1 1, 5⟩

/-- The verdicts on a report that an honest Client generated, except that the proof is `proof` if it is given, and that
`f` changed the encoded public share -/
def agreementRun (prims : Prims) (proof : Option (List Field128)) (f : Bytes → Bytes) : Res (ℕ × ℕ) := do
  let P := agreementExample prims
  let (pub, ish) ← P.shard [1] 0 (List.replicate 16 3) (List.replicate 128 7)
  let p ← P.vdaf.encodePublicShare pub
  let s0 ← getI ish 0
  let s1 ← getI ish 1
  let s0 ← (match proof, s0, s1 with
    | some proof, .leader m _ b, .helper seed _ => do
      let hp ← P.helperProofsShare [1] 1 seed
      let p0 ← vecSub proof hp
      .ok (.leader m p0 b)
    | _, s0, _ => .ok s0 : Res (Prio3InputShare Field128))
  let b0 ← P.vdaf.encodeInputShare s0
  let b1 ← P.vdaf.encodeInputShare s1
  let (l, h, _) ← exchange P.vdaf (List.replicate 32 5) [1] [] (List.replicate 16 3) (f p) b0 b1 1
  return (verdict l, verdict h)

/-- The proof consists of the two wire seeds 5 and 0 and of the gadget polynomial 0. -/
theorem agreementRun_changed :
    agreementRun toyPrims (some [5, 0, 0, 0, 0]) (fun p => p.take 32 ++ List.replicate 32 0) = .ok (2, 1) := by
  decide +kernel

/-- C90 is false for `Prio3Histogram`: the Helper accepts a report that the Leader rejects.  (The same attack is run with
TurboSHAKE128 in `Verif/Vectors.lean`.) -/
theorem C90_counterexample : Prio3Histogram toyPrims 40 2 1 1 = .ok (agreementExample toyPrims) ∧
    ∃ publicShare leaderShare helperShare c l h,
      exchange (agreementExample toyPrims).vdaf (List.replicate 32 5) [1] [] (List.replicate 16 3) publicShare leaderShare
        helperShare 1 = .ok (l, h, c) ∧ l = .rejected ∧ Accepted h := by
  refine ⟨rfl, ?_⟩
  have h := agreementRun_changed
  unfold agreementRun at h
  dsimp only at h
  rw [Except.bind_eq_ok] at h; obtain ⟨⟨pub, ish⟩, -, h⟩ := h
  dsimp only at h
  rw [Except.bind_eq_ok] at h; obtain ⟨p, -, h⟩ := h
  rw [Except.bind_eq_ok] at h; obtain ⟨s0, -, h⟩ := h
  rw [Except.bind_eq_ok] at h; obtain ⟨s1, -, h⟩ := h
  rw [Except.bind_eq_ok] at h; obtain ⟨s0', -, h⟩ := h
  rw [Except.bind_eq_ok] at h; obtain ⟨b0, -, h⟩ := h
  rw [Except.bind_eq_ok] at h; obtain ⟨b1, -, h⟩ := h
  rw [Except.bind_eq_ok] at h; obtain ⟨⟨l, hs, c⟩, he, h⟩ := h
  simp only [Except.pure_eq', Except.ok.injEq, Prod.mk.injEq] at h
  refine ⟨_, _, _, _, _, _, he, ?_, (accepted_iff_verdict _).2 h.2⟩
  cases l <;> simp [verdict] at h ⊢

/-! ## Examples -/

-- both accept the honest report, and also the other proof with the honest public share
example : agreementRun toyPrims none id = .ok (1, 1) ∧ agreementRun toyPrims (some [5, 0, 0, 0, 0]) id = .ok (1, 1) := by
  decide +kernel

-- with an honest proof, the Helper rejects whichever part is changed
example : agreementRun toyPrims none (fun p => List.replicate 32 0 ++ p.drop 32) = .ok (0, 2) ∧
    agreementRun toyPrims none (fun p => p.take 32 ++ List.replicate 32 0) = .ok (0, 2) := by decide +kernel

-- an honest Client publishes the part that the Helper computes
example : (do
    let P := agreementExample toyPrims
    let (pub, ish) ← P.shard [1] 0 (List.replicate 16 3) (List.replicate 128 7)
    let p ← P.vdaf.encodePublicShare pub
    let b1 ← P.encodeInputShare (← getI ish 1)
    let pub' ← P.decodePublicShare p
    let s ← P.decodeInputShare 1 b1
    let (_, share) ← P.verifyInit (List.replicate 32 5) [1] 1 () (List.replicate 16 3) pub' s
    return (share.2.isSome && share.2 == (pub'.getD [])[1]?)) = .ok true := by decide +kernel

-- Poplar1: both accept an honest report
example : (do
    let P ← Poplar1.init 2
    let V := P.vdaf toyPrims 40
    let (pub, ish) ← P.shard toyPrims 40 [1] [true, false] (List.replicate 16 3) (List.replicate 128 7)
    let p ← V.encodePublicShare pub
    let b0 ← V.encodeInputShare (← getI ish 0)
    let b1 ← V.encodeInputShare (← getI ish 1)
    let a ← V.encodeAggParam (0, [[false], [true]])
    let run := fun i1 => do
      let (l, h, _) ← exchange V (List.replicate 32 5) [1] a (List.replicate 16 3) p b0 i1 2
      return (verdict l, verdict h)
    return (← run b1, (← run (List.replicate 128 0)))) = .ok ((1, 1), (2, 0)) := by decide +kernel

-- `Count` has no joint randomness
example : (Count Field64).jointRandLen = 0 := rfl

end Vdaf
