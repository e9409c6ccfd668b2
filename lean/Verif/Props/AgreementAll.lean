import Verif.Proofs.AgreementAll
import Verif.Props.Agreement

/-!
# Property C91: which of several Aggregators accept a report, if all of them receive all verifier shares

All Aggregators are honest; the public share, the input shares and the nonce are arbitrary, as if from a malicious Client.
-/

namespace Vdaf
open Spec

section
variable {F : Type} [NttField F] {Meas Agg : Type} {prims : Prims} {fuel : ℕ}

/-- C91 for Prio3 over a circuit without joint randomness: if the verifier shares combine to a verifier message, then all the
Aggregators accept. -/
theorem C91_no_joint_rand (P : Prio3 (XofTurboShake128 prims fuel) F Meas Agg) (hj : P.flp.jointRandLen = 0)
    (verifyKey ctx nonce : Bytes) (pub : Option (List Bytes)) (ish : ℕ → Prio3InputShare F) (st sh : ℕ → List F × Option Bytes)
    (msg : Option Bytes) (h : Combined P verifyKey ctx nonce pub ish st sh msg) :
    ∀ j < P.shares, AcceptsMessage ctx (st j) msg :=
  fun _ hlt => Prio3.accepts_no_joint_rand hj h hlt

variable (P : Prio3 (XofTurboShake128 prims fuel) F Meas Agg) (hj : 0 < P.flp.jointRandLen) (verifyKey ctx nonce : Bytes)
  (parts : List Bytes) (ish : ℕ → Prio3InputShare F) (st sh : ℕ → List F × Option Bytes) (msg : Option Bytes)
  (own : ℕ → Bytes) (h : Combined P verifyKey ctx nonce (some parts) ish st sh msg)
  (ho : ∀ j < P.shares, (sh j).2 = some (own j))
  (hs : PublicShareShape P (some parts))
  (hc : NoSeedCollision P ctx parts own)
include hj h ho hs hc

/-- C91 for Prio3 over a circuit with joint randomness: if the verifier shares combine to a verifier message, then an
Aggregator accepts if and only if the parts of the joint randomness that the Client published for the others are those
that the others computed, `own`.  (The public share is any that `decode_public_share` returns, see `C26_C27`.) -/
theorem C91_accepts_iff (j : ℕ) (hlt : j < P.shares) :
    AcceptsMessage ctx (st j) msg ↔ ∀ i < P.shares, i ≠ j → parts[i]? = some (own i) :=
  Prio3.accepts_iff_parts hj h ho hs.2.1 hs.2.2 hc hlt

/-- C91: all the Aggregators accept, or at most one of them does. -/
theorem C91_all_or_one :
    (∀ j < P.shares, AcceptsMessage ctx (st j) msg) ∨
      ∃ k, ∀ j < P.shares, j ≠ k → ¬ AcceptsMessage ctx (st j) msg := by
  have key := C91_accepts_iff P hj verifyKey ctx nonce parts ish st sh msg own h ho hs hc
  by_cases hall : ∀ i < P.shares, parts[i]? = some (own i)
  · exact .inl fun j hlt => (key j hlt).2 fun i hi _ => hall i hi
  · push Not at hall
    obtain ⟨k, hk, hne⟩ := hall
    exact .inr ⟨k, fun j hlt hjk hacc => hne ((key j hlt).1 hacc k hk hjk.symm)⟩

end

/-- C91 for Poplar1: if the verifier shares of the last round combine to a verifier message, then both Aggregators accept. -/
theorem C91_poplar1 (P : Poplar1) (prims : Prims) (fuel : ℕ) (verifyKey ctx nonce : Bytes) (a : Poplar1AggParam)
    (pub : List CorrectionWord) (s : ℕ → Poplar1InputShare) (st : ℕ → Poplar1VerifyState) (sh : ℕ → FieldVec)
    (msg : Option FieldVec)
    (h : ∀ j < 2, Held (P.vdaf prims fuel) verifyKey ctx a nonce pub j (s j) 1 (st j) (sh j))
    (hm : Poplar1.sharesToMessage ctx a [sh 0, sh 1] = .ok msg) :
    ∀ j < 2, ∃ outShare, Poplar1.verifyNext ctx (st j) msg = .ok (.out outShare) :=
  fun _ hj => ⟨_, Poplar1.accepts_last h hm hj⟩

/-! ## Examples -/

/-- `Prio3Histogram` with three Aggregators and one bucket -/
def agreementExample3 : Prio3 (XofTurboShake128 toyPrims 40) Field128 Int (List Nat) :=
  ⟨4, 3, 1, Histogram.circuit Field128 1 1, 5⟩

/-- Which of the Aggregators accept a report with the proof of `C90_counterexample`, where `f` changed the published parts -/
def agreementRun3 (f : List Bytes → List Bytes) : Res (List Bool) := do
  let P := agreementExample3
  let (pub, ish) ← P.shard [1] 0 (List.replicate 16 3) (List.replicate P.randSize 7)
  let ish ← (match ish with
    | [.leader m _ b, .helper s1 b1, .helper s2 b2] => do
      let p0 ← vecSub (← vecSub [5, 0, 0, 0, 0] (← P.helperProofsShare [1] 1 s1)) (← P.helperProofsShare [1] 2 s2)
      .ok [.leader m p0 b, .helper s1 b1, .helper s2 b2]
    | ish => .ok ish : Res (List (Prio3InputShare Field128)))
  let vs ← mapRes (fun j => do
    P.verifyInit (List.replicate 32 5) [1] j () (List.replicate 16 3) (pub.map f) (← getI ish j)) (List.range 3)
  let msg ← P.sharesToMessage [1] () (vs.map Prod.snd)
  return vs.map fun v => (Prio3.verifyNext [1] v.1 msg).toOption.isSome

-- all three accept; only the first Helper does, if its part is changed; none does, if two parts are changed
example : Prio3Histogram toyPrims 40 3 1 1 = .ok agreementExample3 ∧ agreementRun3 id = .ok [true, true, true] ∧
    agreementRun3 (fun p => p.set 1 (List.replicate 32 0)) = .ok [false, true, false] ∧
    agreementRun3 (fun p => (p.set 1 (List.replicate 32 0)).set 2 (List.replicate 32 1)) = .ok [false, false, false] := by
  refine ⟨rfl, ?_⟩
  decide +kernel

-- no collision, for three computed parts and published ones of which one is different
example : NoSeedCollision agreementExample3 [1] [List.replicate 32 0, List.replicate 32 7, List.replicate 32 2]
    (fun j => List.replicate 32 (UInt8.ofNat j)) := by
  unfold NoSeedCollision
  decide +kernel

end Vdaf
