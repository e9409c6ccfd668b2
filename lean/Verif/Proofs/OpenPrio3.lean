import Verif.Proofs.OpenCost
import Verif.Proofs.StreamSample
import Verif.Props.PingPongAttack

/-! The privacy of Prio3 in the ping-pong topology with dishonest Clients, from C73. -/

set_option linter.unusedSectionVars false

namespace Vdaf.Open
open Spec PingPong

/-! ### The XOF -/

section
variable {A : Set Prims} {fuel : ℕ}

theorem uses_expandIntoVec (F : Type) [NttField F] (seed dst binder : Bytes) (length : ℕ) :
    Uses A 1 fun p => (XofTurboShake128 p fuel).expandIntoVec F seed dst binder length := by
  by_cases hd : dst.length < 2 ^ 16
  · by_cases hs : seed.length < 2 ^ 8
    · exact (Uses.shake (turboInput seed dst binder) fun s => sampS F s fuel 0 length >>= fun r => .ok r.1).congr
        fun p _ => (expand_sampS hd hs).symm
    · refine (Uses.const (Except.error (.value "bad to_le_bytes call"))).congr fun p _ => ?_
      unfold Xof.expandIntoVec
      rw [turbo_init, if_pos hd, if_neg hs]
      rfl
  · refine (Uses.const (Except.error (.value "bad to_le_bytes call"))).congr fun p _ => ?_
    unfold Xof.expandIntoVec
    rw [turbo_init, if_neg hd]
    rfl

theorem uses_deriveSeed (seed dst binder : Bytes) :
    Uses A 1 fun p => (XofTurboShake128 p fuel).deriveSeed seed dst binder := by
  by_cases hd : dst.length < 2 ^ 16
  · by_cases hs : seed.length < 2 ^ 8
    · refine (Uses.shake (turboInput seed dst binder) fun s => .ok (bytesAt s 0 32)).congr fun p _ => ?_
      unfold Xof.deriveSeed
      rw [turbo_init, if_pos hd, if_pos hs]
      rfl
    · refine (Uses.const (Except.error (.value "bad to_le_bytes call"))).congr fun p _ => ?_
      unfold Xof.deriveSeed
      rw [turbo_init, if_pos hd, if_neg hs]
      rfl
  · refine (Uses.const (Except.error (.value "bad to_le_bytes call"))).congr fun p _ => ?_
    unfold Xof.deriveSeed
    rw [turbo_init, if_neg hd]
    rfl
end

/-! ### Prio3 -/

section
variable {F : Type} [NttField F] {Meas Agg : Type} {prims : Prims} {fuel : ℕ} {A : Set Prims}

/-- The same instance, computing with other primitives -/
def withPrims (P : Prio3 (XofTurboShake128 prims fuel) F Meas Agg) (p : Prims) :
    Prio3 (XofTurboShake128 p fuel) F Meas Agg := ⟨P.id, P.shares, P.proofs, P.flp, P.proofLen⟩

variable (P : Prio3 (XofTurboShake128 prims fuel) F Meas Agg)

theorem withPrims_decodeBlind (p : Prims) : (withPrims P p).decodeBlind = P.decodeBlind := by
  funext x
  unfold Prio3.decodeBlind
  dsimp only [withPrims, XofTurboShake128]
  rfl

theorem withPrims_decodePublicShare (p : Prims) :
    (withPrims P p).decodePublicShare = P.decodePublicShare := by
  funext x
  unfold Prio3.decodePublicShare
  dsimp only [withPrims, XofTurboShake128]
  rfl

theorem withPrims_decodeInputShare (p : Prims) :
    (withPrims P p).decodeInputShare = P.decodeInputShare := by
  funext x y
  unfold Prio3.decodeInputShare
  rw [withPrims_decodeBlind]
  dsimp only [withPrims, XofTurboShake128]

theorem withPrims_encodeVerifierShare (p : Prims) :
    (withPrims P p).encodeVerifierShare = P.encodeVerifierShare := by
  funext x
  unfold Prio3.encodeVerifierShare
  dsimp only [withPrims, XofTurboShake128]
  rfl

theorem withPrims_decodeVerifierShare (p : Prims) :
    (withPrims P p).decodeVerifierShare = P.decodeVerifierShare := by
  funext x y
  unfold Prio3.decodeVerifierShare
  rw [withPrims_decodeBlind]
  dsimp only [withPrims, XofTurboShake128]

theorem prio3_static : Static (fun p => (withPrims P p).vdaf) prims where
  rounds _ := (rfl : (1 : ℕ) = 1)
  isValid _ := (rfl : Prio3.isValid = Prio3.isValid)
  aggUpdate _ := (rfl : Prio3.aggUpdate (F := F) = Prio3.aggUpdate)
  decodeAggParam _ := (rfl : Prio3.decodeAggParam = Prio3.decodeAggParam)
  decodePublicShare p := (withPrims_decodePublicShare P p).trans (withPrims_decodePublicShare P prims).symm
  decodeInputShare p := (withPrims_decodeInputShare P p).trans (withPrims_decodeInputShare P prims).symm
  encodeVerifierShare p := (withPrims_encodeVerifierShare P p).trans (withPrims_encodeVerifierShare P prims).symm
  decodeVerifierShare p := (withPrims_decodeVerifierShare P p).trans (withPrims_decodeVerifierShare P prims).symm
  encodeVerifierMessage _ := (rfl : Prio3.encodeVerifierMessage = Prio3.encodeVerifierMessage)
  decodeVerifierMessage _ := (rfl : Prio3.decodeVerifierMessage (F := F) = Prio3.decodeVerifierMessage)

theorem uses_helperMeasShare (ctx : Bytes) (j : ℕ) (share : Bytes) :
    Uses A 1 fun p => (withPrims P p).helperMeasShare ctx j share := by
  unfold Prio3.helperMeasShare
  refine Uses.bindConst (domainSeparationTag P.id USAGE_MEAS_SHARE ctx) (fun _ _ => rfl) fun dst _ => ?_
  refine Uses.bindConst (byte j) (fun _ _ => rfl) fun b _ => ?_
  exact uses_expandIntoVec F share dst b P.flp.measLen

theorem uses_helperProofsShare (ctx : Bytes) (j : ℕ) (share : Bytes) :
    Uses A 1 fun p => (withPrims P p).helperProofsShare ctx j share := by
  unfold Prio3.helperProofsShare
  refine Uses.bindConst (domainSeparationTag P.id USAGE_PROOF_SHARE ctx) (fun _ _ => rfl) fun dst _ => ?_
  refine Uses.bindConst (byte P.proofs) (fun _ _ => rfl) fun b _ => ?_
  refine Uses.bindConst (byte j) (fun _ _ => rfl) fun b' _ => ?_
  exact uses_expandIntoVec F share dst (b ++ b') (P.proofLen * P.proofs)

theorem uses_queryRands (vk ctx nonce : Bytes) : Uses A 1 fun p => (withPrims P p).queryRands vk ctx nonce := by
  unfold Prio3.queryRands
  refine Uses.bindConst (domainSeparationTag P.id USAGE_QUERY_RANDOMNESS ctx) (fun _ _ => rfl) fun dst _ => ?_
  refine Uses.bindConst (byte P.proofs) (fun _ _ => rfl) fun b _ => ?_
  exact uses_expandIntoVec F vk dst (b ++ nonce) (P.flp.queryRandLen * P.proofs)

theorem uses_jointRandPart (ctx : Bytes) (j : ℕ) (blind : Bytes) (meas : List F) (nonce : Bytes) :
    Uses A 1 fun p => (withPrims P p).jointRandPart ctx j blind meas nonce := by
  unfold Prio3.jointRandPart
  refine Uses.bindConst (domainSeparationTag P.id USAGE_JOINT_RAND_PART ctx) (fun _ _ => rfl) fun dst _ => ?_
  refine Uses.bindConst (byte j) (fun _ _ => rfl) fun b _ => ?_
  refine Uses.bindConst (encodeVec meas) (fun _ _ => rfl) fun e _ => ?_
  exact uses_deriveSeed blind dst (b ++ nonce ++ e)

theorem uses_jointRandSeed (ctx : Bytes) (parts : List Bytes) :
    Uses A 1 fun p => (withPrims P p).jointRandSeed ctx parts := by
  unfold Prio3.jointRandSeed
  refine Uses.bindConst (domainSeparationTag P.id USAGE_JOINT_RAND_SEED ctx) (fun _ _ => rfl) fun dst _ => ?_
  exact uses_deriveSeed (zeros 32) dst (concat parts)

theorem uses_jointRands (ctx seed : Bytes) : Uses A 1 fun p => (withPrims P p).jointRands ctx seed := by
  unfold Prio3.jointRands
  refine Uses.bindConst (domainSeparationTag P.id USAGE_JOINT_RANDOMNESS ctx) (fun _ _ => rfl) fun dst _ => ?_
  refine Uses.bindConst (byte P.proofs) (fun _ _ => rfl) fun b _ => ?_
  exact uses_expandIntoVec F seed dst b (P.flp.jointRandLen * P.proofs)

theorem uses_expandInputShare (ctx : Bytes) (j : ℕ) (share : Prio3InputShare F) :
    Uses A 2 fun p => (withPrims P p).expandInputShare ctx j share := by
  unfold Prio3.expandInputShare
  split
  · cases share with
    | helper s blind =>
      refine Uses.bind (c := 1) (d := 1) (uses_helperMeasShare P ctx j s) fun meas => ?_
      exact (uses_helperProofsShare P ctx j s).map fun r => r >>= fun proofs => pure (meas, proofs, blind)
    | leader => exact Uses.const _
  · cases share <;> exact Uses.const _

theorem uses_verifyJointRand (ctx : Bytes) (j : ℕ) (nonce : Bytes) (parts : Option (List Bytes)) (meas : List F)
    (blind : Option Bytes) : Uses A 3 fun p => (withPrims P p).verifyJointRand ctx j nonce parts meas blind := by
  unfold Prio3.verifyJointRand
  refine Uses.congr (f := fun p => if P.flp.jointRandLen > 0 then _ else _) ?_ fun p _ => rfl
  split
  · cases blind with
    | none => exact Uses.const _
    | some blind =>
      cases parts with
      | none => exact Uses.const _
      | some parts =>
        refine Uses.bind (c := 1) (d := 2) (uses_jointRandPart P ctx j blind meas nonce) fun part => ?_
        refine Uses.bindConst (setI parts j part) (fun _ _ => rfl) fun parts' _ => ?_
        refine Uses.bind (c := 1) (d := 1) (uses_jointRandSeed P ctx parts') fun seed => ?_
        exact (uses_jointRands P ctx seed).map fun r => r >>= fun x => pure (x, some seed, some part)
  · exact Uses.const _

theorem uses_verifyInit (vk ctx : Bytes) (j : ℕ) (nonce : Bytes) (pub : Option (List Bytes)) (share : Prio3InputShare F) :
    Uses A 6 fun p => (withPrims P p).verifyInit vk ctx j () nonce pub share := by
  unfold Prio3.verifyInit
  refine Uses.bind (c := 2) (d := 4) (uses_expandInputShare P ctx j share) fun x => ?_
  dsimp only
  refine Uses.bindConst (P.flp.truncate x.1) (fun _ _ => rfl) fun out _ => ?_
  refine Uses.bind (c := 3) (d := 1) (uses_verifyJointRand P ctx j nonce pub x.1 x.2.2) fun y => ?_
  exact (uses_queryRands P vk ctx nonce).map fun r => r >>= fun rands =>
    P.queryLoop x.1 x.2.1 rands y.1 >>= fun v => pure ((out, y.2.1), (v, y.2.2))

theorem uses_sharesToMessage (ctx : Bytes) (shares : List (List F × Option Bytes)) :
    Uses A 1 fun p => (withPrims P p).sharesToMessage ctx () shares := by
  unfold Prio3.sharesToMessage
  refine Uses.bindConst (forFold shares (fieldZeros F (P.flp.verifierLen * P.proofs), ([] : List Bytes))
      fun (verifiers, jointRandParts) (verifiersShare, part) => do
        let verifiers ← vecAdd verifiers verifiersShare
        let jointRandParts ← P.appendPart jointRandParts part
        return (verifiers, jointRandParts)) (fun _ _ => rfl) fun x _ => ?_
  refine Uses.bindConst (P.decideLoop x.1) (fun _ _ => rfl) fun _ _ => ?_
  refine Uses.congr (f := fun p => if P.flp.jointRandLen > 0 then _ else _) ?_ fun p _ => rfl
  split
  · exact (uses_jointRandSeed P ctx x.2).map fun r => r >>= fun seed => pure (some seed)
  · exact Uses.const _

theorem prio3_feasible (isLeader : Bool) (vk ctx : Bytes) (σ : List (PeerReply (List F)) → OpenMove) :
    Feasible (fun p => (withPrims P p).vdaf) Set.univ 7 isLeader vk ctx σ := by
  have hM := fun (ctx : Bytes) (a : Unit) shares => uses_sharesToMessage (A := Set.univ) P ctx shares
  have hN := fun (ctx : Bytes) st (msg : Option Bytes) => Uses.const (A := Set.univ) (c := 0)
    (Prio3.verifyNext (F := F) ctx st msg)
  refine fun s j aggParam inbound => ⟨fun _ => ?_, fun _ => ?_⟩
  · exact uses_start (cI := 6) (cM := 1) (prio3_static P) hM hN s.submitted s.own j aggParam inbound
      fun a _ j nonce pub share => uses_verifyInit P vk ctx j nonce pub share
  · exact (uses_deliver (cM := 1) (prio3_static P) hM hN s.submitted s.own j aggParam inbound).mono (by omega)

end
end Vdaf.Open
