import Verif.Model.Vdaf
import Verif.Model.Xof
import Verif.Model.Circuits
import Verif.Model.Fields

/-!
# Model of `poc/vdaf_poc/vdaf_prio3.py`
-/

namespace Vdaf

/-- vdaf_prio3.py:13-19 -/
def USAGE_MEAS_SHARE : Nat := 1
def USAGE_PROOF_SHARE : Nat := 2
def USAGE_JOINT_RANDOMNESS : Nat := 3
def USAGE_PROVE_RANDOMNESS : Nat := 4
def USAGE_QUERY_RANDOMNESS : Nat := 5
def USAGE_JOINT_RAND_SEED : Nat := 6
def USAGE_JOINT_RAND_PART : Nat := 7

/-- vdaf_prio3.py:25-35 `Prio3InputShare` -/
inductive Prio3InputShare (F : Type) where
  | leader (measShare proofsShare : List F) (blind : Option Bytes)
  | helper (share : Bytes) (blind : Option Bytes)
deriving DecidableEq

/-- vdaf_prio3.py:45-87, the attributes of a `Prio3` instance.  `proofLen` is
`self.flp.PROOF_LEN`, computed once by `FlpBBCGGI19.__init__` (flp_bbcggi19.py:352-362).  The class attribute
`xof` is the parameter `X`. -/
structure Prio3 (X : Xof) (F Meas Agg : Type) where
  id : Nat
  /-- `SHARES` -/
  shares : Nat
  /-- `PROOFS` -/
  proofs : Nat
  flp : Valid F Meas Agg
  proofLen : Nat

/-- vdaf_prio3.py:68-87 `__init__`, together with the construction of the FLP from the
validity circuit.  `VERIFY_KEY_SIZE` is `xof.SEED_SIZE` in all instantiations. -/
def Prio3.init {F Meas Agg : Type} (id : Nat) (X : Xof) (shares : Nat) (flp : Valid F Meas Agg)
    (numProofs : Nat) : Res (Prio3 X F Meas Agg) := do
  let proofLen ← flp.proofLen
  raiseIf (¬ (2 ≤ shares ∧ shares < 256)) "invalid number of shares"
  return ⟨id, shares, numProofs, flp, proofLen⟩

/-- `[rand[i:i + l] for i in range(0, n * l, l)]` (vdaf_prio3.py:107-108) -/
def chunks (rand : Bytes) (n l : Nat) : List Bytes :=
  (List.range n).map fun i => slice rand (i * l) (i * l + l)

namespace Prio3
variable {X : Xof} {F : Type} [NttField F] {Meas Agg : Type} (P : Prio3 X F Meas Agg)

/-- vdaf_prio3.py:60 -/
def NONCE_SIZE : Nat := 16

/-- The number of seeds consumed by `shard` (vdaf_prio3.py:84-87) -/
def numSeeds : Nat := if P.flp.jointRandLen > 0 then P.shares + P.shares else P.shares

/-- vdaf_prio3.py:84-87 `RAND_SIZE` -/
def randSize : Nat := P.numSeeds * X.seedSize

/-! ### Auxiliary functions -/

/-- vdaf_prio3.py:413-424 `helper_meas_share` -/
def helperMeasShare (ctx : Bytes) (aggId : Nat) (share : Bytes) : Res (List F) := do
  let dst ← domainSeparationTag P.id USAGE_MEAS_SHARE ctx
  let b ← byte aggId
  X.expandIntoVec F share dst b P.flp.measLen

/-- vdaf_prio3.py:426-437 `helper_proofs_share` -/
def helperProofsShare (ctx : Bytes) (aggId : Nat) (share : Bytes) : Res (List F) := do
  let dst ← domainSeparationTag P.id USAGE_PROOF_SHARE ctx
  let p ← byte P.proofs
  let b ← byte aggId
  X.expandIntoVec F share dst (p ++ b) (P.proofLen * P.proofs)

/-- vdaf_prio3.py:439-455 `expand_input_share` -/
def expandInputShare (ctx : Bytes) (aggId : Nat) (inputShare : Prio3InputShare F) :
    Res (List F × List F × Option Bytes) :=
  if aggId > 0 then
    match inputShare with
    | .helper share blind => do
      let measShare ← P.helperMeasShare ctx aggId share
      let proofsShare ← P.helperProofsShare ctx aggId share
      return (measShare, proofsShare, blind)
    | .leader .. => .error (.assertion "len(input_share) == 2")
  else
    match inputShare with
    | .leader measShare proofsShare blind => .ok (measShare, proofsShare, blind)
    | .helper .. => .error (.assertion "len(input_share) == 3")

/-- vdaf_prio3.py:457-464 `prove_rands` -/
def proveRands (ctx proveSeed : Bytes) : Res (List F) := do
  let dst ← domainSeparationTag P.id USAGE_PROVE_RANDOMNESS ctx
  let p ← byte P.proofs
  X.expandIntoVec F proveSeed dst p (P.flp.proveRandLen * P.proofs)

/-- vdaf_prio3.py:466-477 `query_rands` -/
def queryRands (verifyKey ctx nonce : Bytes) : Res (List F) := do
  let dst ← domainSeparationTag P.id USAGE_QUERY_RANDOMNESS ctx
  let p ← byte P.proofs
  X.expandIntoVec F verifyKey dst (p ++ nonce) (P.flp.queryRandLen * P.proofs)

/-- vdaf_prio3.py:479-490 `joint_rand_part` -/
def jointRandPart (ctx : Bytes) (aggId : Nat) (blind : Bytes) (measShare : List F) (nonce : Bytes) :
    Res Bytes := do
  let dst ← domainSeparationTag P.id USAGE_JOINT_RAND_PART ctx
  let b ← byte aggId
  let e ← encodeVec measShare
  X.deriveSeed blind dst (b ++ nonce ++ e)

/-- vdaf_prio3.py:492-500 `joint_rand_seed` -/
def jointRandSeed (ctx : Bytes) (jointRandParts : List Bytes) : Res Bytes := do
  let dst ← domainSeparationTag P.id USAGE_JOINT_RAND_SEED ctx
  X.deriveSeed (zeros X.seedSize) dst (concat jointRandParts)

/-- vdaf_prio3.py:502-512 `joint_rands` -/
def jointRands (ctx jointRandSeed : Bytes) : Res (List F) := do
  let dst ← domainSeparationTag P.id USAGE_JOINT_RANDOMNESS ctx
  let p ← byte P.proofs
  X.expandIntoVec F jointRandSeed dst p (P.flp.jointRandLen * P.proofs)

/-! ### Sharding -/

/-- The loop at vdaf_prio3.py:300-308 and 381-389: subtract the helpers' shares of the proofs. -/
def subHelperProofs (ctx : Bytes) (helperShares : List Bytes) (leaderProofsShare : List F) :
    Res (List F) :=
  forFold (List.range (P.shares - 1)) leaderProofsShare fun leaderProofsShare j => do
    let seed ← getI helperShares j
    let h ← P.helperProofsShare ctx (j + 1) seed
    vecSub leaderProofsShare h

/-- vdaf_prio3.py:276-324 `shard_without_joint_rand` -/
def shardWithoutJointRand (ctx : Bytes) (meas : List F) (seeds : List Bytes) :
    Res (Option (List Bytes) × List (Prio3InputShare F)) := do
  let (helperShares, seeds) ← front (P.shares - 1) seeds
  let (s, _) ← front 1 seeds
  let proveSeed ← getI s 0
  let leaderMeasShare ← forFold (List.range (P.shares - 1)) meas fun leaderMeasShare j => do
    let seed ← getI helperShares j
    let h ← P.helperMeasShare ctx (j + 1) seed
    vecSub leaderMeasShare h
  let proveRands ← P.proveRands ctx proveSeed
  let (leaderProofsShare, _) ← forFold (List.range P.proofs) (([] : List F), proveRands)
    fun (leaderProofsShare, proveRands) _ => do
      let (proveRand, proveRands) ← front P.flp.proveRandLen proveRands
      let proof ← P.flp.prove meas proveRand []
      return (leaderProofsShare ++ proof, proveRands)
  let leaderProofsShare ← P.subHelperProofs ctx helperShares leaderProofsShare
  let helpers ← mapRes (fun j => do
    let seed ← getI helperShares j
    return Prio3InputShare.helper seed none) (List.range (P.shares - 1))
  return (none, .leader leaderMeasShare leaderProofsShare none :: helpers)

/-- vdaf_prio3.py:331-404 `shard_with_joint_rand`.  `helper_seeds[i]` for even and odd `i`. -/
def shardWithJointRand (ctx : Bytes) (meas : List F) (nonce : Bytes) (seeds : List Bytes) :
    Res (Option (List Bytes) × List (Prio3InputShare F)) := do
  let (helperSeeds, seeds) ← front ((P.shares - 1) * 2) seeds
  let helperShares ← mapRes (fun j => getI helperSeeds (2 * j)) (List.range (P.shares - 1))
  let helperBlinds ← mapRes (fun j => getI helperSeeds (2 * j + 1)) (List.range (P.shares - 1))
  let (s, _) ← front 2 seeds
  let leaderBlind ← getI s 0
  let proveSeed ← getI s 1
  let (leaderMeasShare, jointRandParts) ←
    forFold (List.range (P.shares - 1)) (meas, ([] : List Bytes))
      fun (leaderMeasShare, jointRandParts) j => do
        let seed ← getI helperShares j
        let helperMeasShare ← P.helperMeasShare ctx (j + 1) seed
        let leaderMeasShare ← vecSub leaderMeasShare helperMeasShare
        let blind ← getI helperBlinds j
        let part ← P.jointRandPart ctx (j + 1) blind helperMeasShare nonce
        return (leaderMeasShare, jointRandParts ++ [part])
  let part ← P.jointRandPart ctx 0 leaderBlind leaderMeasShare nonce
  let jointRandParts := part :: jointRandParts
  let proveRands ← P.proveRands ctx proveSeed
  let seed ← P.jointRandSeed ctx jointRandParts
  let jointRands ← P.jointRands ctx seed
  let (leaderProofsShare, _, _) ←
    forFold (List.range P.proofs) (([] : List F), proveRands, jointRands)
      fun (leaderProofsShare, proveRands, jointRands) _ => do
        let (proveRand, proveRands) ← front P.flp.proveRandLen proveRands
        let (jointRand, jointRands) ← front P.flp.jointRandLen jointRands
        let proof ← P.flp.prove meas proveRand jointRand
        return (leaderProofsShare ++ proof, proveRands, jointRands)
  let leaderProofsShare ← P.subHelperProofs ctx helperShares leaderProofsShare
  let helpers ← mapRes (fun j => do
    let seed ← getI helperShares j
    let blind ← getI helperBlinds j
    return Prio3InputShare.helper seed (some blind)) (List.range (P.shares - 1))
  return (some jointRandParts,
    .leader leaderMeasShare leaderProofsShare (some leaderBlind) :: helpers)

/-- vdaf_prio3.py:94-114 `shard` -/
def shard (ctx : Bytes) (measurement : Meas) (nonce rand : Bytes) :
    Res (Option (List Bytes) × List (Prio3InputShare F)) := do
  raiseIf (nonce.length ≠ NONCE_SIZE) "incorrect nonce size"
  raiseIf (rand.length ≠ P.randSize) "incorrect size of random bytes argument"
  let seeds := chunks rand P.numSeeds X.seedSize
  let meas ← P.flp.encode measurement
  if P.flp.jointRandLen > 0 then P.shardWithJointRand ctx meas nonce seeds
  else P.shardWithoutJointRand ctx meas seeds

/-- vdaf_prio3.py:121-125 `is_valid` -/
def isValid (_aggParam : Unit) (previousAggParams : List Unit) : Res Bool :=
  .ok (previousAggParams.length == 0)

/-! ### Verification -/

/-- vdaf_prio3.py:150-163, the joint randomness in `verify_init`: the joint randomness of all
the proofs, the corrected seed and the own part. -/
def verifyJointRand (ctx : Bytes) (aggId : Nat) (nonce : Bytes) (jointRandParts : Option (List Bytes))
    (measShare : List F) (blind : Option Bytes) : Res (List F × Option Bytes × Option Bytes) :=
  if P.flp.jointRandLen > 0 then
    match blind with
    | none => .error (.assertion "blind is not None")
    | some blind =>
      match jointRandParts with
      | none => .error (.assertion "joint_rand_parts is not None")
      | some jointRandParts => do
        let part ← P.jointRandPart ctx aggId blind measShare nonce
        let jointRandParts ← setI jointRandParts aggId part
        let seed ← P.jointRandSeed ctx jointRandParts
        let jointRands ← P.jointRands ctx seed
        return (jointRands, some seed, some part)
  else .ok ([], none, none)

/-- `if JOINT_RAND_LEN > 0: joint_rand, joint_rands = front(JOINT_RAND_LEN, joint_rands)`,
otherwise `joint_rand` stays `[]` (vdaf_prio3.py:173-175) -/
def nextJointRand (jointRands : List F) : Res (List F × List F) :=
  if P.flp.jointRandLen > 0 then front P.flp.jointRandLen jointRands else .ok ([], jointRands)

/-- vdaf_prio3.py:166-181, the loop over the proofs in `verify_init`: the verifiers' shares. -/
def queryLoop (measShare proofsShare queryRands jointRands : List F) : Res (List F) := do
  let (verifiersShare, _, _, _) ←
    forFold (List.range P.proofs) (([] : List F), proofsShare, queryRands, jointRands)
      fun (verifiersShare, proofsShare, queryRands, jointRands) _ => do
        let (proofShare, proofsShare) ← front P.proofLen proofsShare
        let (queryRand, queryRands) ← front P.flp.queryRandLen queryRands
        let (jointRand, jointRands) ← P.nextJointRand jointRands
        let v ← P.flp.query measShare proofShare queryRand jointRand P.shares
        return (verifiersShare ++ v, proofsShare, queryRands, jointRands)
  return verifiersShare

/-- vdaf_prio3.py:133-185 `verify_init` -/
def verifyInit (verifyKey ctx : Bytes) (aggId : Nat) (_aggParam : Unit) (nonce : Bytes)
    (publicShare : Option (List Bytes)) (inputShare : Prio3InputShare F) :
    Res ((List F × Option Bytes) × (List F × Option Bytes)) := do
  let (measShare, proofsShare, blind) ← P.expandInputShare ctx aggId inputShare
  let outShare ← P.flp.truncate measShare
  let (jointRands, corrected, part) ← P.verifyJointRand ctx aggId nonce publicShare measShare blind
  let queryRands ← P.queryRands verifyKey ctx nonce
  let verifiersShare ← P.queryLoop measShare proofsShare queryRands jointRands
  return ((outShare, corrected), (verifiersShare, part))

/-- `if JOINT_RAND_LEN > 0: assert joint_rand_part is not None; joint_rand_parts.append(...)`
(vdaf_prio3.py:199-201) -/
def appendPart (jointRandParts : List Bytes) (part : Option Bytes) : Res (List Bytes) :=
  if P.flp.jointRandLen > 0 then
    match part with
    | none => .error (.assertion "joint_rand_part is not None")
    | some part => .ok (jointRandParts ++ [part])
  else .ok jointRandParts

/-- vdaf_prio3.py:203-207, the loop over the proofs in `verifier_shares_to_message` -/
def decideLoop (verifiers : List F) : Res Unit := do
  let _ ← forFold (List.range P.proofs) verifiers fun verifiers _ => do
    let (verifier, verifiers) ← front P.flp.verifierLen verifiers
    let ok ← P.flp.decide verifier
    raiseIf (ok = false) "proof verifier check failed"
    return verifiers
  return ()

/-- vdaf_prio3.py:187-215 `verifier_shares_to_message` -/
def sharesToMessage (ctx : Bytes) (_aggParam : Unit) (verifierShares : List (List F × Option Bytes)) :
    Res (Option Bytes) := do
  let (verifiers, jointRandParts) ←
    forFold verifierShares (fieldZeros F (P.flp.verifierLen * P.proofs), ([] : List Bytes))
      fun (verifiers, jointRandParts) (verifiersShare, part) => do
        let verifiers ← vecAdd verifiers verifiersShare
        let jointRandParts ← P.appendPart jointRandParts part
        return (verifiers, jointRandParts)
  P.decideLoop verifiers
  if P.flp.jointRandLen > 0 then do
    let seed ← P.jointRandSeed ctx jointRandParts
    return some seed
  else return none

/-- vdaf_prio3.py:217-231 `verify_next` -/
def verifyNext (_ctx : Bytes) (verifyState : List F × Option Bytes) (verifierMessage : Option Bytes) :
    Res (Next (List F × Option Bytes) (List F × Option Bytes) (List F)) := do
  let (outShare, corrected) := verifyState
  raiseIf (verifierMessage ≠ corrected) "joint randomness check failed"
  return .out outShare

/-! ### Aggregation -/

/-- vdaf_prio3.py:239-240 `agg_init` -/
def aggInit (_aggParam : Unit) : Res (List F) := .ok (fieldZeros F P.flp.outputLen)

/-- vdaf_prio3.py:242-246 `agg_update` -/
def aggUpdate (_aggParam : Unit) (aggShare outShare : List F) : Res (List F) :=
  vecAdd aggShare outShare

/-- vdaf_prio3.py:248-254 `merge` -/
def merge (_aggParam : Unit) (aggShares : List (List F)) : Res (List F) := do
  let agg ← P.aggInit ()
  forFold aggShares agg fun agg aggShare => vecAdd agg aggShare

/-- vdaf_prio3.py:261-267 `unshard` -/
def unshard (_aggParam : Unit) (aggShares : List (List F)) (numMeasurements : Nat) : Res Agg := do
  let agg ← P.merge () aggShares
  P.flp.decode agg numMeasurements

/-! ### Encodings -/

/-- vdaf_prio3.py:514-515 `encode_agg_param` -/
def encodeAggParam (_aggParam : Unit) : Res Bytes := .ok []

/-- vdaf_prio3.py:517-519 `decode_agg_param` -/
def decodeAggParam (encoded : Bytes) : Res Unit :=
  raiseIf (encoded ≠ []) "invalid encoded aggregation parameter"

/-- `if blind is not None: encoded += blind` -/
def optBytes : Option Bytes → Bytes
  | none => []
  | some b => b

/-- vdaf_prio3.py:524-536 `encode_input_share` -/
def encodeInputShare (inputShare : Prio3InputShare F) : Res Bytes :=
  match inputShare with
  | .leader measShare proofsShare blind => do
    pyAssert (proofsShare.length = P.proofLen * P.proofs)
    let m ← encodeVec measShare
    let p ← encodeVec proofsShare
    return m ++ p ++ optBytes blind
  | .helper share blind => .ok (share ++ optBytes blind)

/-- `if JOINT_RAND_LEN > 0: blind, encoded = front(SEED_SIZE, encoded) else: blind = None`
(vdaf_prio3.py:551-554, 558-561, 613-616) -/
def decodeBlind (encoded : Bytes) : Res (Option Bytes × Bytes) :=
  if P.flp.jointRandLen > 0 then do
    let (blind, encoded) ← front X.seedSize encoded
    return (some blind, encoded)
  else .ok (none, encoded)

/-- vdaf_prio3.py:538-565 `decode_input_share` -/
def decodeInputShare (aggId : Nat) (encoded : Bytes) : Res (Prio3InputShare F) :=
  if aggId = 0 then do
    let (measBytes, encoded) ← front (PyField.encSize F * P.flp.measLen) encoded
    let (proofsBytes, encoded) ← front (PyField.encSize F * P.proofLen * P.proofs) encoded
    let meas ← decodeVec F measBytes
    let proofs ← decodeVec F proofsBytes
    let (blind, encoded) ← P.decodeBlind encoded
    raiseIf (encoded.length ≠ 0) "input share is too long"
    return .leader meas proofs blind
  else do
    let (share, encoded) ← front X.seedSize encoded
    let (blind, encoded) ← P.decodeBlind encoded
    raiseIf (encoded.length ≠ 0) "input share is too long"
    return .helper share blind

/-- vdaf_prio3.py:567-572 `encode_public_share` -/
def encodePublicShare (publicShare : Option (List Bytes)) : Res Bytes :=
  match publicShare with
  | none => .ok []
  | some parts => .ok (concat parts)

/-- vdaf_prio3.py:574-583 `decode_public_share` -/
def decodePublicShare (encoded : Bytes) : Res (Option (List Bytes)) :=
  if P.flp.jointRandLen = 0 then .ok none
  else do
    let (parts, encoded) ← forFold (List.range P.shares) (([] : List Bytes), encoded)
      fun (parts, encoded) _ => do
        let (part, encoded) ← front X.seedSize encoded
        return (parts ++ [part], encoded)
    raiseIf (encoded.length ≠ 0) "public share is too long"
    return some parts

/-- vdaf_prio3.py:585-586 `encode_agg_share` -/
def encodeAggShare (aggShare : List F) : Res Bytes := encodeVec aggShare

/-- vdaf_prio3.py:588-589 `decode_agg_share` -/
def decodeAggShare (_aggParam : Unit) (encoded : Bytes) : Res (List F) := decodeVec F encoded

/-- vdaf_prio3.py:591-598 `encode_verifier_share` -/
def encodeVerifierShare (verifierShare : List F × Option Bytes) : Res Bytes := do
  let (verifiersShare, part) := verifierShare
  pyAssert (verifiersShare.length = P.flp.verifierLen * P.proofs)
  let e ← encodeVec verifiersShare
  return e ++ optBytes part

/-- vdaf_prio3.py:600-612 `decode_verifier_share` -/
def decodeVerifierShare (_verifyState : List F × Option Bytes) (encoded : Bytes) :
    Res (List F × Option Bytes) := do
  let (b, encoded) ← front (PyField.encSize F * P.flp.verifierLen * P.proofs) encoded
  let verifiersShare ← decodeVec F b
  let (part, encoded) ← P.decodeBlind encoded
  raiseIf (encoded.length ≠ 0) "verifier share is too long"
  return (verifiersShare, part)

/-- vdaf_prio3.py:614-619 `encode_verifier_message` -/
def encodeVerifierMessage (verifierMessage : Option Bytes) : Res Bytes :=
  .ok (optBytes verifierMessage)

/-- vdaf_prio3.py:621-624 `decode_verifier_message` -/
def decodeVerifierMessage (_verifyState : List F × Option Bytes) (encoded : Bytes) :
    Res (Option Bytes) :=
  if encoded.length = 0 then .ok none else .ok (some encoded)

/-- vdaf_prio3.py:626-627 `encode_out_share` -/
def encodeOutShare (outShare : List F) : Res Bytes := encodeVec outShare

/-- vdaf_prio3.py:629-630 `decode_out_share` -/
def decodeOutShare (_aggParam : Unit) (encoded : Bytes) : Res (List F) := decodeVec F encoded

/-- The class as a `Vdaf`. -/
def vdaf : VdafImpl Meas Unit (Option (List Bytes)) (Prio3InputShare F) (List F) (List F) Agg
    (List F × Option Bytes) (List F × Option Bytes) (Option Bytes) where
  id := P.id
  verifyKeySize := X.seedSize
  nonceSize := NONCE_SIZE
  randSize := P.randSize
  rounds := 1
  shares := P.shares
  shard := P.shard
  isValid := isValid
  verifyInit := P.verifyInit
  sharesToMessage := P.sharesToMessage
  verifyNext := verifyNext
  aggInit := P.aggInit
  aggUpdate := aggUpdate
  merge := P.merge
  unshard := P.unshard
  encodeAggParam := encodeAggParam
  decodeAggParam := decodeAggParam
  encodePublicShare := encodePublicShare
  decodePublicShare := P.decodePublicShare
  encodeInputShare := P.encodeInputShare
  decodeInputShare := P.decodeInputShare
  encodeVerifierShare := P.encodeVerifierShare
  decodeVerifierShare := P.decodeVerifierShare
  encodeVerifierMessage := encodeVerifierMessage
  decodeVerifierMessage := decodeVerifierMessage (F := F)

end Prio3

/-! ### Instantiations -/

/-- vdaf_prio3.py:637-649 `Prio3Count` -/
def Prio3Count (prims : Prims) (fuel shares : Nat) : Res (Prio3 (XofTurboShake128 prims fuel) Field64 Int Nat) :=
  Prio3.init 0x00000001 (XofTurboShake128 prims fuel) shares (Count Field64) 1

/-- vdaf_prio3.py:652-664 `Prio3Sum` -/
def Prio3Sum (prims : Prims) (fuel shares maxMeasurement : Nat) : Res (Prio3 (XofTurboShake128 prims fuel) Field64 Int Nat) := do
  let valid ← Sum Field64 maxMeasurement
  Prio3.init 0x00000002 (XofTurboShake128 prims fuel) shares valid 1

/-- vdaf_prio3.py:667-684 `Prio3SumVec` -/
def Prio3SumVec (prims : Prims) (fuel shares length maxMeasurement chunkLength : Nat) :
    Res (Prio3 (XofTurboShake128 prims fuel) Field128 (List Int) (List Nat)) := do
  let valid ← SumVec Field128 length maxMeasurement chunkLength
  Prio3.init 0x00000003 (XofTurboShake128 prims fuel) shares valid 1

/-- vdaf_prio3.py:687-699 `Prio3Histogram` -/
def Prio3Histogram (prims : Prims) (fuel shares length chunkLength : Nat) :
    Res (Prio3 (XofTurboShake128 prims fuel) Field128 Int (List Nat)) := do
  let valid ← Histogram Field128 length chunkLength
  Prio3.init 0x00000004 (XofTurboShake128 prims fuel) shares valid 1

/-- vdaf_prio3.py:702-734 `Prio3SumVecWithMultiproof` -/
def Prio3SumVecWithMultiproof (prims : Prims) (fuel shares : Nat) (F : Type) [NttField F]
    (numProofs length maxMeasurement chunkLength : Nat) : Res (Prio3 (XofTurboShake128 prims fuel) F (List Int) (List Nat)) := do
  let valid ← SumVec F length maxMeasurement chunkLength
  Prio3.init 0xFFFFFFFF (XofTurboShake128 prims fuel) shares valid numProofs

/-- vdaf_prio3.py:737-754 `Prio3MultihotCountVec` -/
def Prio3MultihotCountVec (prims : Prims) (fuel shares length maxWeight chunkLength : Nat) :
    Res (Prio3 (XofTurboShake128 prims fuel) Field128 (List Bool) (List Nat)) := do
  let valid ← MultihotCountVec Field128 length maxWeight chunkLength
  Prio3.init 0x00000005 (XofTurboShake128 prims fuel) shares valid 1

end Vdaf
