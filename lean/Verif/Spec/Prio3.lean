import Verif.Spec.Flp
import Verif.Spec.Vec
import Verif.Model.Prio3
import Verif.Spec.Vdaf

/-!
# Specification vocabulary for Prio3
-/

namespace Vdaf.Spec
variable {X : Xof} {F : Type} [NttField F] {Meas Agg : Type}

/-- The rejection sampler of the XOF did not produce enough field elements within the bound on
the number of its iterations.  (This only records what the error `fuel` stands for: for large `n` it always holds.
`C54_prio3_run` removes this alternative.) -/
def SamplerRanOut (X : Xof) (F : Type) [NttField F] : Prop :=
  ∃ (seed dst binder : Bytes) (n : Nat), X.expandIntoVec F seed dst binder n = .error .fuel

/-! ### Derivation of pseudorandom values

The values each party derives, with the inputs of the XOF spelled out (draft, section "Prio3"). -/

/-- The domain separation tag: the version 18, the class 0 of VDAFs, the algorithm identifier (four
bytes, big-endian), the usage (two bytes, big-endian), and the application context. -/
def tag (id usage : Nat) (ctx : Bytes) : Bytes :=
  [18, 0, UInt8.ofNat (id / 2 ^ 24), UInt8.ofNat (id / 2 ^ 16), UInt8.ofNat (id / 2 ^ 8),
    UInt8.ofNat id, UInt8.ofNat (usage / 2 ^ 8), UInt8.ofNat usage] ++ ctx

/-- Helper `j`'s measurement share, expanded from its seed. -/
def measShare (P : Prio3 X F Meas Agg) (ctx : Bytes) (j : Nat) (seed : Bytes) : Res (List F) :=
  X.expandIntoVec F seed (tag P.id 1 ctx) [UInt8.ofNat j] P.flp.measLen

/-- Helper `j`'s share of the proofs, expanded from its seed. -/
def proofsShare (P : Prio3 X F Meas Agg) (ctx : Bytes) (j : Nat) (seed : Bytes) : Res (List F) :=
  X.expandIntoVec F seed (tag P.id 2 ctx) [UInt8.ofNat P.proofs, UInt8.ofNat j]
    (P.proofLen * P.proofs)

/-- The joint randomness of all the proofs, expanded from the joint randomness seed. -/
def jointRands (P : Prio3 X F Meas Agg) (ctx seed : Bytes) : Res (List F) :=
  X.expandIntoVec F seed (tag P.id 3 ctx) [UInt8.ofNat P.proofs] (P.flp.jointRandLen * P.proofs)

/-- The prove randomness of all the proofs, expanded from the client's prove seed. -/
def proveRands (P : Prio3 X F Meas Agg) (ctx seed : Bytes) : Res (List F) :=
  X.expandIntoVec F seed (tag P.id 4 ctx) [UInt8.ofNat P.proofs] (P.flp.proveRandLen * P.proofs)

/-- The query randomness of all the proofs, expanded from the verification key and the nonce. -/
def queryRands (P : Prio3 X F Meas Agg) (verifyKey ctx nonce : Bytes) : Res (List F) :=
  X.expandIntoVec F verifyKey (tag P.id 5 ctx) (UInt8.ofNat P.proofs :: nonce)
    (P.flp.queryRandLen * P.proofs)

/-- The joint randomness seed, derived from the parts of all the Aggregators. -/
def jointRandSeed (P : Prio3 X F Meas Agg) (ctx : Bytes) (parts : List Bytes) : Res Bytes :=
  X.deriveSeed (List.replicate X.seedSize 0) (tag P.id 6 ctx) parts.flatten

/-- Aggregator `j`'s part of the joint randomness, derived from its blind, its index, the nonce
and its measurement share. -/
def jointRandPart (P : Prio3 X F Meas Agg) (ctx : Bytes) (j : Nat) (blind : Bytes)
    (measShare : List F) (nonce : Bytes) : Res Bytes := do
  let e ← encodeVec measShare
  X.deriveSeed blind (tag P.id 7 ctx) (UInt8.ofNat j :: (nonce ++ e))

/-- Aggregator `j`, holding the input share `s`, uses the measurement share `ms`, the share `ps`
of the proofs and the blind `bl`. -/
def Expands (P : Prio3 X F Meas Agg) (ctx : Bytes) (j : Nat) (s : Prio3InputShare F)
    (ms ps : List F) (bl : Option Bytes) : Prop :=
  (j = 0 ∧ s = .leader ms ps bl) ∨
  (0 < j ∧ ∃ seed, s = .helper seed bl ∧ measShare P ctx j seed = .ok ms ∧
    proofsShare P ctx j seed = .ok ps)

/-- The `i`-th of the pieces of length `n` of a list. -/
def piece {α : Type} (n : Nat) (l : List α) (i : Nat) : List α := (l.drop (n * i)).take n

/-- `w` consists of the FLP verifiers for all the proofs in `ps`. -/
def Queries (P : Prio3 X F Meas Agg) (ms ps qrs jrs w : List F) : Prop :=
  ∃ v : Nat → List F, w = (List.range P.proofs).flatMap v ∧ ∀ i < P.proofs,
    P.flp.query ms (piece P.proofLen ps i) (piece P.flp.queryRandLen qrs i)
      (piece P.flp.jointRandLen jrs i) P.shares = .ok (v i)

/-- For one of the proofs of the report with this nonce, the query randomness contains a test
point that is a root of unity. -/
def RootHit (P : Prio3 X F Meas Agg) (verifyKey ctx nonce : Bytes) : Prop :=
  ∃ qrs, queryRands P verifyKey ctx nonce = .ok qrs ∧ ∃ i < P.proofs,
    BadTestPoint P.flp (piece P.flp.queryRandLen qrs i)

/-- The exceptions an honest execution may raise: the sampler ran out, or a test point is a
root of unity. -/
def HonestFailure (P : Prio3 X F Meas Agg) (verifyKey ctx : Bytes) (nonces : List Bytes) (e : Err) :
    Prop :=
  (e = .fuel ∧ SamplerRanOut X F) ∨
    (e = rootOfUnityErr ∧ ∃ nonce ∈ nonces, RootHit P verifyKey ctx nonce)

/-- `jrs` is the joint randomness of all the proofs, and `seed` the joint randomness seed, for
Aggregators that hold the measurement shares `ms j` and the blinds `bl j`. -/
def JointRandOf (P : Prio3 X F Meas Agg) (ctx nonce : Bytes) (ms : Nat → List F)
    (bl : Nat → Option Bytes) (seed : Option Bytes) (jrs : List F) : Prop :=
  (P.flp.jointRandLen = 0 ∧ seed = none ∧ jrs = []) ∨
  (0 < P.flp.jointRandLen ∧ ∃ (b parts : Nat → Bytes) (s : Bytes), seed = some s ∧
    (∀ j < P.shares, bl j = some (b j) ∧
      jointRandPart P ctx j (b j) (ms j) nonce = .ok (parts j)) ∧
    jointRandSeed P ctx ((List.range P.shares).map parts) = .ok s ∧ jointRands P ctx s = .ok jrs)

/-- `pub` is the public share for Aggregators that hold the measurement shares `ms j` and the
blinds `bl j`: their parts of the joint randomness. -/
def PublicShareOf (P : Prio3 X F Meas Agg) (ctx nonce : Bytes) (ms : Nat → List F)
    (bl : Nat → Option Bytes) : Option (List Bytes) → Prop
  | none => P.flp.jointRandLen = 0
  | some parts => 0 < P.flp.jointRandLen ∧ parts.length = P.shares ∧ ∀ j < P.shares,
      ∃ blind part, bl j = some blind ∧ parts[j]? = some part ∧
        jointRandPart P ctx j blind (ms j) nonce = .ok part

/-- The number of seeds the client draws: one per Helper and the prove seed and, if joint randomness is
used, one blind per Aggregator. -/
def numSeeds (P : Prio3 X F Meas Agg) : Nat :=
  if 0 < P.flp.jointRandLen then 2 * P.shares else P.shares

/-- The `i`-th seed in the client's random bytes. -/
def seedAt (_ : Prio3 X F Meas Agg) (rand : Bytes) (i : Nat) : Bytes :=
  slice rand (i * X.seedSize) (i * X.seedSize + X.seedSize)

/-- The helpers' input shares: consecutive seeds from the client's random bytes; if joint randomness is used,
each is followed by the blind. -/
def helperShares (P : Prio3 X F Meas Agg) (rand : Bytes) : List (Prio3InputShare F) :=
  (List.range (P.shares - 1)).map fun j =>
    if 0 < P.flp.jointRandLen then .helper (seedAt P rand (2 * j)) (some (seedAt P rand (2 * j + 1)))
    else .helper (seedAt P rand j) none

/-- Verification succeeds for all the Aggregators: `verify_init` returns the states `st j` and
the verifier shares `sh j`, these combine to the message `msg`, which every Aggregator accepts. -/
def VerifySucceeds (P : Prio3 X F Meas Agg) (verifyKey ctx nonce : Bytes)
    (pub : Option (List Bytes)) (ish : Nat → Prio3InputShare F)
    (st sh : Nat → List F × Option Bytes) (msg : Option Bytes) : Prop :=
  (∀ j < P.shares, P.verifyInit verifyKey ctx j () nonce pub (ish j) = .ok (st j, sh j)) ∧
  P.sharesToMessage ctx () ((List.range P.shares).map sh) = .ok msg ∧
  ∀ j < P.shares, ∃ r, Prio3.verifyNext (F := F) ctx (st j) msg = .ok r

/-! ### The shapes of the messages -/

/-- A seed that is present exactly if the circuit uses joint randomness. -/
def OptSeed (P : Prio3 X F Meas Agg) : Option Bytes → Prop
  | none => P.flp.jointRandLen = 0
  | some b => 0 < P.flp.jointRandLen ∧ b.length = X.seedSize

/-- An input share for Aggregator `aggId`. -/
def InputShareShape (P : Prio3 X F Meas Agg) (aggId : Nat) : Prio3InputShare F → Prop
  | .leader meas proofs blind => aggId = 0 ∧ meas.length = P.flp.measLen ∧
      proofs.length = P.proofLen * P.proofs ∧ OptSeed P blind
  | .helper share blind => aggId ≠ 0 ∧ share.length = X.seedSize ∧ OptSeed P blind

/-- A public share. -/
def PublicShareShape (P : Prio3 X F Meas Agg) : Option (List Bytes) → Prop
  | none => P.flp.jointRandLen = 0
  | some parts => 0 < P.flp.jointRandLen ∧ parts.length = P.shares ∧
      ∀ p ∈ parts, p.length = X.seedSize

/-- A verifier share. -/
def VerifierShareShape (P : Prio3 X F Meas Agg) (s : List F × Option Bytes) : Prop :=
  s.1.length = P.flp.verifierLen * P.proofs ∧ OptSeed P s.2

/-- `P` is an instance of Prio3 over a circuit of the library with `XofTurboShake128` (for any
primitive), accepted by the constructors, that meets the documented pre-conditions which the
constructors do not check: the algorithm identifier fits into four bytes, the number of proofs
into one; the number of Aggregators is less than `MODULUS`; and the gadget polynomials fit. -/
structure Instance {prims : Prims} {fuel : Nat} (P : Prio3 (XofTurboShake128 prims fuel) F Meas Agg)
    (fn : Fun Meas Agg) : Prop where
  library : Library F P.flp fn
  init : Prio3.init P.id (XofTurboShake128 prims fuel) P.shares P.flp P.proofs = .ok P
  fits : Fits P.flp
  id : P.id < 2 ^ 32
  proofs : P.proofs < 256
  shares : P.shares < PyField.modulus F

end Vdaf.Spec
