import Verif.Model.AnyFlp
import Verif.Spec.Circuit

/-!
# Specification vocabulary for Prio3 over an arbitrary FLP

What an FLP has to satisfy (draft, section "Fully Linear Proof (FLP) Systems"), in terms of the methods of the abstract
class `Flp` alone, and the vocabulary of `Verif.Spec.Prio3` for `Prio3Of`.
-/

namespace Vdaf.Spec
variable {F : Type} [NttField F] {Meas Agg : Type}

/-- What the methods of an FLP have to satisfy, whatever the measurement: `prove` returns a proof of the advertised
length, and `query` can be run on additive shares of the measurement and the proof.  `query` may raise, but if it does
is determined by the query randomness: `abort queryRand` is the exception. -/
structure FlpLaws (Φ : FlpImpl F Meas Agg) (abort : List F → Option Err) : Prop where
  prove : ∀ meas proveRand jointRand : List F, meas.length = Φ.measLen → proveRand.length = Φ.proveRandLen →
    jointRand.length = Φ.jointRandLen → ∃ π, Φ.prove meas proveRand jointRand = .ok π ∧ π.length = Φ.proofLen
  query : ∀ (N : Nat) (ms πs : Fin N → List F) (meas π queryRand jointRand : List F), 1 ≤ N →
    N < PyField.modulus F → IsSum ms meas → IsSum πs π → meas.length = Φ.measLen → π.length = Φ.proofLen →
    queryRand.length = Φ.queryRandLen → jointRand.length = Φ.jointRandLen →
    (∃ e, abort queryRand = some e ∧ Φ.query meas π queryRand jointRand 1 = .error e ∧
      ∀ i, Φ.query (ms i) (πs i) queryRand jointRand N = .error e) ∨
    (abort queryRand = none ∧ ∃ (v : List F) (vs : Fin N → List F), Φ.query meas π queryRand jointRand 1 = .ok v ∧
      (∀ i, Φ.query (ms i) (πs i) queryRand jointRand N = .ok (vs i)) ∧ IsSum vs v ∧ v.length = Φ.verifierLen)

/-- The encoded measurement `meas` always passes with an honest proof. -/
def FlpComplete (Φ : FlpImpl F Meas Agg) (meas : List F) : Prop :=
  ∀ proveRand queryRand jointRand π v : List F, proveRand.length = Φ.proveRandLen →
    queryRand.length = Φ.queryRandLen → jointRand.length = Φ.jointRandLen →
    Φ.prove meas proveRand jointRand = .ok π → Φ.query meas π queryRand jointRand 1 = .ok v → Φ.decide v = .ok true

/-- The encoded measurement `meas`, with the joint randomness `jointRand`, passes for at most `k` choices of the query
randomness, whatever the proof. -/
def FlpRejects (Φ : FlpImpl F Meas Agg) (k : Nat) (meas jointRand : List F) : Prop :=
  ∀ π : List F, π.length = Φ.proofLen → Set.ncard {queryRand : Fin Φ.queryRandLen → F | ∃ v,
    Φ.query meas π (List.ofFn queryRand) jointRand 1 = .ok v ∧ Φ.decide v = .ok true} ≤ k

/-- The FLP `Φ` is for the task `T`: the encodings of the valid measurements pass; truncation is linear; and the sum of
the truncated encodings of a batch decodes to the aggregate. -/
structure FlpFor (Φ : FlpImpl F Meas Agg) (abort : List F → Option Err) (T : Task Meas Agg) : Prop
    extends FlpLaws Φ abort where
  encode : ∀ m, T.valid m → ∃ e, Φ.encode m = .ok e ∧ e.length = Φ.measLen ∧ FlpComplete Φ e
  truncate : ∀ (N : Nat) (es : Fin N → List F) (e : List F), IsSum es e → e.length = Φ.measLen →
    ∃ (os : Fin N → List F) (o : List F), Φ.truncate e = .ok o ∧ (∀ i, Φ.truncate (es i) = .ok (os i)) ∧
      IsSum os o ∧ o.length = Φ.outputLen
  decode : ∀ (n : Nat) (ms : Fin n → Meas) (es os : Fin n → List F) (tot : List F), (∀ i, T.valid (ms i)) →
    T.supported (List.ofFn ms) → (∀ i, Φ.encode (ms i) = .ok (es i)) → (∀ i, Φ.truncate (es i) = .ok (os i)) →
    IsSum os tot → tot.length = Φ.outputLen → Φ.decode tot n = .ok (T.agg (List.ofFn ms))

/-- `P` is an instance of Prio3 with `XofTurboShake128` (for any primitive), accepted by the constructor, that meets
the documented pre-conditions which the constructor does not check; see `Spec.Instance`. -/
structure FlpInstance {prims : Prims} {fuel : Nat} (P : Prio3Of (XofTurboShake128 prims fuel) F Meas Agg) :
    Prop where
  init : Prio3Of.init P.id (XofTurboShake128 prims fuel) P.shares P.flp P.proofs = .ok P
  id : P.id < 2 ^ 32
  proofs : P.proofs < 256
  shares : P.shares < PyField.modulus F

open Classical in
/-- When, and how, `query` of `FlpBBCGGI19` raises. -/
noncomputable def rootAbort (V : Valid F Meas Agg) (queryRand : List F) : Option Err :=
  if BadTestPoint V queryRand then some rootOfUnityErr else none

/-- `FlpTest` of the tests: the sum of numbers from `0` to `4` -/
def flpTestTask (F : Type) [NttField F] : Task Int Nat where
  valid m := 0 ≤ m ∧ m < 5
  supported ms := (ms.map Int.toNat).sum < PyField.modulus F
  agg ms := (ms.map Int.toNat).sum

/-! ### Prio3 over an arbitrary FLP -/

namespace Of
variable {X : Xof}

/-- Helper `j`'s measurement share, expanded from its seed. -/
def measShare (P : Prio3Of X F Meas Agg) (ctx : Bytes) (j : Nat) (seed : Bytes) : Res (List F) :=
  X.expandIntoVec F seed (tag P.id 1 ctx) [UInt8.ofNat j] P.flp.measLen

/-- Helper `j`'s share of the proofs, expanded from its seed. -/
def proofsShare (P : Prio3Of X F Meas Agg) (ctx : Bytes) (j : Nat) (seed : Bytes) : Res (List F) :=
  X.expandIntoVec F seed (tag P.id 2 ctx) [UInt8.ofNat P.proofs, UInt8.ofNat j]
    (P.flp.proofLen * P.proofs)

/-- The joint randomness of all the proofs, expanded from the joint randomness seed. -/
def jointRands (P : Prio3Of X F Meas Agg) (ctx seed : Bytes) : Res (List F) :=
  X.expandIntoVec F seed (tag P.id 3 ctx) [UInt8.ofNat P.proofs] (P.flp.jointRandLen * P.proofs)

/-- The prove randomness of all the proofs, expanded from the client's prove seed. -/
def proveRands (P : Prio3Of X F Meas Agg) (ctx seed : Bytes) : Res (List F) :=
  X.expandIntoVec F seed (tag P.id 4 ctx) [UInt8.ofNat P.proofs] (P.flp.proveRandLen * P.proofs)

/-- The query randomness of all the proofs, expanded from the verification key and the nonce. -/
def queryRands (P : Prio3Of X F Meas Agg) (verifyKey ctx nonce : Bytes) : Res (List F) :=
  X.expandIntoVec F verifyKey (tag P.id 5 ctx) (UInt8.ofNat P.proofs :: nonce)
    (P.flp.queryRandLen * P.proofs)

/-- The joint randomness seed, derived from the parts of all the Aggregators. -/
def jointRandSeed (P : Prio3Of X F Meas Agg) (ctx : Bytes) (parts : List Bytes) : Res Bytes :=
  X.deriveSeed (List.replicate X.seedSize 0) (tag P.id 6 ctx) parts.flatten

/-- Aggregator `j`'s part of the joint randomness, derived from its blind, its index, the nonce
and its measurement share. -/
def jointRandPart (P : Prio3Of X F Meas Agg) (ctx : Bytes) (j : Nat) (blind : Bytes)
    (measShare : List F) (nonce : Bytes) : Res Bytes := do
  let e ← encodeVec measShare
  X.deriveSeed blind (tag P.id 7 ctx) (UInt8.ofNat j :: (nonce ++ e))

/-- Aggregator `j`, holding the input share `s`, uses the measurement share `ms`, the share `ps`
of the proofs and the blind `bl`. -/
def Expands (P : Prio3Of X F Meas Agg) (ctx : Bytes) (j : Nat) (s : Prio3InputShare F)
    (ms ps : List F) (bl : Option Bytes) : Prop :=
  (j = 0 ∧ s = .leader ms ps bl) ∨
  (0 < j ∧ ∃ seed, s = .helper seed bl ∧ measShare P ctx j seed = .ok ms ∧
    proofsShare P ctx j seed = .ok ps)

/-- The exceptions an honest execution may raise: the sampler ran out, or the FLP aborts on the query randomness of one
of the proofs of a report. -/
def HonestFailure (P : Prio3Of X F Meas Agg) (abort : List F → Option Err) (verifyKey ctx : Bytes) (nonces : List Bytes)
    (e : Err) : Prop :=
  (e = .fuel ∧ SamplerRanOut X F) ∨
    ∃ nonce ∈ nonces, ∃ qrs, queryRands P verifyKey ctx nonce = .ok qrs ∧ ∃ i < P.proofs,
      abort (piece P.flp.queryRandLen qrs i) = some e

/-- `jrs` is the joint randomness of all the proofs, and `seed` the joint randomness seed, for
Aggregators that hold the measurement shares `ms j` and the blinds `bl j`. -/
def JointRandOf (P : Prio3Of X F Meas Agg) (ctx nonce : Bytes) (ms : Nat → List F)
    (bl : Nat → Option Bytes) (seed : Option Bytes) (jrs : List F) : Prop :=
  (P.flp.jointRandLen = 0 ∧ seed = none ∧ jrs = []) ∨
  (0 < P.flp.jointRandLen ∧ ∃ (b parts : Nat → Bytes) (s : Bytes), seed = some s ∧
    (∀ j < P.shares, bl j = some (b j) ∧
      jointRandPart P ctx j (b j) (ms j) nonce = .ok (parts j)) ∧
    jointRandSeed P ctx ((List.range P.shares).map parts) = .ok s ∧ jointRands P ctx s = .ok jrs)

/-- Verification succeeds for all the Aggregators: `verify_init` returns the states `st j` and
the verifier shares `sh j`, these combine to the message `msg`, which every Aggregator accepts. -/
def VerifySucceeds (P : Prio3Of X F Meas Agg) (verifyKey ctx nonce : Bytes)
    (pub : Option (List Bytes)) (ish : Nat → Prio3InputShare F)
    (st sh : Nat → List F × Option Bytes) (msg : Option Bytes) : Prop :=
  (∀ j < P.shares, P.verifyInit verifyKey ctx j () nonce pub (ish j) = .ok (st j, sh j)) ∧
  P.sharesToMessage ctx () ((List.range P.shares).map sh) = .ok msg ∧
  ∀ j < P.shares, ∃ r, Prio3Of.verifyNext (F := F) ctx (st j) msg = .ok r

/-! ### The shapes of the messages -/

/-- A seed that is present exactly if the FLP uses joint randomness. -/
def OptSeed (P : Prio3Of X F Meas Agg) : Option Bytes → Prop
  | none => P.flp.jointRandLen = 0
  | some b => 0 < P.flp.jointRandLen ∧ b.length = X.seedSize

/-- An input share for Aggregator `aggId`. -/
def InputShareShape (P : Prio3Of X F Meas Agg) (aggId : Nat) : Prio3InputShare F → Prop
  | .leader meas proofs blind => aggId = 0 ∧ meas.length = P.flp.measLen ∧
      proofs.length = P.flp.proofLen * P.proofs ∧ OptSeed P blind
  | .helper share blind => aggId ≠ 0 ∧ share.length = X.seedSize ∧ OptSeed P blind

/-- A public share. -/
def PublicShareShape (P : Prio3Of X F Meas Agg) : Option (List Bytes) → Prop
  | none => P.flp.jointRandLen = 0
  | some parts => 0 < P.flp.jointRandLen ∧ parts.length = P.shares ∧
      ∀ p ∈ parts, p.length = X.seedSize

/-- A verifier share. -/
def VerifierShareShape (P : Prio3Of X F Meas Agg) (s : List F × Option Bytes) : Prop :=
  s.1.length = P.flp.verifierLen * P.proofs ∧ OptSeed P s.2

end Of
end Vdaf.Spec
