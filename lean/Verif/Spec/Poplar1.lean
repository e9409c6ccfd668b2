import Verif.Model.Poplar1
import Verif.Spec.Prio3

/-! # Specification vocabulary for Poplar1 -/

namespace Vdaf.Spec

/-- Lexicographic order on bit strings, 0 before 1: `p` is a proper prefix of `q`, or, at the first position
where they differ, `p` has a 0 and `q` has a 1. -/
def LexLt (p q : List Bool) : Prop :=
  (∃ t, t ≠ [] ∧ q = p ++ t) ∨ ∃ c s t, p = c ++ false :: s ∧ q = c ++ true :: t

/-- The number of measurements that start with `p` -/
def countPrefix (measurements : List (List Bool)) (p : List Bool) : ℕ :=
  (measurements.filter fun m => p.isPrefixOf m).length

/-- The aggregation parameters that the encoding can represent and that `verify_init` can be called with: a
list of bit strings, all of length `level + 1` -/
def WellFormed (a : Poplar1AggParam) : Prop :=
  a.1 < 2 ^ 16 ∧ a.2.length < 2 ^ 32 ∧ ∀ p ∈ a.2, p.length = a.1 + 1

/-- The modulus of the field of a level: `Field64` for the inner levels, `Field255` for the last one -/
def levelModulus (bits level : ℕ) : ℕ :=
  if level + 1 < bits then PyField.modulus Field64 else PyField.modulus Field255

/-- The verification randomness, one element of the field of the level for each of `n` prefixes, expanded from
the verification key (usage 4) with the nonce and the level (two bytes, big-endian) as the binder -/
def poplar1VerifyRand (P : Poplar1) (prims : Prims) (fuel : ℕ) (verifyKey ctx nonce : Bytes) (level n : ℕ) :
    Res (List (Fk (P.idpf.currentField level))) :=
  (XofTurboShake128 prims fuel).expandIntoVec (Fk (P.idpf.currentField level)) verifyKey (tag 6 4 ctx)
    (nonce ++ [UInt8.ofNat (level / 2 ^ 8), UInt8.ofNat level]) n

/-- Both rounds of verification of a report succeed, and the two Aggregators obtain the output shares
`out0` and `out1`. -/
def Poplar1Succeeds (P : Poplar1) (prims : Prims) (fuel : ℕ) (verifyKey ctx : Bytes) (aggParam : Poplar1AggParam)
    (nonce : Bytes) (pub : List CorrectionWord) (s0 s1 : Poplar1InputShare) (out0 out1 : FieldVec) : Prop :=
  ∃ st0 sh0 st1 sh1 m st0' sh0' st1' sh1' m',
    P.verifyInit prims fuel verifyKey ctx 0 aggParam nonce pub s0 = .ok (st0, sh0) ∧
    P.verifyInit prims fuel verifyKey ctx 1 aggParam nonce pub s1 = .ok (st1, sh1) ∧
    Poplar1.sharesToMessage ctx aggParam [sh0, sh1] = .ok m ∧
    Poplar1.verifyNext ctx st0 m = .ok (.cont st0' sh0') ∧
    Poplar1.verifyNext ctx st1 m = .ok (.cont st1' sh1') ∧
    Poplar1.sharesToMessage ctx aggParam [sh0', sh1'] = .ok m' ∧
    Poplar1.verifyNext ctx st0' m' = .ok (.out out0) ∧
    Poplar1.verifyNext ctx st1' m' = .ok (.out out1)

/-- Both rounds of verification of a report, by two Aggregators that exchange their verifier shares; the result
is the two output shares.  Getting an output share in the first round, or a verifier share in the second, would be
an `AssertionError`. -/
def poplar1Verify (P : Poplar1) (prims : Prims) (fuel : ℕ) (verifyKey ctx : Bytes) (aggParam : Poplar1AggParam)
    (nonce : Bytes) (pub : List CorrectionWord) (s0 s1 : Poplar1InputShare) : Res (FieldVec × FieldVec) := do
  let (st0, sh0) ← P.verifyInit prims fuel verifyKey ctx 0 aggParam nonce pub s0
  let (st1, sh1) ← P.verifyInit prims fuel verifyKey ctx 1 aggParam nonce pub s1
  let m ← Poplar1.sharesToMessage ctx aggParam [sh0, sh1]
  let (st0, sh0) ← (P.vdaf prims fuel).verifyNextTuple ctx st0 m
  let (st1, sh1) ← (P.vdaf prims fuel).verifyNextTuple ctx st1 m
  let m ← Poplar1.sharesToMessage ctx aggParam [sh0, sh1]
  let out0 ← (P.vdaf prims fuel).verifyNextOut ctx st0 m
  let out1 ← (P.vdaf prims fuel).verifyNextOut ctx st1 m
  return (out0, out1)

/-- The zero vector, or a vector with one entry 1 and all the others 0 -/
def ZeroOrUnit {F : Type} [Zero F] [One F] (v : List F) : Prop :=
  v = List.replicate v.length 0 ∨ ∃ i < v.length, v = (List.replicate v.length 0).set i 1

end Vdaf.Spec
