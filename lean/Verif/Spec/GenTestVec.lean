import Verif.Spec.TestVectors
import Verif.Spec.Prio3
import Verif.Spec.Derive
import Verif.Model.GenTestVec

/-! # Specification vocabulary for the negative test vectors -/

namespace Vdaf.Spec
open TestVectors

section
variable {Meas AggParam PubShare InShare OutShare AggShare AggRes VState VShare VMsg : Type}
variable (V : VdafImpl Meas AggParam PubShare InShare OutShare AggShare AggRes VState VShare VMsg)

/-- The test vector is about one report with the public share `pub` and the two input shares `s0` and `s1`. -/
structure OneReport (tv : TestVec Meas AggRes) (key ctx : Bytes) (a : AggParam) (nonce rand : Bytes) (pub : PubShare)
    (s0 s1 : InShare) : Prop where
  shares : tv.shares = 2
  report : ∃ rep, tv.reports = [rep] ∧ fromHex rep.rand = .ok rand ∧ rep.inputShares.length = 2 ∧
    InitArgs V tv rep 0 key ctx a nonce pub s0 ∧ InitArgs V tv rep 1 key ctx a nonce pub s1

/-- Both Aggregators process the report, but their first verifier shares cannot be combined: `ValueError` is raised. -/
def RejectedFirst (key ctx : Bytes) (a : AggParam) (nonce : Bytes) (pub : PubShare) (s0 s1 : InShare) : Prop :=
  ∃ st0 sh0 st1 sh1 m, V.verifyInit key ctx 0 a nonce pub s0 = .ok (st0, sh0) ∧
    V.verifyInit key ctx 1 a nonce pub s1 = .ok (st1, sh1) ∧ V.sharesToMessage ctx a [sh0, sh1] = .error (.value m)

/-- The leader processes the report, but then rejects the verifier message `msg` with `ValueError`. -/
def RejectedMessage (key ctx : Bytes) (a : AggParam) (nonce : Bytes) (pub : PubShare) (s0 : InShare) (msg : VMsg) : Prop :=
  ∃ st0 sh0 m, V.verifyInit key ctx 0 a nonce pub s0 = .ok (st0, sh0) ∧ V.verifyNext ctx st0 msg = .error (.value m)

/-- Both Aggregators process the report and the first verifier message, but their second verifier shares cannot be
combined: `ValueError` is raised. -/
def RejectedSecond (key ctx : Bytes) (a : AggParam) (nonce : Bytes) (pub : PubShare) (s0 s1 : InShare) : Prop :=
  ∃ st0 sh0 st1 sh1 msg st0' sh0' st1' sh1' m, V.verifyInit key ctx 0 a nonce pub s0 = .ok (st0, sh0) ∧
    V.verifyInit key ctx 1 a nonce pub s1 = .ok (st1, sh1) ∧ V.sharesToMessage ctx a [sh0, sh1] = .ok msg ∧
    V.verifyNext ctx st0 msg = .ok (.cont st0' sh0') ∧ V.verifyNext ctx st1 msg = .ok (.cont st1' sh1') ∧
    V.sharesToMessage ctx a [sh0', sh1'] = .error (.value m)
end

section
variable {X : Xof} {F : Type} [NttField F] {Meas Agg : Type} [DecidableEq Agg] (P : Prio3 X F Meas Agg)

/-- `tv` is a test vector for a report that is rejected when the verifier shares are combined; the checker accepts the
vector. -/
structure NegativeFirst (tv : TestVec Meas Agg) (key ctx nonce rand : Bytes) (pub : Option (List Bytes))
    (s0 s1 : Prio3InputShare F) : Prop where
  lists : OneReport P.vdaf tv key ctx () nonce rand pub s0 s1
  operations : tv.operations = [.verifyInit 0 0 true, .verifyInit 1 0 true, .sharesToMessage 0 0 false]
  rejected : RejectedFirst P.vdaf key ctx () nonce pub s0 s1
  accepted : checkTestVector P.vdaf (Prio3.shareCodec F) tv = .ok ()

/-- `tv` is a test vector for a verifier message that is rejected; the checker accepts the vector. -/
structure NegativeMessage (tv : TestVec Meas Agg) (key ctx nonce rand : Bytes) (pub : Option (List Bytes))
    (s0 s1 : Prio3InputShare F) (msg : Bytes) : Prop where
  lists : OneReport P.vdaf tv key ctx () nonce rand pub s0 s1
  message : ∀ rep ∈ tv.reports, BytesAt rep.verifierMessages 0 msg
  operations : tv.operations = [.verifyInit 0 0 true, .verifyNext 1 0 0 false]
  rejected : RejectedMessage P.vdaf key ctx () nonce pub s0 (some msg)
  accepted : checkTestVector P.vdaf (Prio3.shareCodec F) tv = .ok ()
end

/-- `tv` is a test vector for a report that is rejected when the second verifier shares are combined; the checker accepts
the vector. -/
structure NegativeSecond (prims : Prims) (fuel : ℕ) (P : Poplar1) (tv : TestVec (List Bool) (List ℕ)) (key ctx : Bytes)
    (a : Poplar1AggParam) (nonce rand : Bytes) (pub : List CorrectionWord) (s0 s1 : Poplar1InputShare) : Prop where
  lists : OneReport (P.vdaf prims fuel) tv key ctx a nonce rand pub s0 s1
  operations : tv.operations = [.verifyInit 0 0 true, .verifyInit 1 0 true, .sharesToMessage 0 0 true,
    .verifyNext 1 0 0 true, .verifyNext 1 1 0 true, .sharesToMessage 1 0 false]
  rejected : RejectedSecond (P.vdaf prims fuel) key ctx a nonce pub s0 s1
  accepted : checkTestVector (P.vdaf prims fuel) P.shareCodec tv = .ok ()

/-- The first bit (of the first byte) is flipped. -/
def flipped (b : Bytes) : Bytes := b.modify 0 (· ^^^ 1)

/-- One is added to the element at position `i`. -/
def incremented {F : Type} [Add F] [One F] (i : ℕ) (v : List F) : List F := v.modify i (· + 1)

/-- `tv` lists a seed of `size` bytes, a domain separation tag and a binder, and for the stream `s` that they define: the
first `size` bytes, and the encoding of elements sampled from the stream. -/
def XofListed (tv : XofVec) (size : ℕ) (s : Bytes → Bytes → Bytes → ℕ → UInt8) : Prop :=
  ∃ seed dst binder derived e vec pos, fromHex tv.seed = .ok seed ∧ fromHex tv.dst = .ok dst ∧
    fromHex tv.binder = .ok binder ∧ fromHex tv.derivedSeed = .ok derived ∧ fromHex tv.expandedVecField128 = .ok e ∧
    seed.length = size ∧ derived = firstBytes (s seed dst binder) size ∧ decodeVec Field128 e = .ok vec ∧
    vec.length = tv.length ∧ Samples Field128 (s seed dst binder) 0 vec pos

end Vdaf.Spec
