import Verif.Model.Vdaf
import Verif.Model.Flp

/-!
# Model of the test harnesses of `poc/vdaf_poc/test_utils.py`

`TestVdaf` and `TestFlpBBCGGI19` are part of the library: implementers of new circuits, gadgets and VDAFs run them on their
code.  A test that fails raises `AssertionError` (`assertEqual`, `assertTrue`), which is modelled by the constructor
`assertion`.  What `rand_vec` and `gen_rand` return are arguments.
-/

namespace Vdaf
variable {F : Type} [NttField F] {Meas Agg : Type}

/-- test_utils.py:483-498 `TestFlpBBCGGI19.run_gadget_test(g, field, test_length)`; `evalAt` is the random element and
`measPoly` the list of the `g.ARITY` random vectors of length `test_length` -/
def runGadgetTest (g : Gadget F) (evalAt : F) (measPoly : List (List F)) : Res Unit := do
  let meas ← mapRes (fun p => lagPolyEval p evalAt) measPoly
  let outPoly ← g.evalPoly measPoly
  let want ← g.eval meas
  let got ← lagPolyEval outPoly evalAt
  pyAssert (got = want)

/-- A test case of `run_flp_test` with the random vectors that it uses. -/
structure FlpTestCase (F : Type) where
  /-- `meas` -/
  meas : List F
  /-- `expected_decision` -/
  expected : Bool
  /-- the joint randomness of the direct evaluation of the circuit -/
  evalJointRand : List F
  /-- the randomness of `run_flp` -/
  jointRand : List F
  proveRand : List F
  queryRand : List F
  measRands : List (List F)
  proofRands : List (List F)

/-- test_utils.py:510-521, the body of the loop over the test cases -/
def runFlpTestCase (V : Valid F Meas Agg) (c : FlpTestCase F) : Res Unit := do
  pyAssert (c.meas.length = V.measLen)
  let o ← V.truncate c.meas
  pyAssert (o.length = V.outputLen)
  let v ← V.evalPlain c.meas c.evalJointRand 1
  pyAssert (decide (v = List.replicate V.evalOutputLen 0) = c.expected)
  let decision ← runFlp V c.meas c.jointRand c.proveRand c.queryRand c.measRands c.proofRands 2
  pyAssert (decision = c.expected)

/-- test_utils.py:500-521 `TestFlpBBCGGI19.run_flp_test`; `gadgetRands` has the random element and vectors for each of
the gadgets -/
def runFlpTest (V : Valid F Meas Agg) (gadgetRands : List (F × List (List F))) (testCases : List (FlpTestCase F)) :
    Res Unit := do
  forFold (List.zip (List.zip V.gadgets V.gadgetCalls) gadgetRands) () fun _ ((g, calls), evalAt, measPoly) => do
    let _ ← wirePolyLen calls
    runGadgetTest g evalAt measPoly
  forFold testCases () fun _ c => runFlpTestCase V c

/-- test_utils.py:523-530 `run_encode_truncate_decode_test`.  Measurements and aggregate results have different types
in the model; `same m r` is `m == r` of Python. -/
def runEncodeTruncateDecodeTest (V : Valid F Meas Agg) (same : Meas → Agg → Bool) (measurements : List Meas) :
    Res Unit :=
  forFold measurements () fun _ m => do
    let e ← V.encode m
    let t ← V.truncate e
    let r ← V.decode t 1
    pyAssert (same m r)

/-- test_utils.py:43-70 `TestVdaf.run_vdaf_test`; the random verification key is an argument, and each measurement comes
with the nonce and the random bytes generated for it -/
def runVdafTest {AggParam PubShare InShare OutShare AggShare AggRes State VerShare VerMsg : Type} [DecidableEq AggRes]
    (V : VdafImpl Meas AggParam PubShare InShare OutShare AggShare AggRes State VerShare VerMsg)
    (verifyKey : Bytes) (aggParam : AggParam) (measurements : List (Meas × Bytes × Bytes)) (expected : AggRes) :
    Res Unit := do
  pyAssert (V.id < 2 ^ 32)
  -- `b"some application context"`
  let r ← runVdaf V verifyKey aggParam "some application context".toUTF8.data.toList measurements
  pyAssert (r = expected)

end Vdaf
