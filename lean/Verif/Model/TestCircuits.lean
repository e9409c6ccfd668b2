import Verif.Model.Prio3

/-!
# Circuits from the tests

The validity circuits that the tests of the repository define to exercise features of the FLP that no library circuit
uses: a gadget of degree three, several gadgets, and a `decode` that uses the number of measurements.
-/

namespace Vdaf

/-- tests/test_flp_bbcggi19.py:71-78, the `encode`, `truncate` and `decode` of `HigherDegree` (and of `MultiGadget`,
lines 38-45) -/
def encodeInt (F : Type) [NttField F] (measurement : Int) : Res (List F) := do
  let x ← ofInt F measurement
  return [x]

/-- tests/test_flp_bbcggi19.py:48-78 `HigherDegree`; `gadget` is `PolyEval([0, 2, -3, 1], 1)`. -/
def HigherDegree.circuit (F : Type) [NttField F] (gadget : Gadget F) : Valid F Int Nat where
  measLen := 1
  jointRandLen := 0
  outputLen := 1
  evalOutputLen := 1
  gadgets := [gadget]
  gadgetCalls := [1]
  encode := encodeInt F
  eval meas jointRand _numShares := do
    Prog.ofRes (checkValidEval 1 0 meas jointRand)
    let m ← Prog.ofRes (getI meas 0)
    let y ← Prog.call 0 [m] .pure
    return [y]
  truncate meas := .ok meas
  decode output _numMeasurements := do
    let x ← getI output 0
    return PyField.toNat x

/-- tests/test_flp_bbcggi19.py:54: `x * (x - 1) * (x - 2)` -/
def HigherDegree (F : Type) [NttField F] : Res (Valid F Int Nat) := do
  let gadget ← PolyEval F [0, 2, -3, 1] 1
  return HigherDegree.circuit F gadget

/-- tests/test_flp_bbcggi19.py:16-45 `MultiGadget` -/
def MultiGadget (F : Type) [NttField F] : Valid F Int Nat where
  measLen := 1
  jointRandLen := 0
  outputLen := 1
  evalOutputLen := 1
  gadgets := [Mul F, Mul F]
  gadgetCalls := [1, 2]
  encode := encodeInt F
  eval meas jointRand _numShares := do
    Prog.ofRes (checkValidEval 1 0 meas jointRand)
    let m ← Prog.ofRes (getI meas 0)
    let x ← Prog.call 0 [m, m] .pure
    let y ← Prog.call 1 [m, x] .pure
    let z ← Prog.call 1 [x, y] .pure
    return [z]
  truncate meas := .ok meas
  decode output _numMeasurements := do
    let x ← getI output 0
    return PyField.toNat x

/-- tests/test_flp_bbcggi19.py:81-89 `TestAverage`: `Sum` with another `decode`.  `//` by zero raises
(`ZeroDivisionError`, modelled as `ValueError`). -/
def TestAverage (F : Type) [NttField F] (maxMeasurement : Nat) : Res (Valid F Int Nat) := do
  let V ← Sum F maxMeasurement
  return { V with
    decode := fun output numMeasurements => do
      let total ← V.decode output numMeasurements
      raiseIf (numMeasurements = 0) "integer division or modulo by zero"
      return total / numMeasurements }

/-- tests/test_vdaf_prio3.py:33-46 `Prio3HigherDegree` -/
def Prio3HigherDegree (prims : Prims) (fuel shares : Nat) :
    Res (Prio3 (XofTurboShake128 prims fuel) Field64 Int Nat) := do
  let valid ← HigherDegree Field64
  Prio3.init 0xFFFFFFFF (XofTurboShake128 prims fuel) shares valid 1

/-- tests/test_vdaf_prio3.py:16-30 `Prio3Average` -/
def Prio3Average (prims : Prims) (fuel shares maxMeasurement : Nat) :
    Res (Prio3 (XofTurboShake128 prims fuel) Field128 Int Nat) := do
  let valid ← TestAverage Field128 maxMeasurement
  Prio3.init 0xFFFFFFFF (XofTurboShake128 prims fuel) shares valid 1

end Vdaf
