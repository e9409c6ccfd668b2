import Verif.Model.Flp

/-!
# Model of the gadgets and validity circuits of `poc/vdaf_poc/flp_bbcggi19.py`

Constructors that raise return `Res`.
-/

namespace Vdaf

section gadgets
variable {F : Type} [NttField F]

/-- flp_bbcggi19.py:523-536 `Mul` -/
def Mul (F : Type) [NttField F] : Gadget F where
  arity := 2
  degree := 2
  eval inp := do
    Gadget.checkEval 2 inp
    let x ← getI inp 0
    let y ← getI inp 1
    return x * y
  evalPoly inpPoly := do
    Gadget.checkEvalPoly 2 inpPoly
    let p ← getI inpPoly 0
    let q ← getI inpPoly 1
    lagPolyMul p q

/-- flp_bbcggi19.py:550-554, the loop stripping leading zeros, counting down from `i`.
A list of zeros is left unchanged. -/
def polyEvalStrip (p : List Int) : Nat → Res (List Int)
  | 0 => .ok p
  | i + 1 => do
    let pi ← getI p i
    if pi ≠ 0 then return p.take (i + 1) else polyEvalStrip p i

/-- flp_bbcggi19.py:542-585 `PolyEval`; `p` is the list of integer coefficients and
`numCalls` the number of calls. -/
def PolyEval (F : Type) [NttField F] (p : List Int) (numCalls : Nat) : Res (Gadget F) := do
  let p ← polyEvalStrip p p.length
  raiseIf (p.length < 1) "invalid polynomial: zero length"
  let degree := p.length - 1
  let wirePolyLength ← wirePolyLen numCalls
  let gadgetPolyLength := gadgetPolyLen degree wirePolyLength
  let n ← nextPowerOf2 gadgetPolyLength
  return {
    arity := 1
    degree := degree
    eval := fun inp => do
      Gadget.checkEval 1 inp
      let pf ← mapRes (fun coeff => ofInt F coeff) p
      let x ← getI inp 0
      polyEval pf x
    evalPoly := fun inpPoly => do
      Gadget.checkEvalPoly 1 inpPoly
      let inp0 ← getI inpPoly 0
      let inpPolyLen := inp0.length
      let _ ← assertPowerOf2 inpPolyLen
      let inpMon ← invNtt inp0 inpPolyLen
      let inpLag ← ntt inpMon n
      let pMon ← mapRes (fun coeff => ofInt F coeff) p
      mapRes (fun x => polyEval pMon x) inpLag }

/-- flp_bbcggi19.py:591-650 `ParallelSum` -/
def ParallelSum (subcircuit : Gadget F) (count : Nat) : Gadget F where
  arity := subcircuit.arity * count
  degree := subcircuit.degree
  eval inp := do
    Gadget.checkEval (subcircuit.arity * count) inp
    forFold (List.range count) (0 : F) fun out i => do
      let startIndex := i * subcircuit.arity
      let endIndex := (i + 1) * subcircuit.arity
      let y ← subcircuit.eval (slice inp startIndex endIndex)
      return out + y
  evalPoly inpPoly := do
    Gadget.checkEvalPoly (subcircuit.arity * count) inpPoly
    let inp0 ← getI inpPoly 0
    let outputPolyLength ← nextPowerOf2 (gadgetPolyLen subcircuit.degree inp0.length)
    let outSum := List.replicate outputPolyLength (0 : F)
    forFold (List.range count) outSum fun outSum i => do
      let startIndex := i * subcircuit.arity
      let endIndex := (i + 1) * subcircuit.arity
      let outCurrent ← subcircuit.evalPoly (slice inpPoly startIndex endIndex)
      forFold (List.range outputPolyLength) outSum fun outSum j => do
        let oj ← getI outSum j
        let cj ← getI outCurrent j
        setI outSum j (oj + cj)

end gadgets

section rangeChecked
variable {F : Type} [NttField F]

/-- flp_bbcggi19.py:1146-1184 `encode_range_checked_int`; `int.bit_length` is `Nat.size`,
`>>` on Python integers is the arithmetic shift and `& 1` the parity.
For `max_measurement = 0` (excluded by the documented pre-conditions) Python computes with
the float `2 ** -1`; the result of that is written out explicitly. -/
def encodeRangeCheckedInt (F : Type) [NttField F] (value : Int) (maxMeasurement : Nat) :
    Res (List F) := do
  raiseIf (value > (maxMeasurement : Int)) "measurement is too large"
  if maxMeasurement = 0 then
    return [if value ≤ -1 then 0 else 1]
  else
    let bits := Nat.size maxMeasurement
    let restAllOnesValue : Int := 2 ^ (bits - 1) - 1
    let lastWeight : Int := maxMeasurement - restAllOnesValue
    let (rest, lastElem) : Int × F :=
      if value ≤ restAllOnesValue then (value, 0) else (value - lastWeight, 1)
    let encoded ← mapRes (fun l => ofInt F ((rest >>> l) % 2)) (List.range (bits - 1))
    return encoded ++ [lastElem]

/-- flp_bbcggi19.py:1187-1206 `decode_range_checked_int`.  For `max_measurement = 0`
(excluded by the documented pre-conditions) Python would build a field element from a
float; the model raises. -/
def decodeRangeCheckedInt (encoded : List F) (maxMeasurement : Nat) : Res F := do
  if maxMeasurement = 0 then .error .type
  else
    let bits := Nat.size maxMeasurement
    let restAllOnesValue : Int := 2 ^ (bits - 1) - 1
    let lastWeight : Int := maxMeasurement - restAllOnesValue
    let decoded ← forFold (encoded.take (bits - 1)).zipIdx (0 : F) fun decoded (bit, l) => do
      let w ← ofInt F ((1 : Int) <<< l)
      return decoded + w * bit
    let w ← ofInt F lastWeight
    let last ← getI encoded (bits - 1)
    return decoded + w * last

end rangeChecked

section circuits
variable {F : Type} [NttField F]

/-- flp_bbcggi19.py:660-695 `Count` -/
def Count (F : Type) [NttField F] : Valid F Int Nat where
  measLen := 1
  jointRandLen := 0
  outputLen := 1
  evalOutputLen := 1
  gadgets := [Mul F]
  gadgetCalls := [1]
  encode measurement := do
    raiseIf (¬ (0 ≤ measurement ∧ measurement < 2)) "measurement out of range"
    let x ← ofInt F measurement
    return [x]
  eval meas jointRand _numShares := do
    Prog.ofRes (checkValidEval 1 0 meas jointRand)
    let m ← Prog.ofRes (getI meas 0)
    let squared ← Prog.call 0 [m, m] .pure
    return [squared - m]
  truncate meas := do
    raiseIf (meas.length ≠ 1) "incorrect measurement length"
    return meas
  decode output _numMeasurements := do
    let x ← getI output 0
    return PyField.toNat x

/-- `meas[index] if index < len(meas) else field(0)` (flp_bbcggi19.py:755-757, 889-891,
1029-1031) -/
def padGet (meas : List F) (index : Nat) : Res F :=
  if index < meas.length then getI meas index else .ok 0

/-- The body of the loop over `j` at flp_bbcggi19.py:752-763 (and 886-897, 1026-1037): one
pair of gadget inputs.  `inputs` starts as `[None] * (2 * chunk_length)`; every entry is
overwritten before the list is used, so the placeholder is modelled by `0`. -/
def chunkStep (meas : List F) (sharesInv r : F) (chunkLength i : Nat)
    (st : List F × F) (j : Nat) : Res (List F × F) := do
  let (inputs, rPower) := st
  let index := i * chunkLength + j
  let measElem ← padGet meas index
  let inputs ← setI inputs (j * 2) (rPower * measElem)
  let inputs ← setI inputs (j * 2 + 1) (measElem - sharesInv)
  return (inputs, rPower * r)

/-- The loop at flp_bbcggi19.py:746-768 (`Histogram`), 880-902 (`MultihotCountVec`) and
1020-1042 (`SumVec`): the bit check of every entry with powers of the joint randomness. -/
def chunkLoop (meas jointRand : List F) (sharesInv : F) (chunkLength calls : Nat) :
    Prog F F :=
  Prog.forFold (List.range calls) (0 : F) fun rangeCheck i => do
    let r ← Prog.ofRes (getI jointRand i)
    let (inputs, _) ← Prog.ofRes (forFold (List.range chunkLength)
      (List.replicate (2 * chunkLength) (0 : F), r) (chunkStep meas sharesInv r chunkLength i))
    let y ← Prog.call 0 inputs .pure
    return rangeCheck + y

/-- `(n + chunk_length - 1) // chunk_length` -/
def numCalls (n chunkLength : Nat) : Nat := (n + chunkLength - 1) / chunkLength

/-- `encoded[i] = x` where a negative `i` counts from the end. -/
def setPy {α : Type} (l : List α) (i : Int) (x : α) : Res (List α) :=
  if 0 ≤ i then setI l i.toNat x
  else if -(l.length : Int) ≤ i then setI l (l.length + i).toNat x
  else .error .index

/-- flp_bbcggi19.py:701-788 `Histogram`, the attributes and methods of an instance whose
constructor (`Histogram` below) succeeded. -/
def Histogram.circuit (F : Type) [NttField F] (length chunkLength : Nat) :
    Valid F Int (List Nat) where
  measLen := length
  jointRandLen := numCalls length chunkLength
  outputLen := length
  evalOutputLen := 2
  gadgets := [ParallelSum (Mul F) chunkLength]
  gadgetCalls := [numCalls length chunkLength]
  encode measurement := setPy (List.replicate length (0 : F)) measurement 1
  eval meas jointRand numShares := do
    Prog.ofRes (checkValidEval length (numCalls length chunkLength) meas jointRand)
    let n ← Prog.ofRes (ofInt F numShares)
    let sharesInv := n⁻¹
    let rangeCheck ← chunkLoop meas jointRand sharesInv chunkLength (numCalls length chunkLength)
    let sumCheck := meas.foldl (fun s b => s + b) (-sharesInv)
    return [rangeCheck, sumCheck]
  truncate meas := .ok meas
  decode output _numMeasurements := .ok (output.map PyField.toNat)

/-- flp_bbcggi19.py:706-731 `Histogram.__init__` -/
def Histogram (F : Type) [NttField F] (length chunkLength : Nat) :
    Res (Valid F Int (List Nat)) := do
  raiseIf (length ≤ 0) "invalid length"
  raiseIf (chunkLength ≤ 0) "invalid chunk_length"
  return Histogram.circuit F length chunkLength

/-- flp_bbcggi19.py:794-943 `MultihotCountVec`, the attributes and methods of an instance
whose constructor succeeded. -/
def MultihotCountVec.circuit (F : Type) [NttField F] (length maxWeight chunkLength : Nat) :
    Valid F (List Bool) (List Nat) where
  measLen := length + Nat.size maxWeight
  jointRandLen := numCalls (length + Nat.size maxWeight) chunkLength
  outputLen := length
  evalOutputLen := 2
  gadgets := [ParallelSum (Mul F) chunkLength]
  gadgetCalls := [numCalls (length + Nat.size maxWeight) chunkLength]
  encode measurement := do
    raiseIf (measurement.length ≠ length) "invalid Client measurement length"
    let countVec ← mapRes (fun (x : Bool) => ofInt F (x.toNat : Int)) measurement
    let weightReported := (measurement.map Bool.toNat).sum
    let w ← encodeRangeCheckedInt F weightReported maxWeight
    return countVec ++ w
  eval meas jointRand numShares := do
    Prog.ofRes (checkValidEval (length + Nat.size maxWeight)
      (numCalls (length + Nat.size maxWeight) chunkLength) meas jointRand)
    let n ← Prog.ofRes (ofInt F numShares)
    let sharesInv := n⁻¹
    let rangeCheck ← chunkLoop meas jointRand sharesInv chunkLength
      (numCalls (length + Nat.size maxWeight) chunkLength)
    let countVec := meas.take length
    let weight := countVec.foldl (fun s b => s + b) (0 : F)
    let weightReported ← Prog.ofRes (decodeRangeCheckedInt (meas.drop length) maxWeight)
    let weightCheck := weight - weightReported
    return [rangeCheck, weightCheck]
  truncate meas := .ok (meas.take length)
  decode output _numMeasurements := .ok (output.map PyField.toNat)

/-- flp_bbcggi19.py:801-858 `MultihotCountVec.__init__` -/
def MultihotCountVec (F : Type) [NttField F] (length maxWeight chunkLength : Nat) :
    Res (Valid F (List Bool) (List Nat)) := do
  raiseIf (length ≤ 0) "invalid length"
  raiseIf (maxWeight ≤ 0 ∨ maxWeight > length) "invalid max_weight"
  raiseIf (chunkLength ≤ 0) "invalid chunk_length"
  raiseIf (PyField.modulus F ≤ length) "length is too large for the current field size"
  raiseIf (PyField.modulus F ≤ maxWeight) "max_weight is too large for the current field size"
  return MultihotCountVec.circuit F length maxWeight chunkLength

/-- flp_bbcggi19.py:949-1066 `SumVec`, the attributes and methods of an instance whose
constructor succeeded. -/
def SumVec.circuit (F : Type) [NttField F] (length maxMeasurement chunkLength : Nat) :
    Valid F (List Int) (List Nat) where
  measLen := length * Nat.size maxMeasurement
  jointRandLen := numCalls (length * Nat.size maxMeasurement) chunkLength
  outputLen := length
  evalOutputLen := 1
  gadgets := [ParallelSum (Mul F) chunkLength]
  gadgetCalls := [numCalls (length * Nat.size maxMeasurement) chunkLength]
  encode measurement := do
    raiseIf (measurement.length ≠ length) "incorrect measurement length"
    forFold measurement ([] : List F) fun encoded val => do
      raiseIf (val < 0 ∨ val > (maxMeasurement : Int))
        "entry of measurement vector is out of range"
      let e ← encodeRangeCheckedInt F val maxMeasurement
      return encoded ++ e
  eval meas jointRand numShares := do
    Prog.ofRes (checkValidEval (length * Nat.size maxMeasurement)
      (numCalls (length * Nat.size maxMeasurement) chunkLength) meas jointRand)
    let n ← Prog.ofRes (ofInt F numShares)
    let sharesInv := n⁻¹
    let out ← chunkLoop meas jointRand sharesInv chunkLength
      (numCalls (length * Nat.size maxMeasurement) chunkLength)
    return [out]
  truncate meas :=
    mapRes (fun i => decodeRangeCheckedInt
      (slice meas (i * Nat.size maxMeasurement) ((i + 1) * Nat.size maxMeasurement))
      maxMeasurement) (List.range length)
  decode output _numMeasurements := .ok (output.map PyField.toNat)

/-- flp_bbcggi19.py:956-994 `SumVec.__init__` -/
def SumVec (F : Type) [NttField F] (length maxMeasurement chunkLength : Nat) :
    Res (Valid F (List Int) (List Nat)) := do
  raiseIf (length ≤ 0) "invalid length"
  raiseIf (chunkLength ≤ 0) "invalid chunk_length"
  raiseIf (maxMeasurement ≤ 0) "invalid max_measurement"
  raiseIf (2 ^ Nat.size maxMeasurement ≥ PyField.modulus F) "bound exceeds field modulus"
  return SumVec.circuit F length maxMeasurement chunkLength

/-- flp_bbcggi19.py:1073-1143 `Sum`, the attributes and methods of an instance whose
constructor succeeded; `gadget` is `PolyEval([0, -1, 1], bits)`. -/
def Sum.circuit (F : Type) [NttField F] (maxMeasurement : Nat) (gadget : Gadget F) :
    Valid F Int Nat where
  measLen := Nat.size maxMeasurement
  jointRandLen := 0
  outputLen := 1
  evalOutputLen := Nat.size maxMeasurement
  gadgets := [gadget]
  gadgetCalls := [Nat.size maxMeasurement]
  encode measurement := encodeRangeCheckedInt F measurement maxMeasurement
  eval meas jointRand _numShares := do
    Prog.ofRes (checkValidEval (Nat.size maxMeasurement) 0 meas jointRand)
    Prog.forFold meas ([] : List F) fun out b => do
      let y ← Prog.call 0 [b] .pure
      return out ++ [y]
  truncate meas := do
    let x ← decodeRangeCheckedInt meas maxMeasurement
    return [x]
  decode output _numMeasurements := do
    let x ← getI output 0
    return PyField.toNat x

/-- flp_bbcggi19.py:1078-1102 `Sum.__init__` -/
def Sum (F : Type) [NttField F] (maxMeasurement : Nat) : Res (Valid F Int Nat) := do
  raiseIf (2 ^ Nat.size maxMeasurement ≥ PyField.modulus F) "bound exceeds field modulus"
  let gadget ← PolyEval F [0, -1, 1] (Nat.size maxMeasurement)
  return Sum.circuit F maxMeasurement gadget

end circuits
end Vdaf
