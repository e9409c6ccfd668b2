import Verif.Model.Poplar1
import Verif.Model.TestCircuits

/-!
# Model of the parameters of a VDAF in a test vector

`test_vec_set_type_param` of the VDAFs and of the circuits, and how the tests construct the VDAF from a test vector.
The attributes `length`, `max_measurement`, `max_weight` and `chunk_length` of a circuit, which are the arguments of its
constructor (flp_bbcggi19.py:722-723, 851-853, 974-978, 1099), are arguments of the functions.
-/

namespace Vdaf

/-- A test vector as a Python `dict`, in the order of insertion.  The values are integers, or something else. -/
abbrev Doc (α : Type) := List (String × (Nat ⊕ α))

namespace Doc
variable {α : Type}

/-- `doc[key] = value` -/
def set (doc : Doc α) (key : String) (value : Nat) : Doc α :=
  if doc.any (fun e => e.1 == key) then doc.map (fun e => if e.1 = key then (key, .inl value) else e)
  else doc ++ [(key, .inl value)]

/-- `doc[key]`, for an integer.  A missing key raises `KeyError`, which is modelled by the error of a list index out of range. -/
def int (doc : Doc α) (key : String) : Res Nat :=
  match doc.lookup key with
  | some (.inl n) => .ok n
  | some (.inr _) => .error .type
  | none => .error .index

end Doc

section
variable {α : Type}

/-- flp_bbcggi19.py:180-185 `Valid.test_vec_set_type_param` (of `Count` and `HigherDegree`), through flp_bbcggi19.py:512-513 and
vdaf_prio3.py:521-522 -/
def countTypeParam (testVec : Doc α) : Doc α × List String := (testVec, [])

/-- flp_bbcggi19.py:785-788 `Histogram.test_vec_set_type_param` -/
def histogramTypeParam (length chunkLength : Nat) (testVec : Doc α) : Doc α × List String :=
  ((testVec.set "length" length).set "chunk_length" chunkLength, ["length", "chunk_length"])

/-- flp_bbcggi19.py:939-943 `MultihotCountVec.test_vec_set_type_param` -/
def multihotTypeParam (length maxWeight chunkLength : Nat) (testVec : Doc α) : Doc α × List String :=
  (((testVec.set "length" length).set "max_weight" maxWeight).set "chunk_length" chunkLength,
    ["length", "max_weight", "chunk_length"])

/-- flp_bbcggi19.py:1062-1066 `SumVec.test_vec_set_type_param` -/
def sumVecTypeParam (length maxMeasurement chunkLength : Nat) (testVec : Doc α) : Doc α × List String :=
  (((testVec.set "length" length).set "max_measurement" maxMeasurement).set "chunk_length" chunkLength,
    ["length", "max_measurement", "chunk_length"])

/-- flp_bbcggi19.py:1141-1143 `Sum.test_vec_set_type_param` -/
def sumTypeParam (maxMeasurement : Nat) (testVec : Doc α) : Doc α × List String :=
  (testVec.set "max_measurement" maxMeasurement, ["max_measurement"])

/-- vdaf_poplar1.py:489-491 `Poplar1.test_vec_set_type_param` -/
def Poplar1.typeParam (P : Poplar1) (testVec : Doc α) : Doc α × List String := (testVec.set "bits" P.idpf.bits, ["bits"])

/-! ## How the tests construct the VDAF -/

variable (prims : Prims) (fuel : Nat)

/-- test_test_vectors.py:653-655 -/
def loadCount (testVector : Doc α) : Res (Prio3 (XofTurboShake128 prims fuel) Field64 Int Nat) := do
  Prio3Count prims fuel (← testVector.int "shares")

/-- test_test_vectors.py:681-686 -/
def loadSum (testVector : Doc α) : Res (Prio3 (XofTurboShake128 prims fuel) Field64 Int Nat) := do
  Prio3Sum prims fuel (← testVector.int "shares") (← testVector.int "max_measurement")

/-- test_test_vectors.py:700-707 -/
def loadSumVec (testVector : Doc α) : Res (Prio3 (XofTurboShake128 prims fuel) Field128 (List Int) (List Nat)) := do
  Prio3SumVec prims fuel (← testVector.int "shares") (← testVector.int "length") (← testVector.int "max_measurement")
    (← testVector.int "chunk_length")

/-- test_test_vectors.py:718-727: the field and the number of proofs are constants -/
def loadMultiproof (testVector : Doc α) : Res (Prio3 (XofTurboShake128 prims fuel) Field64 (List Int) (List Nat)) := do
  Prio3SumVecWithMultiproof prims fuel (← testVector.int "shares") Field64 3 (← testVector.int "length")
    (← testVector.int "max_measurement") (← testVector.int "chunk_length")

/-- test_test_vectors.py:738-744 -/
def loadHistogram (testVector : Doc α) : Res (Prio3 (XofTurboShake128 prims fuel) Field128 Int (List Nat)) := do
  Prio3Histogram prims fuel (← testVector.int "shares") (← testVector.int "length") (← testVector.int "chunk_length")

/-- test_test_vectors.py:770-777 -/
def loadMultihot (testVector : Doc α) : Res (Prio3 (XofTurboShake128 prims fuel) Field128 (List Bool) (List Nat)) := do
  Prio3MultihotCountVec prims fuel (← testVector.int "shares") (← testVector.int "length") (← testVector.int "max_weight")
    (← testVector.int "chunk_length")

/-- test_test_vectors.py:791-793 -/
def loadHigherDegree (testVector : Doc α) : Res (Prio3 (XofTurboShake128 prims fuel) Field64 Int Nat) := do
  Prio3HigherDegree prims fuel (← testVector.int "shares")

/-- test_test_vectors.py:801-803 -/
def loadPoplar1 (testVector : Doc α) : Res Poplar1 := do
  Poplar1.init (← testVector.int "bits")

end
end Vdaf
