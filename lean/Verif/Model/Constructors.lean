import Verif.Model.Prio3
import Verif.Model.Poplar1

/-!
# The constructors for arbitrary integers

The models of the circuits, of Prio3, of the IDPF and of Poplar1 take natural numbers as parameters.  In Python the parameters
are integers; here are the constructors as they run for any integers, with the same checks in the same order.

Not widened: `max_measurement` of `Sum`, which the constructor does not check to be positive (a negative one is accepted if
its absolute value is small enough), and `num_proofs`, which is not checked at all.
-/

namespace Vdaf

/-- flp_bbcggi19.py:707-729 `Histogram.__init__` -/
def Histogram.new (F : Type) [NttField F] (length chunkLength : ℤ) : Res (Valid F Int (List Nat)) := do
  raiseIf (length ≤ 0) "invalid length"
  raiseIf (chunkLength ≤ 0) "invalid chunk_length"
  return Histogram.circuit F length.toNat chunkLength.toNat

/-- flp_bbcggi19.py:813-863 `MultihotCountVec.__init__` -/
def MultihotCountVec.new (F : Type) [NttField F] (length maxWeight chunkLength : ℤ) :
    Res (Valid F (List Bool) (List Nat)) := do
  raiseIf (length ≤ 0) "invalid length"
  raiseIf (maxWeight ≤ 0 ∨ maxWeight > length) "invalid max_weight"
  raiseIf (chunkLength ≤ 0) "invalid chunk_length"
  raiseIf ((PyField.modulus F : ℤ) ≤ length) "length is too large for the current field size"
  raiseIf ((PyField.modulus F : ℤ) ≤ maxWeight) "max_weight is too large for the current field size"
  return MultihotCountVec.circuit F length.toNat maxWeight.toNat chunkLength.toNat

/-- flp_bbcggi19.py:956-989 `SumVec.__init__`.  `bit_length` is that of a positive integer where it is used. -/
def SumVec.new (F : Type) [NttField F] (length maxMeasurement chunkLength : ℤ) :
    Res (Valid F (List Int) (List Nat)) := do
  raiseIf (length ≤ 0) "invalid length"
  raiseIf (chunkLength ≤ 0) "invalid chunk_length"
  raiseIf (maxMeasurement ≤ 0) "invalid max_measurement"
  let bits := Nat.size maxMeasurement.toNat
  raiseIf (2 ^ bits ≥ PyField.modulus F) "bound exceeds field modulus"
  return SumVec.circuit F length.toNat maxMeasurement.toNat chunkLength.toNat

/-- vdaf_prio3.py:68-87 `Prio3.__init__` -/
def Prio3.new {F Meas Agg : Type} (id : Nat) (X : Xof) (shares : ℤ) (flp : Valid F Meas Agg) (numProofs : Nat) :
    Res (Prio3 X F Meas Agg) := do
  let proofLen ← flp.proofLen
  raiseIf (¬ (2 ≤ shares ∧ shares < 256)) "invalid number of shares"
  return ⟨id, shares.toNat, numProofs, flp, proofLen⟩

variable (prims : Prims) (fuel : Nat)

/-- vdaf_prio3.py:645-649 `Prio3Count.__init__` -/
def Prio3Count.new (shares : ℤ) : Res (Prio3 (XofTurboShake128 prims fuel) Field64 Int Nat) :=
  Prio3.new 0x00000001 _ shares (Count Field64) 1

/-- vdaf_prio3.py:660-664 `Prio3Sum.__init__` -/
def Prio3Sum.new (shares : ℤ) (maxMeasurement : ℕ) : Res (Prio3 (XofTurboShake128 prims fuel) Field64 Int Nat) := do
  let valid ← Sum Field64 maxMeasurement
  Prio3.new 0x00000002 _ shares valid 1

/-- vdaf_prio3.py:675-684 `Prio3SumVec.__init__` -/
def Prio3SumVec.new (shares length maxMeasurement chunkLength : ℤ) :
    Res (Prio3 (XofTurboShake128 prims fuel) Field128 (List Int) (List Nat)) := do
  let valid ← SumVec.new Field128 length maxMeasurement chunkLength
  Prio3.new 0x00000003 _ shares valid 1

/-- vdaf_prio3.py:695-699 `Prio3Histogram.__init__` -/
def Prio3Histogram.new (shares length chunkLength : ℤ) :
    Res (Prio3 (XofTurboShake128 prims fuel) Field128 Int (List Nat)) := do
  let valid ← Histogram.new Field128 length chunkLength
  Prio3.new 0x00000004 _ shares valid 1

/-- vdaf_prio3.py:712-732 `Prio3SumVecWithMultiproof.__init__` -/
def Prio3SumVecWithMultiproof.new (shares : ℤ) (F : Type) [NttField F] (numProofs : ℕ)
    (length maxMeasurement chunkLength : ℤ) : Res (Prio3 (XofTurboShake128 prims fuel) F (List Int) (List Nat)) := do
  let valid ← SumVec.new F length maxMeasurement chunkLength
  Prio3.new 0xFFFFFFFF _ shares valid numProofs

/-- vdaf_prio3.py:743-754 `Prio3MultihotCountVec.__init__` -/
def Prio3MultihotCountVec.new (shares length maxWeight chunkLength : ℤ) :
    Res (Prio3 (XofTurboShake128 prims fuel) Field128 (List Bool) (List Nat)) := do
  let valid ← MultihotCountVec.new Field128 length maxWeight chunkLength
  Prio3.new 0x00000005 _ shares valid 1

/-- idpf_bbcggi21.py:47-62 `IdpfBBCGGI21.__init__` -/
def Idpf.new (valueLen bits : ℤ) : Res Idpf := do
  pyAssert (valueLen > 0)
  pyAssert (bits > 0)
  return ⟨valueLen.toNat, bits.toNat⟩

/-- vdaf_poplar1.py:62-66 `Poplar1.__init__` -/
def Poplar1.new (bits : ℤ) : Res Poplar1 := do
  let idpf ← Idpf.new 2 bits
  return ⟨idpf⟩

end Vdaf
