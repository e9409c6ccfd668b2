import Verif.Model.Circuits

/-!
# Specification vocabulary for the FLP properties
-/

namespace Vdaf.Spec
variable {F : Type} [NttField F] {Meas Agg : Type}

/-- One of the test points at the end of the query randomness is a root of unity of the
order of the wire polynomials of its gadget. -/
def BadTestPoint (V : Valid F Meas Agg) (queryRand : List F) : Prop :=
  ∃ (i calls p : Nat) (t : F), V.gadgetCalls[i]? = some calls ∧ wirePolyLen calls = .ok p ∧
    (queryRand.drop (V.queryRandLen - V.gadgets.length))[i]? = some t ∧ t ^ p = 1

/-- A simulated verifier message (without the leading reduced output) computed from the
gadgets and a vector of wire checks alone: the wire checks of each gadget followed by the
gadget evaluated on them. -/
def simulate : List (Gadget F) → List F → Res (List F)
  | [], _ => .ok []
  | g :: gs, u =>
    match g.eval (u.take g.arity), simulate gs (u.drop g.arity) with
    | .ok y, .ok rest => .ok (u.take g.arity ++ [y] ++ rest)
    | .error e, _ => .error e
    | _, .error e => .error e

/-- The circuit accepts: it evaluates to the zero vector. -/
def Accepts (V : Valid F Meas Agg) (meas jointRand : List F) : Prop :=
  ∃ out, V.evalPlain meas jointRand 1 = .ok out ∧ ∀ x ∈ out, x = 0

/-- A vector of zeros and ones. -/
def Bits (v : List F) : Prop := ∀ x ∈ v, x = 0 ∨ x = 1

/-- The capacity condition: no gadget polynomial is longer than the subgroup of roots of
unity of the field (`GEN_ORDER` is `2^32` for Field64 and `2^66` for Field128). -/
def Fits (V : Valid F Meas Agg) : Prop :=
  ∀ (i : Nat) (g : Gadget F) (calls p : Nat), V.gadgets[i]? = some g → V.gadgetCalls[i]? = some calls →
    wirePolyLen calls = .ok p → gadgetPolyLen g.degree p ≤ NttField.genOrder F

/-- What a circuit is for: the documented measurements and the aggregate of a batch. -/
structure Fun (Meas Agg : Type) where
  /-- the documented domain of measurements -/
  valid : Meas → Prop
  /-- the aggregate of a batch of measurements, over the integers -/
  agg : List Meas → Agg
  /-- the integers the aggregate consists of -/
  totals : Agg → List Nat

/-- the number of ones -/
def countFun : Fun Int Nat where
  valid m := m = 0 ∨ m = 1
  agg ms := (ms.map Int.toNat).sum
  totals a := [a]

/-- the sum of integers between `0` and `max` -/
def sumFun (max : Nat) : Fun Int Nat where
  valid m := 0 ≤ m ∧ m ≤ max
  agg ms := (ms.map Int.toNat).sum
  totals a := [a]

/-- the coordinatewise sum of vectors of integers between `0` and `max` -/
def sumVecFun (length max : Nat) : Fun (List Int) (List Nat) where
  valid m := m.length = length ∧ ∀ x ∈ m, 0 ≤ x ∧ x ≤ (max : Int)
  agg ms := (List.range length).map fun j => (ms.map fun m => (m.getD j 0).toNat).sum
  totals a := a

/-- how many measurements fall into each bucket -/
def histogramFun (length : Nat) : Fun Int (List Nat) where
  valid m := 0 ≤ m ∧ m < length
  agg ms := (List.range length).map fun (j : Nat) => ms.countP fun m => decide (m = (j : Int))
  totals a := a

/-- how many of the vectors, of weight at most `maxWeight`, have each bit set -/
def multihotFun (length maxWeight : Nat) : Fun (List Bool) (List Nat) where
  valid m := m.length = length ∧ m.count true ≤ maxWeight
  agg ms := (List.range length).map fun j => ms.countP fun m => m.getD j false
  totals a := a

/-- The circuits of the library: every instance whose constructor succeeds, with what it is
for.  For `Sum` the documented pre-condition `max_measurement > 0` is added, for `Histogram`
`length < MODULUS` (the constructors do not check these). -/
inductive Library (F : Type) [NttField F] :
    {Meas Agg : Type} → Valid F Meas Agg → Fun Meas Agg → Prop
  | count : Library F (Count F) countFun
  | sum {max : Nat} {V : Valid F Int Nat} : 0 < max → Sum F max = .ok V →
      Library F V (sumFun max)
  | sumVec {length max chunkLength : Nat} {V : Valid F (List Int) (List Nat)} :
      SumVec F length max chunkLength = .ok V → Library F V (sumVecFun length max)
  | histogram {length chunkLength : Nat} {V : Valid F Int (List Nat)} :
      length < PyField.modulus F →
      Histogram F length chunkLength = .ok V → Library F V (histogramFun length)
  | multihot {length maxWeight chunkLength : Nat} {V : Valid F (List Bool) (List Nat)} :
      MultihotCountVec F length maxWeight chunkLength = .ok V →
      Library F V (multihotFun length maxWeight)

/-- The gadgets of the library with wire polynomials for `calls` calls: `Mul`, `PolyEval` of a
non-constant polynomial, and `ParallelSum` of such a gadget. -/
inductive GadgetFor (F : Type) [NttField F] (calls : Nat) : Gadget F → Prop
  | mul : GadgetFor F calls (Mul F)
  | polyEval {p : List Int} {G : Gadget F} : (∀ c ∈ p, c.natAbs < PyField.modulus F) →
      (∃ i c, 1 ≤ i ∧ p[i]? = some c ∧ c ≠ 0) → PolyEval F p calls = .ok G → GadgetFor F calls G
  | parallelSum {g : Gadget F} {count : Nat} : GadgetFor F calls g → 1 ≤ count →
      GadgetFor F calls (ParallelSum g count)

end Vdaf.Spec
