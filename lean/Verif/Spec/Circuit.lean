import Verif.Spec.Prio3
import Verif.Spec.Poly

/-!
# What a validity circuit has to satisfy

`Valid` and `Gadget` (flp_bbcggi19.py:16-186) are abstract classes: the users of the library may supply circuits and
gadgets of their own.  This file says what such a circuit has to satisfy, without reference to the FLP.
-/

namespace Vdaf.Spec
open Polynomial
variable {F : Type} [NttField F] {Meas Agg : Type}

/-- A computation that never raises, whatever the gadgets return; that calls gadget `g` exactly `calls[g]` times, each
time with `arities[g]` inputs; and that returns `outLen` field elements. -/
inductive Disciplined (arities : List Nat) (outLen : Nat) : List Nat → Prog F (List F) → Prop
  | done {calls : List Nat} {out : List F} : (∀ c ∈ calls, c = 0) → out.length = outLen →
      Disciplined arities outLen calls (.pure out)
  | call {calls : List Nat} {g c : Nat} {inp : List F} {k : F → Prog F (List F)} : calls[g]? = some (c + 1) →
      arities[g]? = some inp.length → (∀ y, Disciplined arities outLen (calls.set g c) (k y)) →
      Disciplined arities outLen calls (.call g inp k)

/-- The computation `p` on a whole, and the computations `ps i` on its shares, call the same gadgets, with the inputs
of the `ps i` adding up to the inputs of `p`, and return outputs that add up to the output of `p`, provided that the
values the gadgets return to the `ps i` add up to the values they return to `p`. -/
inductive Lockstep {N : Nat} : Prog F (List F) → (Fin N → Prog F (List F)) → Prop
  | done {out : List F} {outs : Fin N → List F} : IsSum outs out → Lockstep (.pure out) fun i => .pure (outs i)
  | call {g : Nat} {inp : List F} {inps : Fin N → List F} {k : F → Prog F (List F)}
      {ks : Fin N → F → Prog F (List F)} : IsSum inps inp →
      (∀ ys : Fin N → F, Lockstep (k (∑ i, ys i)) fun i => ks i (ys i)) →
      Lockstep (.call g inp k) fun i => .call g (inps i) (ks i)

/-- A gadget is a polynomial of degree `DEGREE` in its inputs: on wire polynomials `ws` with fewer than `p`
coefficients there is a polynomial of degree at most `DEGREE * (p - 1)` whose value at any point is what `eval` returns
on the values of the `ws`; and `eval_poly`, given the values of the `ws` at the `p`-th roots of unity, returns its
values at the roots of unity of the next power of two that determines it. -/
def GadgetLaw (g : Gadget F) (p : Nat) : Prop :=
  ∀ ws : List F[X], ws.length = g.arity → (∀ w ∈ ws, w.degree < p) →
    ∃ q : F[X], q.natDegree ≤ g.degree * (p - 1) ∧
      (∀ x, g.eval (ws.map fun w => w.eval x) = .ok (q.eval x)) ∧
      ∀ l n, p = 2 ^ l → nextPowerOf2 (gadgetPolyLen g.degree p) = .ok (2 ^ n) →
        g.evalPoly (ws.map fun w => evals w (nthRoot F l) (2 ^ l)) = .ok (evals q (nthRoot F n) (2 ^ n))

/-- What a validity circuit has to satisfy. -/
structure Circuit (V : Valid F Meas Agg) : Prop where
  calls_length : V.gadgetCalls.length = V.gadgets.length
  calls_pos : ∀ c ∈ V.gadgetCalls, 1 ≤ c
  gadget_pos : ∀ g ∈ V.gadgets, 1 ≤ g.arity ∧ 1 ≤ g.degree
  output_pos : 1 ≤ V.evalOutputLen
  fits : Fits V
  gadget : ∀ (i : Nat) (g : Gadget F) (calls p : Nat), V.gadgets[i]? = some g → V.gadgetCalls[i]? = some calls →
    wirePolyLen calls = .ok p → GadgetLaw g p
  /-- the evaluation does what the attributes of the circuit say -/
  eval : ∀ (meas jointRand : List F) (numShares : Nat), meas.length = V.measLen →
    jointRand.length = V.jointRandLen → 1 ≤ numShares → numShares < PyField.modulus F →
    Disciplined (V.gadgets.map Gadget.arity) V.evalOutputLen V.gadgetCalls (V.eval meas jointRand numShares)
  /-- the evaluation can be done on additive shares of the measurement -/
  shares : ∀ (N : Nat) (ms : Fin N → List F) (meas jointRand : List F), 1 ≤ N → N < PyField.modulus F →
    IsSum ms meas → meas.length = V.measLen → jointRand.length = V.jointRandLen →
    Lockstep (V.eval meas jointRand 1) fun i => V.eval (ms i) jointRand N

/-- What a circuit is for: the measurements, the batches whose aggregate can be represented, and the aggregate. -/
structure Task (Meas Agg : Type) where
  valid : Meas → Prop
  supported : List Meas → Prop
  agg : List Meas → Agg

/-- The circuit `V` is for the task `T`: it accepts the encodings of the valid measurements; truncation is linear; and
the sum of the truncated encodings of a batch decodes to the aggregate. -/
structure Computes (V : Valid F Meas Agg) (T : Task Meas Agg) : Prop extends Circuit V where
  encode : ∀ m, T.valid m → ∃ e, V.encode m = .ok e ∧ e.length = V.measLen ∧
    ∀ jointRand : List F, jointRand.length = V.jointRandLen → Accepts V e jointRand
  truncate : ∀ (N : Nat) (es : Fin N → List F) (e : List F), IsSum es e → e.length = V.measLen →
    ∃ (os : Fin N → List F) (o : List F), V.truncate e = .ok o ∧ (∀ i, V.truncate (es i) = .ok (os i)) ∧
      IsSum os o ∧ o.length = V.outputLen
  decode : ∀ (n : Nat) (ms : Fin n → Meas) (es os : Fin n → List F) (tot : List F), (∀ i, T.valid (ms i)) →
    T.supported (List.ofFn ms) → (∀ i, V.encode (ms i) = .ok (es i)) → (∀ i, V.truncate (es i) = .ok (os i)) →
    IsSum os tot → tot.length = V.outputLen → V.decode tot n = .ok (T.agg (List.ofFn ms))

/-- The task of a circuit of the library. -/
def Fun.task (F : Type) [NttField F] (fn : Fun Meas Agg) : Task Meas Agg where
  valid := fn.valid
  supported ms := ∀ n ∈ fn.totals (fn.agg ms), n < PyField.modulus F
  agg := fn.agg

/-- `P` is an instance of Prio3 over a circuit for the task `T` with `XofTurboShake128` (for any primitive); see
`Spec.Instance`. -/
structure CustomInstance {prims : Prims} {fuel : Nat} (P : Prio3 (XofTurboShake128 prims fuel) F Meas Agg)
    (T : Task Meas Agg) : Prop where
  computes : Computes P.flp T
  init : Prio3.init P.id (XofTurboShake128 prims fuel) P.shares P.flp P.proofs = .ok P
  id : P.id < 2 ^ 32
  proofs : P.proofs < 256
  shares : P.shares < PyField.modulus F

end Vdaf.Spec

namespace Vdaf.Spec

/-- `HigherDegree` of the tests: the sum of numbers `0`, `1` or `2` -/
def higherDegreeTask (F : Type) [NttField F] : Task Int Nat where
  valid m := m = 0 ∨ m = 1 ∨ m = 2
  supported ms := (ms.map Int.toNat).sum < PyField.modulus F
  agg ms := (ms.map Int.toNat).sum

/-- `MultiGadget` of the tests: the only valid measurement is `0` -/
def multiGadgetTask : Task Int Nat where
  valid m := m = 0
  supported _ := True
  agg _ := 0

/-- `TestAverage` of the tests: the average, rounded down, of a non-empty batch of numbers between `0` and `max` -/
def averageTask (F : Type) [NttField F] (max : Nat) : Task Int Nat where
  valid m := 0 ≤ m ∧ m ≤ max
  supported ms := ms ≠ [] ∧ (ms.map Int.toNat).sum < PyField.modulus F
  agg ms := (ms.map Int.toNat).sum / ms.length

end Vdaf.Spec
