import Verif.Model.Common
import Mathlib.Algebra.Field.Basic
import Mathlib.GroupTheory.OrderOfElement
import Mathlib.Tactic.Ring

/-!
# Model of `poc/vdaf_poc/field.py`, generic part

`PyField F` is the interface of the Python class `Field`: the field operations, the class
attributes `MODULUS` and `ENCODED_SIZE`, and the accessor `int()`.  The propositional
components are facts that the instances (`Verif/Model/Fields.lean`) prove about the Python
formulas; nothing is assumed.
-/

namespace Vdaf

/-- field.py:14-104, class `Field` -/
class PyField (F : Type) extends Field F where
  decEq : DecidableEq F
  /-- `MODULUS` -/
  modulus : Nat
  /-- `ENCODED_SIZE` -/
  encSize : Nat
  /-- `int()` -/
  toNat : F → Nat
  toNat_lt : ∀ x, toNat x < modulus
  natCast_toNat : ∀ x, ((toNat x : Nat) : F) = x
  toNat_natCast : ∀ n, n < modulus → toNat (n : F) = n
  modulus_le : modulus ≤ 256 ^ encSize
  encSize_pos : 0 < encSize

instance {F : Type} [PyField F] : DecidableEq F := PyField.decEq

/-- field.py:107-177, class `NttField` (the attributes `GEN_ORDER` and `gen()`). -/
class NttField (F : Type) extends PyField F where
  /-- `gen()` -/
  gen : F
  /-- `GEN_ORDER` -/
  genOrder : Nat
  logOrder : Nat
  genOrder_eq : genOrder = 2 ^ logOrder
  orderOf_gen : orderOf gen = genOrder
  logOrder_pos : 0 < logOrder

section Field
variable {F : Type} [PyField F]

/-- field.py:23-27 `Field.__init__` -/
def ofInt (F : Type) [PyField F] (val : Int) : Res F :=
  if val < (PyField.modulus F : Int) then
    if val > -(PyField.modulus F : Int) then .ok (val : F)
    else .error (.assertion "val > -MODULUS")
  else .error (.assertion "val < MODULUS")

/-- field.py:30-32 `Field.zeros` -/
def fieldZeros (F : Type) [PyField F] (length : Nat) : List F := List.replicate length 0

/-- field.py:48-55 `Field.encode_vec` -/
def encodeVec (vec : List F) : Res Bytes :=
  forFold vec [] fun encoded x =>
    match toLeBytes (PyField.toNat x : Int) (PyField.encSize F) with
    | .ok b => .ok (encoded ++ b)
    | .error e => .error e

/-- field.py:67-74, the `while` loop of `decode_vec`.  The first argument bounds the number
of iterations; every iteration removes `ENCODED_SIZE ≥ 1` bytes, so the bound used by
`decodeVec` is never reached. -/
def decodeLoop (F : Type) [PyField F] : Nat → Bytes → List F → Res (List F)
  | 0, encoded, vec => if encoded.length > 0 then .error .fuel else .ok vec
  | fuel + 1, encoded, vec =>
    if encoded.length > 0 then do
      let (encodedX, rest) ← front (PyField.encSize F) encoded
      let x := fromLeBytes encodedX
      raiseIf (x ≥ PyField.modulus F) "modulus overflow"
      let fx ← ofInt F x
      decodeLoop F fuel rest (vec ++ [fx])
    else .ok vec

/-- field.py:58-74 `Field.decode_vec` -/
def decodeVec (F : Type) [PyField F] (encoded : Bytes) : Res (List F) := do
  raiseIf (encoded.length % PyField.encSize F ≠ 0)
    "input length must be a multiple of the size of an encoded field element"
  decodeLoop F encoded.length encoded []

end Field

section Mono
variable {F : Type} [PyField F]

/-- field.py:232-235, the loop of `poly_strip`, counting down from `i`. -/
def polyStripLoop (p : List F) : Nat → Res (List F)
  | 0 => .ok []
  | i + 1 => do
    let pi ← getI p i
    if pi ≠ 0 then return p.take (i + 1) else polyStripLoop p i

/-- field.py:230-235 `poly_strip` -/
def polyStrip (p : List F) : Res (List F) := polyStripLoop p p.length

/-- field.py:238-244 `poly_mul` -/
def polyMul (p q : List F) : Res (List F) := do
  let r := List.replicate (p.length + q.length - 1) (0 : F)
  let r ← forFold (List.range p.length) r fun r i =>
    forFold (List.range q.length) r fun r j => do
      let rij ← getI r (i + j)
      let pi ← getI p i
      let qj ← getI q j
      setI r (i + j) (rij + pi * qj)
  polyStrip r

/-- field.py:247-254 `poly_add` -/
def polyAdd (p q : List F) : Res (List F) := do
  let r := List.replicate (max p.length q.length) (0 : F)
  let r ← forFold p.zipIdx r fun r (pi, i) => setI r i pi
  let r ← forFold q.zipIdx r fun r (qi, i) => do
    let ri ← getI r i
    setI r i (ri + qi)
  polyStrip r

/-- field.py:257-268 `poly_eval` -/
def polyEval (p : List F) (evalAt : F) : Res F :=
  if p.length = 0 then .ok 0
  else do
    let p ← polyStrip p
    -- `p[-1]`
    match p.getLast? with
    | none => .error .index
    | some last =>
      return p.dropLast.reverse.foldl (fun result c => result * evalAt + c) last

/-- field.py:271-351 `poly_interp` -/
def polyInterp (xs ys : List F) : Res (List F) := do
  pyAssert (xs.length = ys.length)
  let n := xs.length
  let y0 ← getI ys 0
  let (_, _, output) ←
    forFold (List.range' 1 (n - 1)) (([1], ys, [y0]) : List F × List F × List F)
      fun (prevBasis, prevDd, output) i => do
        let xPrev ← getI xs (i - 1)
        let nextBasis ← polyMul prevBasis [-xPrev, 1]
        let nextDd ← mapRes (fun k => do
            let a ← getI prevDd k
            let b ← getI prevDd (k + 1)
            let xk ← getI xs k
            let xki ← getI xs (k + i)
            return (a - b) * (xk - xki)⁻¹) (List.range (prevDd.length - 1))
        let d0 ← getI nextDd 0
        let term ← polyMul [d0] nextBasis
        let output ← polyAdd output term
        return (nextBasis, nextDd, output)
  return output
end Mono

section Ntt
variable {F : Type} [NttField F]

/-- field.py:126-129 `NttField.nth_root` -/
def nthRoot (F : Type) [NttField F] (n : Nat) : F :=
  (NttField.gen : F) ^ (NttField.genOrder F >>> n)

/-- field.py:131-136 `NttField.nth_root_powers` -/
def nthRootPowers (F : Type) [NttField F] (n : Nat) : Res (List F) := do
  let logN ← assertPowerOf2 n
  let root := nthRoot F logN
  return (List.range n).map fun i => root ^ i

/-- field.py:172-175, one butterfly of `ntt` -/
def butterfly (w : F) (x y : Nat) (q : List F) : Res (List F) := do
  let u ← getI q x
  let qxy ← getI q (x + y)
  let v := w * qxy
  let q ← setI q x (u + v)
  setI q (x + y) (u - v)

/-- field.py:165-176, one iteration of the outer loop of `ntt`
(`k` is the loop variable). -/
def nttLayer (n : Nat) (setS : Bool) (q : List F) (k : Nat) : Res (List F) := do
  let w := if setS then nthRoot F (k + 1) else 1
  let y := 1 <<< (k - 1)
  let r := nthRoot F k
  let (q, _) ← forFold (List.range y) (q, w) fun (q, w) i => do
    let q ← forFold (List.range (n >>> k)) q fun q j =>
      butterfly w ((j <<< k) + i) y q
    return (q, w * r)
  return q

/-- field.py:152-177 `NttField.ntt`.  The Python code pads the caller's list `p` in place
when it is shorter than `n`; no caller reads it afterwards, so the model does not return
it. -/
def ntt (p : List F) (n : Nat) (setS : Bool := false) : Res (List F) := do
  let logN ← assertPowerOf2 n
  let p := p ++ List.replicate (n - p.length) 0
  let q ← mapRes (fun i => do
      let b ← bitrev logN i
      getI p b) (List.range n)
  forFold (List.range' 1 logN) q (nttLayer n setS)

/-- field.py:138-150 `NttField.inv_ntt` -/
def invNtt (p : List F) (n : Nat) : Res (List F) := do
  let out ← ntt p n
  match out with
  | [] => .error .index
  | a :: t =>
    let out := (t ++ [a]).reverse
    let fn ← ofInt F n
    let invN := fn⁻¹
    forFold (List.range out.length) out fun out i => do
      let oi ← getI out i
      setI out i (oi * invN)

/-- field.py:433-444 `Lagrange.double_evaluations` -/
def doubleEvaluations (p : List F) : Res (List F) := do
  let n := p.length
  let _ ← assertPowerOf2 n
  let even := p
  let mono ← invNtt even n
  let odd ← ntt mono n true
  return (List.zip even odd).flatMap fun (a, b) => [a, b]

/-- field.py:360-371 `Lagrange.poly_mul` -/
def lagPolyMul (p q : List F) : Res (List F) := do
  let n := p.length
  let _ ← assertPowerOf2 n
  pyAssert (p.length = q.length)
  let p2n ← doubleEvaluations p
  let q2n ← doubleEvaluations q
  return List.zipWith (fun a b => a * b) p2n q2n

/-- field.py:391-398, body of the main loop of `poly_eval_batched` -/
def polyEvalBatchedStep (polys : List (List F)) (nodes : List F) (x : F)
    (st : F × List F × F) (i : Nat) : Res (F × List F × F) := do
  let (k, u, d) := st
  let k := k * d
  let ni ← getI nodes i
  let d := ni - x
  let t := k * ni
  let u ← forFold polys.zipIdx u fun u (p, j) => do
    let uj ← getI u j
    let u ← setI u j (uj * d)
    if i < p.length then
      let uj ← getI u j
      let pi ← getI p i
      setI u j (uj + t * pi)
    else return u
  return (k, u, d)

/-- field.py:377-402 `Lagrange.poly_eval_batched` -/
def polyEvalBatched (polys : List (List F)) (x : F) : Res (List F) := do
  -- `assert len({len(p) for p in polys}) == 1`
  pyAssert ((polys.map List.length).dedup.length = 1)
  let p0 ← getI polys 0
  let n := p0.length
  let _ ← assertPowerOf2 n
  let nodes ← nthRootPowers F n
  let u ← mapRes (fun p => getI p 0) polys
  let n0 ← getI nodes 0
  let (_, u, _) ← forFold (List.range' 1 (n - 1)) ((1 : F), u, n0 - x)
    (polyEvalBatchedStep polys nodes x)
  let m1 ← ofInt F (-1)
  let fn ← ofInt F n
  let factor := m1 ^ (n - 1) * fn⁻¹
  forFold (List.range u.length) u fun u i => do
    let ui ← getI u i
    setI u i (ui * factor)

/-- field.py:373-375 `Lagrange.poly_eval`; `.pop()` returns the last element. -/
def lagPolyEval (p : List F) (x : F) : Res F := do
  let r ← polyEvalBatched [p] x
  match r.getLast? with
  | none => .error .index
  | some v => return v

/-- `prod(x[i] - x[j] for j in js if j != i, start=field(1))` -/
def diffProd (x : List F) (i : Nat) (js : List Nat) : Res F := do
  let xi ← getI x i
  let ds ← mapRes (fun j => do
    let xj ← getI x j
    return xi - xj) (js.filter (fun j => i ≠ j))
  return ds.foldl (fun a b => a * b) 1

/-- field.py:419-431, body of the main loop of `extend_values_to_power_of_2` -/
def extendStep (x : List F) (st : List F × List F) (k : Nat) :
    Res (List F × List F) := do
  let (w, p) := st
  let xk ← getI x k
  let w ← forFold (List.range k) w fun w i => do
    let wi ← getI w i
    let xi ← getI x i
    setI w i (wi * (xi - xk))
  let (yNum, yDen) ← forFold p.zipIdx ((0 : F), (1 : F)) fun (yNum, yDen) (v, i) => do
    let wi ← getI w i
    return (yNum * wi + yDen * v, yDen * wi)
  let wk ← diffProd x k (List.range k)
  let w ← setI w k wk
  return (w, p ++ [-wk * yNum * yDen⁻¹])

/-- field.py:404-431 `Lagrange.extend_values_to_power_of_2`.  Python appends to `p` in
place; the model returns the extended list. -/
def extendValues (p : List F) (n : Nat) : Res (List F) := do
  let _ ← assertPowerOf2 n
  pyAssert (p.length ≤ n)
  let x ← nthRootPowers F n
  let w := List.replicate n (0 : F)
  let w ← forFold (List.range p.length) w fun w i => do
    let d ← diffProd x i (List.range p.length)
    setI w i d
  let (_, p) ← forFold (List.range' p.length (n - p.length)) (w, p) (extendStep x)
  return p

end Ntt
end Vdaf
