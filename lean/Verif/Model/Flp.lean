import Verif.Model.Field

/-!
# Model of `poc/vdaf_poc/flp.py` and the generic part of `poc/vdaf_poc/flp_bbcggi19.py`

`Valid.eval` of the Python code calls `self.GADGETS[i].eval(...)`, where the gadgets may
have been replaced by `ProveGadget`/`QueryGadget` wrappers.  It is modelled as a program
(`Prog`) whose only effects are raising an exception and calling a gadget; the program is
then run with the plain gadgets or with one of the two wrappers.
-/

namespace Vdaf

/-- A computation that may raise or call `self.GADGETS[g].eval(field, inp)`. -/
inductive Prog (F : Type) (α : Type) where
  | pure (a : α)
  | raise (e : Err)
  | call (g : Nat) (inp : List F) (k : F → Prog F α)

namespace Prog
variable {F α β : Type}

def bind : Prog F α → (α → Prog F β) → Prog F β
  | .pure a, f => f a
  | .raise e, _ => .raise e
  | .call g inp k, f => .call g inp fun y => (k y).bind f

instance : Monad (Prog F) where
  pure := .pure
  bind := .bind

/-- A Python statement that does not call a gadget. -/
def ofRes : Res α → Prog F α
  | .ok a => .pure a
  | .error e => .raise e

/-- `for x in l: acc = f(acc, x)` where the body may call gadgets. -/
def forFold : List β → α → (α → β → Prog F α) → Prog F α
  | [], init, _ => .pure init
  | b :: t, init, f => (f init b).bind fun a => forFold t a f

/-- Run a program with a given implementation of the gadget calls; `σ` is the state of the
gadget objects. -/
def run {σ : Type} (h : σ → Nat → List F → Res (F × σ)) : Prog F α → σ → Res (α × σ)
  | .pure a, s => .ok (a, s)
  | .raise e, _ => .error e
  | .call g inp k, s =>
    match h s g inp with
    | .error e => .error e
    | .ok (y, s) => run h (k y) s

end Prog

/-- flp_bbcggi19.py:16-44, class `Gadget` -/
structure Gadget (F : Type) where
  /-- `ARITY` -/
  arity : Nat
  /-- `DEGREE` -/
  degree : Nat
  eval : List F → Res F
  evalPoly : List (List F) → Res (List F)

/-- flp_bbcggi19.py:47-186, class `Valid` -/
structure Valid (F Meas Agg : Type) where
  /-- `MEAS_LEN` -/
  measLen : Nat
  /-- `JOINT_RAND_LEN` -/
  jointRandLen : Nat
  /-- `OUTPUT_LEN` -/
  outputLen : Nat
  /-- `EVAL_OUTPUT_LEN` -/
  evalOutputLen : Nat
  /-- `GADGETS` -/
  gadgets : List (Gadget F)
  /-- `GADGET_CALLS` -/
  gadgetCalls : List Nat
  encode : Meas → Res (List F)
  truncate : List F → Res (List F)
  decode : List F → Nat → Res Agg
  /-- `eval(meas, joint_rand, num_shares)` -/
  eval : List F → List F → Nat → Prog F (List F)

/-- flp_bbcggi19.py:192-197 `wire_poly_len` -/
def wirePolyLen (gadgetCalls : Nat) : Res Nat := nextPowerOf2 (1 + gadgetCalls)

/-- flp_bbcggi19.py:200-205 `gadget_poly_len` -/
def gadgetPolyLen (gadgetDegree wirePolynomialLen : Nat) : Nat :=
  gadgetDegree * (wirePolynomialLen - 1) + 1

namespace Gadget
variable {F : Type}

/-- flp_bbcggi19.py:35-37 `check_gadget_eval` -/
def checkEval (arity : Nat) (inp : List F) : Res Unit :=
  raiseIf (inp.length ≠ arity) "input length must equal the gadget arity"

/-- flp_bbcggi19.py:39-44 `check_gadget_eval_poly` -/
def checkEvalPoly (arity : Nat) (inpPoly : List (List F)) : Res Unit := do
  raiseIf (inpPoly.length ≠ arity) "number of inputs must equal the gadget arity"
  forFold inpPoly () fun _ polynomial => do
    let p0 ← getI inpPoly 0
    raiseIf (polynomial.length ≠ p0.length) "each input must have the same length"

end Gadget

section lens
variable {F Meas Agg : Type}

/-- flp_bbcggi19.py:95-97 `prove_rand_len` -/
def Valid.proveRandLen (V : Valid F Meas Agg) : Nat := (V.gadgets.map Gadget.arity).sum

/-- flp_bbcggi19.py:99-104 `query_rand_len` -/
def Valid.queryRandLen (V : Valid F Meas Agg) : Nat :=
  V.gadgets.length + if V.evalOutputLen > 1 then V.evalOutputLen else 0

/-- flp_bbcggi19.py:106-112 `proof_len` -/
def Valid.proofLen (V : Valid F Meas Agg) : Res Nat :=
  forFold (List.zip V.gadgets V.gadgetCalls) 0 fun length (g, gCalls) => do
    let p ← wirePolyLen gCalls
    return length + (g.arity + gadgetPolyLen g.degree p)

/-- flp_bbcggi19.py:114-119 `verifier_len` -/
def Valid.verifierLen (V : Valid F Meas Agg) : Nat :=
  V.gadgets.foldl (fun length g => length + (g.arity + 1)) 1

end lens

section flp
variable {F : Type} [NttField F] {Meas Agg : Type}

/-- flp_bbcggi19.py:121-128 `check_valid_eval` -/
def checkValidEval (measLen jointRandLen : Nat) (meas jointRand : List F) : Res Unit := do
  raiseIf (meas.length ≠ measLen) "incorrect measurement length"
  raiseIf (jointRand.length ≠ jointRandLen) "incorrect joint randomness length"

/-- The circuit evaluated with its own gadgets. -/
def Valid.evalPlain (V : Valid F Meas Agg) (meas jointRand : List F) (numShares : Nat) :
    Res (List F) := do
  let (out, _) ← (V.eval meas jointRand numShares).run (fun (s : Unit) g inp => do
    let gadget ← getI V.gadgets g
    let y ← gadget.eval inp
    return (y, s)) ()
  return out

/-! ### `ProveGadget` -/

/-- flp_bbcggi19.py:211-233, the attributes of a `ProveGadget` -/
structure ProveGadget (F : Type) where
  inner : Gadget F
  wires : List (List F)
  /-- evaluation counter -/
  k : Nat

/-- `wire = field.zeros(p); wire[0] = s; self.wires.append(wire)` for each wire seed
(flp_bbcggi19.py:230-233, 289-292) -/
def initWires (p : Nat) (wireSeeds : List F) : Res (List (List F)) :=
  mapRes (fun s => setI (fieldZeros F p) 0 s) wireSeeds

/-- flp_bbcggi19.py:216-233 `ProveGadget.__init__` -/
def ProveGadget.init (wireSeeds : List F) (g : Gadget F) (gCalls : Nat) :
    Res (ProveGadget F) := do
  pyAssert (wireSeeds.length = g.arity)
  let p ← wirePolyLen gCalls
  let wires ← initWires p wireSeeds
  return ⟨g, wires, 0⟩

/-- `for j in range(len(inp)): self.wires[j][self.k] = inp[j]`
(flp_bbcggi19.py:237-238, 311-312) -/
def recordWires (wires : List (List F)) (k : Nat) (inp : List F) : Res (List (List F)) :=
  forFold (List.range inp.length) wires fun wires j => do
    let wire ← getI wires j
    let x ← getI inp j
    let wire ← setI wire k x
    setI wires j wire

/-- flp_bbcggi19.py:235-239 `ProveGadget.eval` -/
def ProveGadget.eval (s : ProveGadget F) (inp : List F) : Res (F × ProveGadget F) := do
  let k := s.k + 1
  let wires ← recordWires s.wires k inp
  let y ← s.inner.eval inp
  return (y, ⟨s.inner, wires, k⟩)

/-- flp_bbcggi19.py:246-263 `ProveGadget.wrap`: the list of wrapped gadgets. -/
def ProveGadget.wrap (V : Valid F Meas Agg) (proveRand : List F) :
    Res (List (ProveGadget F)) := do
  pyAssert (proveRand.length = V.proveRandLen)
  let (wrapped, proveRand) ←
    forFold (List.zip V.gadgets V.gadgetCalls) (([], proveRand) : List (ProveGadget F) × List F)
      fun (wrapped, proveRand) (g, gCalls) => do
        let (wireSeeds, proveRand) ← front g.arity proveRand
        let w ← ProveGadget.init wireSeeds g gCalls
        return (wrapped ++ [w], proveRand)
  pyAssert (proveRand.length = 0)
  return wrapped

/-- A gadget call of a circuit whose gadgets are `ProveGadget`s. -/
def ProveGadget.handler (st : List (ProveGadget F)) (g : Nat) (inp : List F) :
    Res (F × List (ProveGadget F)) := do
  let s ← getI st g
  let (y, s) ← s.eval inp
  let st ← setI st g s
  return (y, st)

/-! ### `QueryGadget` -/

/-- flp_bbcggi19.py:269-307, the attributes of a `QueryGadget` -/
structure QueryGadget (F : Type) where
  arity : Nat
  wires : List (List F)
  k : Nat
  poly : List F
  step : Nat

/-- flp_bbcggi19.py:302-303, the `while` loop of `QueryGadget.__init__`.  Each iteration
doubles the length, so `size` iterations are more than enough. -/
def doubleUntil (size : Nat) : Nat → List F → Res (List F)
  | 0, gp => if gp.length < size then .error .fuel else .ok gp
  | fuel + 1, gp =>
    if gp.length < size then do
      let gp ← doubleEvaluations gp
      doubleUntil size fuel gp
    else .ok gp

/-- flp_bbcggi19.py:276-307 `QueryGadget.__init__`.  `1 << (log_size - log_p)` raises
`ValueError` for a negative shift count. -/
def QueryGadget.init (wireSeeds gadgetPoly : List F) (g : Gadget F) (gCalls : Nat) :
    Res (QueryGadget F) := do
  pyAssert (wireSeeds.length = g.arity)
  let p ← wirePolyLen gCalls
  pyAssert (NttField.genOrder F % p = 0)
  let wires ← initWires p wireSeeds
  let n ← nextPowerOf2 gadgetPoly.length
  let gadgetPoly ← extendValues gadgetPoly n
  let size ← nextPowerOf2 (gadgetPolyLen g.degree p)
  let gadgetPoly ← doubleUntil size size gadgetPoly
  let logSize ← assertPowerOf2 size
  let logP ← assertPowerOf2 p
  raiseIf (logSize < logP) "negative shift count"
  let step := 1 <<< (logSize - logP)
  return ⟨g.arity, wires, 0, gadgetPoly, step⟩

/-- flp_bbcggi19.py:309-313 `QueryGadget.eval` -/
def QueryGadget.eval (s : QueryGadget F) (inp : List F) : Res (F × QueryGadget F) := do
  let k := s.k + 1
  let wires ← recordWires s.wires k inp
  let y ← getI s.poly (k * s.step)
  return (y, ⟨s.arity, wires, k, s.poly, s.step⟩)

/-- flp_bbcggi19.py:321-344 `QueryGadget.wrap`: the list of wrapped gadgets. -/
def QueryGadget.wrap (V : Valid F Meas Agg) (proof : List F) :
    Res (List (QueryGadget F)) := do
  let proofLen ← V.proofLen
  pyAssert (proof.length = proofLen)
  let (wrapped, proof) ←
    forFold (List.zip V.gadgets V.gadgetCalls) (([], proof) : List (QueryGadget F) × List F)
      fun (wrapped, proof) (g, gCalls) => do
        let p ← wirePolyLen gCalls
        let gPolyLen := gadgetPolyLen g.degree p
        let (wireSeeds, proof) ← front g.arity proof
        let (gadgetPoly, proof) ← front gPolyLen proof
        let w ← QueryGadget.init wireSeeds gadgetPoly g gCalls
        return (wrapped ++ [w], proof)
  pyAssert (proof.length = 0)
  return wrapped

/-- A gadget call of a circuit whose gadgets are `QueryGadget`s. -/
def QueryGadget.handler (st : List (QueryGadget F)) (g : Nat) (inp : List F) :
    Res (F × List (QueryGadget F)) := do
  let s ← getI st g
  let (y, s) ← s.eval inp
  let st ← setI st g s
  return (y, st)

/-! ### `FlpBBCGGI19` -/

/-- flp_bbcggi19.py:368-418 `FlpBBCGGI19.prove` -/
def Valid.prove (V : Valid F Meas Agg) (meas proveRand jointRand : List F) :
    Res (List F) := do
  pyAssert (meas.length = V.measLen)
  pyAssert (proveRand.length = V.proveRandLen)
  pyAssert (jointRand.length = V.jointRandLen)
  let wrapped ← ProveGadget.wrap V proveRand
  let (_, wrapped) ← (V.eval meas jointRand 1).run ProveGadget.handler wrapped
  let proof ← forFold (List.zip wrapped V.gadgetCalls) ([] : List F) fun proof (g, gCalls) => do
    let p ← wirePolyLen gCalls
    pyAssert (NttField.genOrder F % p = 0)
    let wirePolys ← mapRes (fun j => getI g.wires j) (List.range g.inner.arity)
    pyAssert (wirePolys.all fun wp => wp.length = p)
    let wireSeeds ← mapRes (fun j => do
      let wire ← getI g.wires j
      getI wire 0) (List.range g.inner.arity)
    let proof := proof ++ wireSeeds
    let gadgetPoly ← g.inner.evalPoly wirePolys
    return proof ++ gadgetPoly.take (gadgetPolyLen g.inner.degree p)
  let proofLen ← V.proofLen
  pyAssert (proof.length = proofLen)
  return proof

/-- The exception raised at flp_bbcggi19.py:461. -/
def rootOfUnityErr : Err := .value "test point is a root of unity"

/-- flp_bbcggi19.py:438-447, reduction of the circuit output in `query`: the reduced output
and the remaining query randomness. -/
def queryReduce (evalOutputLen : Nat) (out queryRand : List F) : Res (F × List F) :=
  if evalOutputLen > 1 then do
    let (rand, queryRand) ← front evalOutputLen queryRand
    return ((List.zip rand out).foldl (fun v (r, outElem) => v + r * outElem) (0 : F), queryRand)
  else
    -- `[v] = out`
    match out with
    | [v] => .ok (v, queryRand)
    | _ => .error (.value "unpack")

/-- flp_bbcggi19.py:453-478, the body of the loop over the gadgets in `query`. -/
def queryStep (verifier : List F) (g : QueryGadget F) (t : F) : Res (List F) := do
  let wire0 ← getI g.wires 0
  let p := wire0.length
  if t ^ p = 1 then .error rootOfUnityErr
  else
    let wireChecks ← polyEvalBatched (g.wires.take g.arity) t
    let gadgetCheck ← lagPolyEval g.poly t
    return verifier ++ wireChecks ++ [gadgetCheck]

/-- flp_bbcggi19.py:420-480 `FlpBBCGGI19.query` -/
def Valid.query (V : Valid F Meas Agg) (meas proof queryRand jointRand : List F)
    (numShares : Nat) : Res (List F) := do
  pyAssert (meas.length = V.measLen)
  let proofLen ← V.proofLen
  pyAssert (proof.length = proofLen)
  pyAssert (queryRand.length = V.queryRandLen)
  pyAssert (jointRand.length = V.jointRandLen)
  let wrapped ← QueryGadget.wrap V proof
  let (out, wrapped) ← (V.eval meas jointRand numShares).run QueryGadget.handler wrapped
  pyAssert (out.length = V.evalOutputLen)
  let (v, queryRand) ← queryReduce V.evalOutputLen out queryRand
  forFold (List.zip wrapped queryRand) [v] fun verifier (g, t) => queryStep verifier g t

/-- flp_bbcggi19.py:492-499, the loop over the gadgets of `decide`. -/
def decideLoop : List (Gadget F) → List F → Res Bool
  | [], verifier => do
    pyAssert (verifier.length = 0)
    return true
  | g :: gs, verifier => do
    let (wireChecks, verifier) ← front g.arity verifier
    let (gc, verifier) ← front 1 verifier
    let gadgetCheck ← getI gc 0
    let y ← g.eval wireChecks
    if y ≠ gadgetCheck then return false
    else decideLoop gs verifier

/-- flp_bbcggi19.py:482-501 `FlpBBCGGI19.decide` -/
def Valid.decide (V : Valid F Meas Agg) (verifier : List F) : Res Bool := do
  pyAssert (verifier.length = V.verifierLen)
  let (vs, verifier) ← front 1 verifier
  let v ← getI vs 0
  if v ≠ 0 then return false
  else decideLoop V.gadgets verifier

/-! ### flp.py -/

/-- flp.py:128-140 `additive_secret_share`; `rands` are the `num_shares - 1` outputs of
`field.rand_vec(len(vec))`. -/
def additiveSecretShare (vec : List F) (rands : List (List F)) : Res (List (List F)) := do
  let shares := rands
  let lastShare ← forFold shares vec fun lastShare otherShare => vecSub lastShare otherShare
  return shares ++ [lastShare]

/-- flp.py:147-190 `run_flp` for `FlpBBCGGI19`; the outputs of `rand_vec` are arguments. -/
def runFlp (V : Valid F Meas Agg) (meas : List F) (jointRand proveRand queryRand : List F)
    (measRands proofRands : List (List F)) (numShares : Nat) : Res Bool := do
  let proof ← V.prove meas proveRand jointRand
  let measShares ← additiveSecretShare meas measRands
  let proofShares ← additiveSecretShare proof proofRands
  let verifierShares ← mapRes (fun (measShare, proofShare) =>
    V.query measShare proofShare queryRand jointRand numShares) (List.zip measShares proofShares)
  let v0 ← getI verifierShares 0
  let verifier ← forFold verifierShares (fieldZeros F v0.length) fun verifier verifierShare =>
    vecAdd verifier verifierShare
  V.decide verifier

end flp
end Vdaf
