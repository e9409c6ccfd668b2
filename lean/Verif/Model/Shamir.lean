import Verif.Model.Field

/-! # Model of poc/example_flp_shamir.py -/

namespace Vdaf
variable {F : Type} [PyField F]

/-- example_flp_shamir.py:55-58, the value of the polynomial with the coefficients `coeffs` at `field(j+1)` -/
def shamirPoint (coeffs : List F) (j : ℕ) : Res F :=
  forFold coeffs.zipIdx (0 : F) fun f (c, k) => do
    let x ← ofInt F (j + 1)
    return f + c * x ^ k

/-- example_flp_shamir.py:25-61 `shamir_shard`.  The random vectors are explicit: `rand i k` is entry `k` of the
vector that the call of `field.rand_vec` for coordinate `i` returns.  `rand_vec(-1)` is the empty vector, as
`range(-1)` is empty, so that `unshard_threshold = 0` behaves as `1` does. -/
def shamirShard (meas : List F) (unshardThreshold numShares : ℕ) (rand : ℕ → ℕ → F) : Res (List (List F)) := do
  let measShares := (List.range numShares).map fun _ => fieldZeros F meas.length
  forFold (List.range meas.length) measShares fun measShares i => do
    let m ← getI meas i
    let coeffs := [m] ++ (List.range (unshardThreshold - 1)).map (rand i)
    forFold (List.range numShares) measShares fun measShares j => do
      let f ← shamirPoint coeffs j
      let share ← getI measShares j
      let share ← setI share i f
      setI measShares j share

/-- example_flp_shamir.py:64-84 `shamir_unshard` -/
def shamirUnshard (index : List ℤ) (measShares : List (List F)) : Res (List F) := do
  let first ← getI measShares 0
  mapRes (fun i => do
    let points ← mapRes (fun (js : ℤ × List F) => do
      let x ← ofInt F (js.1 + 1)
      let f ← getI js.2 i
      return (x, f)) (index.zip measShares)
    let coeffs ← polyInterp (points.map Prod.fst) (points.map Prod.snd)
    getI coeffs 0) (List.range first.length)

end Vdaf
