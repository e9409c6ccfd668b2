import Verif.Spec.Poplar1
import Verif.Spec.Vdaf

/-! # The heavy hitters protocol

draft-irtf-cfrg-vdaf.md:4741-4757 and 4780-4785: the intended use of Poplar1.  There is no code for it in the repository; the
definitions here call the methods of `Poplar1` the way the text describes. -/

namespace Vdaf.Spec

/-- Step 4 of the protocol: the prefixes with a hit count of at least `T` -/
def heavyPrefixes (T : ℕ) (prefixes : List (List Bool)) (counts : List ℕ) : List (List Bool) :=
  ((prefixes.zip counts).filter fun x => T ≤ x.2).map Prod.fst

/-- Steps 2 to 4 of the protocol, for a level and, after it, `n` further levels.  Before an aggregation parameter is used,
`is_valid` is called with all the previous ones, `hist`.  `count` runs verification, aggregation and unsharding for an aggregation
parameter.  The results are all the aggregation parameters that were used, and the heavy prefixes of the last level. -/
def heavyLoop (isValid : Poplar1AggParam → List Poplar1AggParam → Res Bool) (count : Poplar1AggParam → Res (List ℕ)) (T : ℕ) :
    (n level : ℕ) → (hist : List Poplar1AggParam) → (prefixes : List (List Bool)) →
    Res (List Poplar1AggParam × List (List Bool))
  | n, level, hist, prefixes => do
    let valid ← isValid (level, prefixes) hist
    raiseIf (¬ valid) "invalid aggregation parameter"
    let counts ← count (level, prefixes)
    let heavy := heavyPrefixes T prefixes counts
    let hist := hist ++ [(level, prefixes)]
    match n with
    | 0 => .ok (hist, heavy)
    | n + 1 => heavyLoop isValid count T n (level + 1) hist (heavy.flatMap fun p => [p ++ [false], p ++ [true]])

/-- The protocol, for measurements of length `bits` and the threshold `T`; it begins with the prefixes `0` and `1`. -/
def heavyHitters (bits : ℕ) (isValid : Poplar1AggParam → List Poplar1AggParam → Res Bool)
    (count : Poplar1AggParam → Res (List ℕ)) (T : ℕ) : Res (List Poplar1AggParam × List (List Bool)) :=
  heavyLoop isValid count T (bits - 1) 0 [] [[false], [true]]

/-- A report as the Aggregators received it -/
structure Poplar1Report where
  nonce : Bytes
  pub : List CorrectionWord
  share0 : Poplar1InputShare
  share1 : Poplar1InputShare

/-- Steps 3 and 4 of the protocol, for reports that need not be honest: verify each report, leave out the reports for which
verification fails, aggregate, unshard. -/
def poplar1Counts (P : Poplar1) (prims : Prims) (fuel : ℕ) (verifyKey ctx : Bytes) (reports : List Poplar1Report)
    (a : Poplar1AggParam) : Res (List ℕ) := do
  let outs := reports.filterMap fun r =>
    (poplar1Verify P prims fuel verifyKey ctx a r.nonce r.pub r.share0 r.share1).toOption
  let agg0 ← aggregate (P.vdaf prims fuel) a (outs.map Prod.fst)
  let agg1 ← aggregate (P.vdaf prims fuel) a (outs.map Prod.snd)
  (P.vdaf prims fuel).unshard a [agg0, agg1] outs.length

/-- The report is the one that `shard` returns for the measurement `m`, with some randomness. -/
def FromHonestClient (P : Poplar1) (prims : Prims) (fuel : ℕ) (ctx : Bytes) (r : Poplar1Report) (m : List Bool) : Prop :=
  r.nonce.length = 16 ∧ ∃ rand : Bytes, rand.length = 128 ∧
    P.shard prims fuel ctx m r.nonce rand = .ok (r.pub, [r.share0, r.share1])

end Vdaf.Spec
