import Verif.Model.Vdaf

/-!
# Specification vocabulary for DAFs and VDAFs
-/

namespace Vdaf.Spec

section
variable {Meas AggParam PubShare InShare OutShare AggShare AggRes VState VShare VMsg : Type}
variable (V : VdafImpl Meas AggParam PubShare InShare OutShare AggShare AggRes VState VShare VMsg)

/-- The aggregate share of a list of output shares: `agg_init`, then `agg_update` for each. -/
def aggregate (aggParam : AggParam) (outShares : List OutShare) : Res AggShare := do
  let a ← V.aggInit aggParam
  forFold outShares a fun a o => V.aggUpdate aggParam a o

/-- The output shares of one report, one for each Aggregator: sharding and verification, with
no aggregation. -/
def outShares (verifyKey : Bytes) (aggParam : AggParam) (ctx : Bytes) (report : Meas × Bytes × Bytes) :
    Res (List OutShare) := do
  let (states, msg) ← V.runVerify verifyKey aggParam ctx report.1 report.2.1 report.2.2
  mapRes (fun j => do
    let s ← getI states j
    V.verifyNextOut ctx s msg) (List.range V.shares)

/-- Process every report separately; then let each Aggregator aggregate its own output shares,
in the order of the reports; then unshard. -/
def separately (verifyKey : Bytes) (aggParam : AggParam) (ctx : Bytes)
    (reports : List (Meas × Bytes × Bytes)) : Res AggRes := do
  let outs ← mapRes (outShares V verifyKey aggParam ctx) reports
  let aggs ← mapRes (fun j => do
    let own ← mapRes (fun o => getI o j) outs
    aggregate V aggParam own) (List.range V.shares)
  V.unshard aggParam aggs reports.length
end

section
variable {Meas AggParam PubShare InShare OutShare AggShare AggRes : Type}
variable (D : DafImpl Meas AggParam PubShare InShare OutShare AggShare AggRes)

/-- The output shares of one report of a DAF. -/
def dafOutShares (ctx : Bytes) (aggParam : AggParam) (report : Meas × Bytes × Bytes) :
    Res (List OutShare) := do
  let (publicShare, inputShares) ← D.shard ctx report.1 report.2.1 report.2.2
  mapRes (fun j => do
    let inputShare ← getI inputShares j
    D.prep ctx j aggParam report.2.1 publicShare inputShare) (List.range D.shares)

/-- As `separately`, for a DAF. -/
def dafSeparately (ctx : Bytes) (aggParam : AggParam) (reports : List (Meas × Bytes × Bytes)) :
    Res AggRes := do
  let outs ← mapRes (dafOutShares D ctx aggParam) reports
  let aggs ← mapRes (fun j => do
    let own ← mapRes (fun o => getI o j) outs
    let a ← D.aggInit aggParam
    forFold own a fun a o => D.aggUpdate aggParam a o) (List.range D.shares)
  D.unshard aggParam aggs reports.length
end

/-- A history of uses of one report, each guarded by `is_valid` with all the previous
aggregation parameters. -/
inductive Guarded {AggParam : Type} (isValid : AggParam → List AggParam → Res Bool) :
    List AggParam → Prop
  | nil : Guarded isValid []
  | snoc {hist : List AggParam} {p : AggParam} :
      Guarded isValid hist → isValid p hist = .ok true → Guarded isValid (hist ++ [p])

end Vdaf.Spec
