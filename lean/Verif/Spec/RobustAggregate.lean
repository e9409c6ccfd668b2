import Verif.Spec.PingPong
import Verif.Spec.Circuit
import Verif.Spec.RandomOracle

/-!
# Specification vocabulary for the robustness of the aggregate result of Prio3

The Aggregators aggregate the output shares of the reports they accepted, whoever made these reports.
-/

namespace Vdaf.Spec
variable {F : Type} [NttField F] {Meas Agg : Type}

/-- The vector stands for the measurement: its truncation is the truncation of the encoding of the measurement. -/
def StandsFor (V : Valid F Meas Agg) (meas : List F) (m : Meas) : Prop :=
  ∃ e o, V.encode m = .ok e ∧ V.truncate e = .ok o ∧ V.truncate meas = .ok o

section
variable {X : Xof} (P : Prio3 X F Meas Agg)

/-- The sum of the measurement shares of the report stands for the measurement. -/
def ReportStandsFor (ctx : Bytes) (r : Report F) (m : Meas) : Prop :=
  ∃ xs, measShares P ctx r.inputShares = .ok xs ∧
    ∃ meas, IsSum (fun j : Fin (xs.map Prod.fst).length => (xs.map Prod.fst)[j]) meas ∧ StandsFor P.flp meas m

/-- The aggregate result for reports that were accepted: the Aggregators compute their output shares, each of them
aggregates its own, and the Collector unshards. -/
def aggregateReports (verifyKey ctx : Bytes) (reports : List (Report F)) : Res Agg := do
  let outs ← mapRes (fun r : Report F => broadcast P.vdaf verifyKey () ctx r.nonce r.publicShare r.inputShares) reports
  let aggShares ← mapRes (fun j => do
    let os ← mapRes (fun o : List (List F) => getI o j) outs
    aggregate P.vdaf () os) (List.range P.shares)
  P.unshard () aggShares reports.length

/-- The reports stand for valid measurements, one each, and the aggregate result is the aggregate of these
measurements, if batches like that are supported. -/
def Faithful (T : Task Meas Agg) (verifyKey ctx : Bytes) (reports : List (Report F)) : Prop :=
  (∃ ms, List.Forall₂ (fun r m => T.valid m ∧ ReportStandsFor P ctx r m) reports ms) ∧
  ∀ ms, List.Forall₂ (fun r m => T.valid m ∧ ReportStandsFor P ctx r m) reports ms → T.supported ms →
    aggregateReports P verifyKey ctx reports = .ok (T.agg ms)

end

/-- The reports that were accepted -/
def acceptedReports (hist : List (OracleMove × OracleReply)) : List EncodedReport :=
  hist.filterMap fun x => match x with
    | (.submit e, .verdict true) => some e
    | _ => none

section
variable {prims : Prims} {fuel : ℕ} (P : Prio3 (XofTurboShake128 prims fuel) F Meas Agg)

/-- The accepted reports can be decoded, and the aggregate result of the batch is faithful. -/
def FaithfulRun (T : Task Meas Agg) (verifyKey ctx : Bytes) (hist : List (OracleMove × OracleReply)) : Prop :=
  ∃ rs, mapRes (decodeReport P) (acceptedReports hist) = .ok rs ∧ Faithful P T verifyKey ctx rs

/-- The probability, over the verification key and over the first `N` bytes of the values of TurboSHAKE128 at the inputs in
`S`, that after `q` moves of the Client the aggregate result of the accepted reports is not the aggregate of valid
measurements -/
noncomputable def corruptProbability (T : Task Meas Agg) (ctx : Bytes) (σ : OracleStrategy) (q : ℕ) (S : Set Bytes)
    (N : ℕ) : ℚ :=
  (Set.ncard {x : Bytes × (Bytes → ℕ → UInt8) | x.1.length = 32 ∧ x.2 ∈ oracles prims S N ∧
    ¬ FaithfulRun (runWith P x.2) T x.1 ctx (oracleRun (runWith P x.2) x.1 ctx σ q)} : ℚ) /
  Set.ncard {x : Bytes × (Bytes → ℕ → UInt8) | x.1.length = 32 ∧ x.2 ∈ oracles prims S N}

end
end Vdaf.Spec
