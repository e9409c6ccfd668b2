import Verif.Spec.PingPongAttack
import Verif.Spec.Poplar1Game

/-!
# Specification vocabulary for the robustness of the ping-pong topology

The Leader and the Helper are honest and run the functions of `vdaf_ping_pong.py`.  The Clients are not, and neither is the
Collector, which chooses the aggregation parameters.  They evaluate TurboSHAKE128 at inputs of their choice, have reports,
which are bytes, verified for encoded aggregation parameters of their choice, and learn which of them are accepted.
TurboSHAKE128 is a random oracle.  The verification key is random, and neither the Clients nor the Collector know it.
-/

namespace Vdaf.Spec
open PingPong

/-- What the attackers can do next: evaluate TurboSHAKE128 (with the domain byte of the XOF), or have a report verified for
an encoded aggregation parameter -/
inductive WireMove where
  | query (input : Bytes)
  | submit (r : WireReport) (aggParam : Bytes)

/-- What they learn: the output of TurboSHAKE128, that the Aggregators refuse to verify the report for the aggregation
parameter, or whether the report is accepted -/
inductive WireReply where
  | output (stream : ℕ → UInt8)
  | refused
  | verdict (accepted : Bool)

/-- The attackers: from the replies up to now they decide on the next move. -/
abbrev WireStrategy : Type := List WireReply → WireMove

section
variable {Meas AggParam PubShare InShare OutShare AggShare AggRes VState VShare VMsg : Type}
variable (V : VdafImpl Meas AggParam PubShare InShare OutShare AggShare AggRes VState VShare VMsg)

/-- The Leader and the Helper verify a report.  The report is accepted if both finish; the result is the output shares of
the Leader and the Helper. -/
def exchangeOutputs (verifyKey ctx : Bytes) (r : WireReport) (aggParam : Bytes) : Option (OutShare × OutShare) :=
  match exchange V verifyKey ctx aggParam r.nonce r.publicShare r.leaderShare r.helperShare V.rounds with
  | .ok (leader, helper, _) =>
    match outShare leader, outShare helper with
    | some o0, some o1 => some (o0, o1)
    | _, _ => none
  | .error _ => none

/-- The aggregation parameters for which reports with the nonce were verified, in this order -/
def usedParams (nonce : Bytes) (hist : List (WireMove × WireReply)) : List AggParam :=
  hist.filterMap fun
    | (.submit r aggParam, .verdict _) => if r.nonce = nonce then (V.decodeAggParam aggParam).toOption else none
    | _ => none

/-- The reply to a move, where `T` is TurboSHAKE128.  The Aggregators refuse nonces of the wrong size, and aggregation
parameters that cannot be decoded or for which `is_valid` does not return `True`. -/
def wireRespond (T : Bytes → ℕ → UInt8) (verifyKey ctx : Bytes) (hist : List (WireMove × WireReply)) : WireMove → WireReply
  | .query m => .output (T m)
  | .submit r aggParam =>
    match V.decodeAggParam aggParam with
    | .ok a =>
      if r.nonce.length = V.nonceSize ∧ V.isValid a (usedParams V r.nonce hist) = .ok true then
        .verdict (exchangeOutputs V verifyKey ctx r aggParam).isSome
      else .refused
    | .error _ => .refused

/-- The first `q` moves and the replies -/
def wireRun (T : Bytes → ℕ → UInt8) (verifyKey ctx : Bytes) (σ : WireStrategy) : ℕ → List (WireMove × WireReply)
  | 0 => []
  | q + 1 =>
    let hist := wireRun T verifyKey ctx σ q
    let move := σ (hist.map Prod.snd)
    hist ++ [(move, wireRespond V T verifyKey ctx hist move)]

/-- The output shares of the reports that were accepted for the aggregation parameter, in this order -/
def acceptedOutputs (verifyKey ctx aggParam : Bytes) (hist : List (WireMove × WireReply)) : List (OutShare × OutShare) :=
  hist.filterMap fun
    | (.submit r aggParam', .verdict true) =>
      if aggParam' = aggParam then exchangeOutputs V verifyKey ctx r aggParam else none
    | _ => none

/-- The Leader and the Helper aggregate the output shares of a batch, and the Collector unshards. -/
def collected (a : AggParam) (batch : List (OutShare × OutShare)) : Res AggRes := do
  let s0 ← aggregate V a (batch.map Prod.fst)
  let s1 ← aggregate V a (batch.map Prod.snd)
  V.unshard a [s0, s1] batch.length

/-- The attackers win: for some aggregation parameter and some of the reports that were accepted for it, the aggregate
result is not a `good` one for so many reports. -/
def WireWins (good : AggParam → ℕ → AggRes → Prop) (verifyKey ctx : Bytes) (hist : List (WireMove × WireReply)) : Prop :=
  ∃ aggParam a, V.decodeAggParam aggParam = .ok a ∧
    ∃ batch, batch.Sublist (acceptedOutputs V verifyKey ctx aggParam hist) ∧
      ¬ ∃ result, collected V a batch = .ok result ∧ good a batch.length result

end

section
variable {Meas AggParam PubShare InShare OutShare AggShare AggRes VState VShare VMsg : Type}

/-- The probability, over the verification key and over the first `N` bytes of the values of TurboSHAKE128 at the inputs in
`S`, that the attackers win with `q` moves.  The VDAF is a function of TurboSHAKE128. -/
noncomputable def wireWinProbability
    (V : (Bytes → ℕ → UInt8) → VdafImpl Meas AggParam PubShare InShare OutShare AggShare AggRes VState VShare VMsg)
    (prims : Prims) (ctx : Bytes) (good : AggParam → ℕ → AggRes → Prop) (σ : WireStrategy) (q : ℕ) (S : Set Bytes) (N : ℕ) : ℚ :=
  (Set.ncard {x : Bytes × (Bytes → ℕ → UInt8) | x.1.length = 32 ∧ x.2 ∈ oracles prims S N ∧
    WireWins (V x.2) good x.1 ctx (wireRun (V x.2) x.2 x.1 ctx σ q)} : ℚ) /
  Set.ncard {x : Bytes × (Bytes → ℕ → UInt8) | x.1.length = 32 ∧ x.2 ∈ oracles prims S N}

end

/-- The result is the aggregate of as many valid measurements as there are reports. -/
def AggregateOfValid {Meas Agg : Type} (T : Task Meas Agg) (reports : ℕ) (result : Agg) : Prop :=
  ∃ ms : List Meas, ms.length = reports ∧ (∀ m ∈ ms, T.valid m) ∧ result = T.agg ms

/-- Each report counts for at most one of the prefixes, and counts once: `votes` says for which. -/
def VotesOfReports (a : Poplar1AggParam) (reports : ℕ) (result : List ℕ) : Prop :=
  ∃ votes : List (Option (List Bool)), votes.length = reports ∧ result = a.2.map fun p => votes.count (some p)

end Vdaf.Spec
