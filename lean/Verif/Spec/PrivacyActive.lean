import Verif.Spec.Privacy

/-!
# Specification vocabulary for the privacy of Prio3 against Aggregators that do not follow the protocol

All the Aggregators but `h` form a coalition and have seen all there is to see before the last step of the
verification (`Spec.reportViews`).  From then on they do what they like: they send the honest Aggregator verifier
messages of their own choice, and they decide which reports it aggregates, how often, and in which order, while they
watch its reactions.
-/

namespace Vdaf.Spec
variable {F : Type} [NttField F] {Meas Agg : Type}

/-- What the coalition can do next: send the honest Aggregator a verifier message for report `k`, or ask it for the
aggregate share of those of the reports `ks` that it has accepted -/
inductive Move where
  | send (k : ℕ) (message : Option Bytes)
  | collect (ks : List ℕ)

/-- What the honest Aggregator lets the coalition see: whether it accepts the report, or an aggregate share -/
inductive Reply (F : Type) where
  | verdict (accepted : Bool)
  | share (a : List F)

/-- A coalition: from all that it saw at first and all the replies up to now, it decides on the next move. -/
abbrev Strategy (F : Type) : Type := List (Transcript F) → List (Reply F) → Move

section
variable {X : Xof} (P : Prio3 X F Meas Agg)

/-- What the honest Aggregator `h` does with a verifier message for report `k`: the output share, if it accepts -/
def react (ctx : Bytes) (h : ℕ) (ts : List (Transcript F)) (k : ℕ) (message : Option Bytes) : Option (List F) :=
  match (do
    let t ← getI ts k
    let st ← getI t.states h
    P.vdaf.verifyNext ctx st message : Res (Next _ _ (List F))) with
  | .ok (.out o) => some o
  | _ => none

/-- The first `q` moves: the replies of the honest Aggregator, and the output shares that it has, with the numbers of
the reports.  It accepts no report twice. -/
def play (ctx : Bytes) (h : ℕ) (ts : List (Transcript F)) (σ : List (Reply F) → Move) :
    ℕ → Res (List (Reply F) × List (ℕ × List F))
  | 0 => return ([], [])
  | q + 1 => do
    let (replies, outs) ← play ctx h ts σ q
    match σ replies with
    | .send k message =>
      if k ∈ outs.map Prod.fst then return (replies ++ [.verdict false], outs)
      else match react P ctx h ts k message with
        | some o => return (replies ++ [.verdict true], outs ++ [(k, o)])
        | none => return (replies ++ [.verdict false], outs)
    | .collect ks => do
      let a ← aggregate P.vdaf () ((outs.filter fun x => x.1 ∈ ks).map Prod.snd)
      return (replies ++ [.share a], outs)

/-- All that a coalition with strategy `σ` sees in `q` moves, with the reports `0, …, n - 1` -/
def attackView (verifyKey ctx : Bytes) (h n : ℕ) (ms : ℕ → Meas) (rs : ℕ → Coins) (σ : Strategy F) (q : ℕ) :
    Res (List (Transcript F) × List (Reply F)) := do
  let ts ← mapRes (fun k => transcript P verifyKey ctx (ms k) (rs k).nonce (rs k).rand) (List.range n)
  let views := ts.map (Transcript.view h)
  let (replies, _) ← play P ctx h ts (σ views) q
  return (views, replies)

end

/-- The reports that the honest Aggregator has accepted, to be seen from the replies -/
def acceptedIn (σ : List (Reply F) → Move) (replies : List (Reply F)) : List ℕ :=
  (List.range replies.length).filterMap fun i =>
    match σ (replies.take i), replies[i]? with
    | .send k _, some (.verdict true) => some k
    | _, _ => none

/-- The batches whose aggregate shares the coalition got, to be seen from the replies -/
def batchesIn (σ : List (Reply F) → Move) (replies : List (Reply F)) : List (List ℕ) :=
  (List.range replies.length).filterMap fun i =>
    match σ (replies.take i) with
    | .send _ _ => none
    | .collect ks => some ((acceptedIn σ (replies.take i)).filter (· ∈ ks))

/-- The truncated encodings of the measurements in the list add up to `tot`. -/
def TotalOf (V : Valid F Meas Agg) (ms : List Meas) (tot : List F) : Prop :=
  ∃ os : List (List F), mapRes (fun m => do
      let e ← V.encode m
      V.truncate e) ms = .ok os ∧ IsSum (fun i : Fin os.length => os[i]) tot ∧ tot.length = V.outputLen

end Vdaf.Spec
