import Verif.Spec.PrivacyActive

/-!
# Specification vocabulary for the privacy of Prio3 in the random oracle model

As in `Spec/PrivacyActive.lean`, all the Aggregators but `h` form a coalition that does not follow the protocol.  In
addition it evaluates TurboSHAKE128 at inputs of its choice.  The Clients' random bytes are random, and TurboSHAKE128 is a
random oracle.
-/

namespace Vdaf.Spec
variable {F : Type} [NttField F] {Meas Agg : Type}

/-- What the coalition can do next: evaluate TurboSHAKE128 (with the domain byte of the XOF), or approach the honest
Aggregator -/
inductive QueryMove where
  | query (input : Bytes)
  | attack (move : Move)

/-- What the coalition learns: the output of TurboSHAKE128, or what the honest Aggregator lets it see -/
inductive QueryReply (F : Type) where
  | output (stream : ℕ → UInt8)
  | reply (r : Reply F)

/-- A coalition: from all that it saw at first and all the replies up to now, it decides on the next move. -/
abbrev QueryStrategy (F : Type) : Type := List (Transcript F) → List (QueryReply F) → QueryMove

section
variable {prims : Prims} {fuel : ℕ} (P : Prio3 (XofTurboShake128 prims fuel) F Meas Agg)

/-- The first `q` moves: the replies, and the output shares that the honest Aggregator has, with the numbers of the
reports.  It accepts no report twice. -/
def queryPlay (ctx : Bytes) (h : ℕ) (ts : List (Transcript F)) (σ : List (QueryReply F) → QueryMove) :
    ℕ → Res (List (QueryReply F) × List (ℕ × List F))
  | 0 => return ([], [])
  | q + 1 => do
    let (replies, outs) ← queryPlay ctx h ts σ q
    match σ replies with
    | .query m => return (replies ++ [.output (prims.turboShake m 1)], outs)
    | .attack (.send k message) =>
      if k ∈ outs.map Prod.fst then return (replies ++ [.reply (.verdict false)], outs)
      else match react P ctx h ts k message with
        | some o => return (replies ++ [.reply (.verdict true)], outs ++ [(k, o)])
        | none => return (replies ++ [.reply (.verdict false)], outs)
    | .attack (.collect ks) => do
      let a ← aggregate P.vdaf () ((outs.filter fun x => x.1 ∈ ks).map Prod.snd)
      return (replies ++ [.reply (.share a)], outs)

/-- All that a coalition with strategy `σ` sees in `q` moves, with the reports `0, …, n - 1` -/
def queryView (verifyKey ctx : Bytes) (h n : ℕ) (ms : ℕ → Meas) (rs : ℕ → Coins) (σ : QueryStrategy F) (q : ℕ) :
    Res (List (Transcript F) × List (QueryReply F)) := do
  let ts ← mapRes (fun k => transcript P verifyKey ctx (ms k) (rs k).nonce (rs k).rand) (List.range n)
  let views := ts.map (Transcript.view h)
  let (replies, _) ← queryPlay P ctx h ts (σ views) q
  return (views, replies)

end

/-- The reports that the honest Aggregator has accepted, to be seen from the replies -/
def acceptedBy (σ : List (QueryReply F) → QueryMove) (replies : List (QueryReply F)) : List ℕ :=
  (List.range replies.length).filterMap fun i =>
    match σ (replies.take i), replies[i]? with
    | .attack (.send k _), some (.reply (.verdict true)) => some k
    | _, _ => none

/-- The batches whose aggregate shares the coalition got, to be seen from the replies -/
def batchesBy (σ : List (QueryReply F) → QueryMove) (replies : List (QueryReply F)) : List (List ℕ) :=
  (List.range replies.length).filterMap fun i =>
    match σ (replies.take i) with
    | .attack (.collect ks) => some ((acceptedBy σ (replies.take i)).filter (· ∈ ks))
    | _ => none

/-- The nonces and the random bytes of the Clients -/
def coinsOf {n : ℕ} (nonces : ℕ → Bytes) (rands : Fin n → Bytes) (k : ℕ) : Coins :=
  ⟨nonces k, if h : k < n then rands ⟨k, h⟩ else []⟩

section
variable {prims : Prims} {fuel : ℕ} (P : Prio3 (XofTurboShake128 prims fuel) F Meas Agg)

/-- All the choices of the random bytes of `n` Clients and of the values of TurboSHAKE128, where the first `N` bytes of the
values at the inputs in `S` may vary -/
def worlds (n : ℕ) (S : Set Bytes) (N : ℕ) : Set ((Fin n → Bytes) × (Bytes → ℕ → UInt8)) :=
  {x | (∀ k, (x.1 k).length = P.randSize) ∧ x.2 ∈ oracles prims S N}

/-- The probability that what the coalition sees is in `E`, over the random bytes of the Clients and over TurboSHAKE128 -/
noncomputable def viewProbability (verifyKey ctx : Bytes) (h n : ℕ) (ms : ℕ → Meas) (nonces : ℕ → Bytes)
    (σ : QueryStrategy F) (q : ℕ) (S : Set Bytes) (N : ℕ) (E : Set (List (Transcript F) × List (QueryReply F))) : ℚ :=
  (Set.ncard {x ∈ worlds P n S N |
    ∃ v ∈ E, queryView (runWith P x.2) verifyKey ctx h n ms (coinsOf nonces x.1) σ q = .ok v} : ℚ) /
    Set.ncard (worlds P n S N)

end
end Vdaf.Spec
