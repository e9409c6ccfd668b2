import Verif.Spec.Privacy
import Verif.Spec.Robustness

/-!
# Specification vocabulary for the robustness of Prio3 against Clients that adapt

The Aggregators are honest, a Client is not.  It submits reports of its own making and learns which of them are accepted.
Besides, it can compute the joint randomness of as many reports as it likes, before it submits one of them (that is, it
queries the XOF).  TurboSHAKE128 is a random oracle, and the Client does not know the verification key.
-/

namespace Vdaf.Spec
variable {F : Type} [NttField F] {Meas Agg : Type}

/-- What a Client sends to the Aggregators -/
structure Report (F : Type) where
  nonce : Bytes
  publicShare : Option (List Bytes)
  inputShares : List (Prio3InputShare F)

section
variable {X : Xof} (P : Prio3 X F Meas Agg)

/-- Whether all the Aggregators accept the report -/
def accepts (verifyKey ctx : Bytes) (r : Report F) : Bool :=
  ((do
    let outs ← mapRes (fun j => do
      let s ← getI r.inputShares j
      P.verifyInit verifyKey ctx j () r.nonce r.publicShare s) (List.range P.shares)
    let msg ← P.sharesToMessage ctx () (outs.map Prod.snd)
    mapRes (fun o : (List F × Option Bytes) × (List F × Option Bytes) => Prio3.verifyNext (F := F) ctx o.1 msg) outs :
    Res _)).isOk

/-- The measurement shares of the Aggregators, and their blinds -/
def measShares (ctx : Bytes) (inputShares : List (Prio3InputShare F)) : Res (List (List F × Option Bytes)) :=
  mapRes (fun j => do
    let s ← getI inputShares j
    match s with
    | .leader ms _ blind => if j = 0 then return (ms, blind) else .error (.value "not a Helper's share")
    | .helper seed blind =>
      if j = 0 then .error (.value "not the Leader's share")
      else do
        let ms ← measShare P ctx j seed
        return (ms, blind)) (List.range P.shares)

/-- The joint randomness seed for these measurement shares and blinds (nothing but zeros if there is no joint
randomness) -/
def seedOf (ctx nonce : Bytes) (xs : List (List F × Option Bytes)) : Res Bytes :=
  if 0 < P.flp.jointRandLen then do
    let parts ← mapRes (fun j => do
      let x ← getI xs j
      match x.2 with
      | none => .error (.value "no blind")
      | some blind => jointRandPart P ctx j blind x.1 nonce) (List.range P.shares)
    jointRandSeed P ctx parts
  else return List.replicate 32 0

/-- The measurement shares, and the joint randomness seed, of a report with this nonce and these input shares -/
def commitment (ctx nonce : Bytes) (inputShares : List (Prio3InputShare F)) : Res (List (List F) × Bytes) := do
  let xs ← measShares P ctx inputShares
  let seed ← seedOf P ctx nonce xs
  return (xs.map Prod.fst, seed)

/-- The joint randomness of a report with this nonce and these input shares -/
def jointRandomness (ctx nonce : Bytes) (inputShares : List (Prio3InputShare F)) : Res (List F) := do
  let (_, seed) ← commitment P ctx nonce inputShares
  if 0 < P.flp.jointRandLen then jointRands P ctx seed else return []

end

/-- What the Client can do next: compute the joint randomness of a report, or submit a report -/
inductive ClientMove (F : Type) where
  | probe (nonce : Bytes) (inputShares : List (Prio3InputShare F))
  | submit (r : Report F)

/-- The nonce -/
def ClientMove.nonce : ClientMove F → Bytes
  | .probe nonce _ => nonce
  | .submit r => r.nonce

/-- The input shares -/
def ClientMove.inputShares : ClientMove F → List (Prio3InputShare F)
  | .probe _ inputShares => inputShares
  | .submit r => r.inputShares

/-- What the Client learns: the joint randomness (or that there is none), or whether the report is accepted -/
inductive ClientReply (F : Type) where
  | jointRand (jr : Option (List F))
  | verdict (accepted : Bool)

/-- A Client: from the replies up to now it decides on the next move. -/
abbrev ClientStrategy (F : Type) : Type := List (ClientReply F) → ClientMove F

/-- The nonces of the reports that were submitted -/
def submittedNonces (hist : List (ClientMove F × ClientReply F)) : List Bytes :=
  hist.filterMap fun x => match x.1 with
    | .probe _ _ => none
    | .submit r => some r.nonce

section
variable {X : Xof} (P : Prio3 X F Meas Agg)

/-- The reply to a move.  The Aggregators reject nonces of the wrong size, and nonces they have seen before. -/
def respond (verifyKey ctx : Bytes) (hist : List (ClientMove F × ClientReply F)) : ClientMove F → ClientReply F
  | .probe nonce inputShares => .jointRand (match jointRandomness P ctx nonce inputShares with
    | .ok jr => some jr
    | .error _ => none)
  | .submit r => .verdict (decide (r.nonce.length = 16 ∧ r.nonce ∉ submittedNonces hist) && accepts P verifyKey ctx r)

/-- The first `q` moves and the replies -/
def clientRun (verifyKey ctx : Bytes) (σ : ClientStrategy F) : ℕ → List (ClientMove F × ClientReply F)
  | 0 => []
  | q + 1 =>
    let hist := clientRun verifyKey ctx σ q
    let move := σ (hist.map Prod.snd)
    hist ++ [(move, respond P verifyKey ctx hist move)]

/-- The Client wins: a report is accepted although its measurement, the sum of the measurement shares, is not valid. -/
def ClientWins (ctx : Bytes) (valid : List F → Prop) (hist : List (ClientMove F × ClientReply F)) : Prop :=
  ∃ r, (.submit r, .verdict true) ∈ hist ∧ ∃ ms seed, commitment P ctx r.nonce r.inputShares = .ok (ms, seed) ∧
    ∃ meas, IsSum (fun j : Fin ms.length => ms[j]) meas ∧ ¬ valid meas

/-- The Client has found a collision: two of its moves with different nonces or measurement shares have the same joint
randomness seed. -/
def Collides (ctx : Bytes) (hist : List (ClientMove F × ClientReply F)) : Prop :=
  0 < P.flp.jointRandLen ∧ ∃ x ∈ hist, ∃ y ∈ hist, ∃ ms ms' seed,
    commitment P ctx x.1.nonce x.1.inputShares = .ok (ms, seed) ∧
    commitment P ctx y.1.nonce y.1.inputShares = .ok (ms', seed) ∧ (x.1.nonce, ms) ≠ (y.1.nonce, ms')

/-- The inputs of TurboSHAKE128 where the oracle is random: those for the query randomness, which contain the
verification key, and those for the joint randomness -/
def clientInputs (verifyKey ctx : Bytes) : Set Bytes :=
  {m | (∃ nonce : Bytes, nonce.length = 16 ∧
      m = xofInput verifyKey (tag P.id 5 ctx) (UInt8.ofNat P.proofs :: nonce)) ∨
    ∃ seed : Bytes, seed.length = 32 ∧ m = xofInput seed (tag P.id 3 ctx) [UInt8.ofNat P.proofs]}

end

/-- The probability, over the values of TurboSHAKE128 at these inputs (the first `N` bytes of the output), that the Client
wins with `q` moves, and without a collision -/
noncomputable def winProbability {prims : Prims} {fuel : ℕ} (P : Prio3 (XofTurboShake128 prims fuel) F Meas Agg)
    (verifyKey ctx : Bytes) (valid : List F → Prop) (σ : ClientStrategy F) (q N : ℕ) : ℚ :=
  (Set.ncard {O ∈ oracles prims (clientInputs P verifyKey ctx) N |
    ClientWins (runWith P O) ctx valid (clientRun (runWith P O) verifyKey ctx σ q) ∧
      ¬ Collides (runWith P O) ctx (clientRun (runWith P O) verifyKey ctx σ q)} : ℚ) /
    Set.ncard (oracles prims (clientInputs P verifyKey ctx) N)

end Vdaf.Spec
