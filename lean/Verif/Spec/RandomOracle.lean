import Verif.Spec.RobustGame

/-!
# Specification vocabulary for the robustness of Prio3 in the random oracle model

The Aggregators are honest, a Client is not.  It evaluates TurboSHAKE128 at inputs of its choice, and it sends reports,
which are bytes, and learns which of them are accepted.  TurboSHAKE128 is a random oracle.  The verification key is random,
and the Client does not know it.
-/

namespace Vdaf.Spec
variable {F : Type} [NttField F] {Meas Agg : Type}

/-- What a Client sends to the Aggregators: the nonce, the encoded public share and the encoded input shares -/
structure EncodedReport where
  nonce : Bytes
  publicShare : Bytes
  inputShares : List Bytes

section
variable {X : Xof} (P : Prio3 X F Meas Agg)

/-- The Aggregators decode the report. -/
def decodeReport (e : EncodedReport) : Res (Report F) := do
  let pub ← P.decodePublicShare e.publicShare
  let shares ← mapRes (fun j => do
    let b ← getI e.inputShares j
    P.decodeInputShare j b) (List.range P.shares)
  return ⟨e.nonce, pub, shares⟩

/-- Whether the report can be decoded and all the Aggregators accept it -/
def acceptsEncoded (verifyKey ctx : Bytes) (e : EncodedReport) : Bool :=
  match decodeReport P e with
  | .ok r => accepts P verifyKey ctx r
  | .error _ => false

end

/-- What the Client can do next: evaluate TurboSHAKE128 (with the domain byte of the XOF), or send a report -/
inductive OracleMove where
  | query (input : Bytes)
  | submit (e : EncodedReport)

/-- What the Client learns: the output of TurboSHAKE128, or whether the report is accepted -/
inductive OracleReply where
  | output (stream : ℕ → UInt8)
  | verdict (accepted : Bool)

/-- A Client: from the replies up to now it decides on the next move. -/
abbrev OracleStrategy : Type := List OracleReply → OracleMove

/-- The nonces of the reports that were sent -/
def sentNonces (hist : List (OracleMove × OracleReply)) : List Bytes :=
  hist.filterMap fun x => match x.1 with
    | .query _ => none
    | .submit e => some e.nonce

section
variable {prims : Prims} {fuel : ℕ} (P : Prio3 (XofTurboShake128 prims fuel) F Meas Agg)

/-- The reply to a move.  The Aggregators reject nonces of the wrong size, and nonces they have seen before. -/
def oracleRespond (verifyKey ctx : Bytes) (hist : List (OracleMove × OracleReply)) : OracleMove → OracleReply
  | .query m => .output (prims.turboShake m 1)
  | .submit e => .verdict (decide (e.nonce.length = 16 ∧ e.nonce ∉ sentNonces hist) && acceptsEncoded P verifyKey ctx e)

/-- The first `q` moves and the replies -/
def oracleRun (verifyKey ctx : Bytes) (σ : OracleStrategy) : ℕ → List (OracleMove × OracleReply)
  | 0 => []
  | q + 1 =>
    let hist := oracleRun verifyKey ctx σ q
    let move := σ (hist.map Prod.snd)
    hist ++ [(move, oracleRespond P verifyKey ctx hist move)]

/-- The Client wins: a report is accepted although its measurement, the sum of the measurement shares, is not valid. -/
def OracleWins (ctx : Bytes) (valid : List F → Prop) (hist : List (OracleMove × OracleReply)) : Prop :=
  ∃ e, (.submit e, .verdict true) ∈ hist ∧ ∃ r xs, decodeReport P e = .ok r ∧
    measShares P ctx r.inputShares = .ok xs ∧
    ∃ meas, IsSum (fun j : Fin (xs.map Prod.fst).length => (xs.map Prod.fst)[j]) meas ∧ ¬ valid meas

/-- The inputs of TurboSHAKE128 for the query randomness, the joint randomness, the joint randomness seed and the parts of
the joint randomness -/
def oracleInputs (verifyKey ctx : Bytes) : Set Bytes :=
  {m | (∃ nonce : Bytes, nonce.length = 16 ∧
      m = xofInput verifyKey (tag P.id 5 ctx) (UInt8.ofNat P.proofs :: nonce)) ∨
    (∃ seed : Bytes, seed.length = 32 ∧ m = xofInput seed (tag P.id 3 ctx) [UInt8.ofNat P.proofs]) ∨
    (∃ parts : Bytes, parts.length = 32 * P.shares ∧ m = xofInput (List.replicate 32 0) (tag P.id 6 ctx) parts) ∨
    ∃ blind binder : Bytes, blind.length = 32 ∧ binder.length = 1 + 16 + PyField.encSize F * P.flp.measLen ∧
      m = xofInput blind (tag P.id 7 ctx) binder}

/-- The Client never evaluates TurboSHAKE128 at an input for the query randomness, all of which contain the verification
key. -/
def IgnoresKey (verifyKey ctx : Bytes) (σ : OracleStrategy) : Prop :=
  ∀ replies nonce, nonce.length = 16 →
    σ replies ≠ .query (xofInput verifyKey (tag P.id 5 ctx) (UInt8.ofNat P.proofs :: nonce))

/-- A bound for the probability that, in `q` moves, two parts or two seeds of the joint randomness collide, or one of them
is used before it is computed.  A move computes at most `SHARES` parts and `SHARES + 1` seeds, each of 32 bytes. -/
def luckBound (q : ℕ) : ℚ :=
  if 0 < P.flp.jointRandLen then 3 * ((q : ℚ) * ((P.shares : ℚ) + 1)) ^ 2 / 2 ^ 256 else 0

/-- The probability, over the first `N` bytes of the values of TurboSHAKE128 at the inputs in `S`, that the Client wins
with `q` moves -/
noncomputable def oracleWinProbability (verifyKey ctx : Bytes) (valid : List F → Prop) (σ : OracleStrategy) (q : ℕ)
    (S : Set Bytes) (N : ℕ) : ℚ :=
  (Set.ncard {O ∈ oracles prims S N |
    OracleWins (runWith P O) ctx valid (oracleRun (runWith P O) verifyKey ctx σ q)} : ℚ) / Set.ncard (oracles prims S N)

/-- The probability, over the verification key and over the first `N` bytes of the values of TurboSHAKE128 at the inputs in
`S`, that the Client wins with `q` moves.  Which moves it makes does not depend on the key, other than through the
replies. -/
noncomputable def keyedWinProbability (ctx : Bytes) (valid : List F → Prop) (σ : OracleStrategy) (q : ℕ)
    (S : Set Bytes) (N : ℕ) : ℚ :=
  (Set.ncard {x : Bytes × (Bytes → ℕ → UInt8) | x.1.length = 32 ∧ x.2 ∈ oracles prims S N ∧
    OracleWins (runWith P x.2) ctx valid (oracleRun (runWith P x.2) x.1 ctx σ q)} : ℚ) /
  Set.ncard {x : Bytes × (Bytes → ℕ → UInt8) | x.1.length = 32 ∧ x.2 ∈ oracles prims S N}

end
end Vdaf.Spec
