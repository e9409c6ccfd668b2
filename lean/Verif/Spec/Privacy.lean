import Verif.Spec.Prio3
import Verif.Spec.Vdaf

/-!
# Specification vocabulary for the privacy of Prio3

One Aggregator is honest, all the others form a coalition.  TurboSHAKE128 is a random oracle: its outputs at the
inputs that contain a seed which only the Client and the honest Aggregator know are random, at all the other inputs
the oracle is an arbitrary fixed function.
-/

namespace Vdaf.Spec
variable {F : Type} [NttField F] {Meas Agg : Type} {prims : Prims} {fuel : ℕ}

/-- What `XofTurboShake128(seed, dst, binder)` feeds into TurboSHAKE128 -/
def xofInput (seed dst binder : Bytes) : Bytes :=
  natToLe dst.length 2 ++ dst ++ natToLe seed.length 1 ++ seed ++ binder

/-- The primitives with the function `T` in place of TurboSHAKE128 with domain byte 1, the one `XofTurboShake128`
uses -/
def withOracle (prims : Prims) (T : Bytes → ℕ → UInt8) : Prims where
  turboShake m d := if d = 1 then T m else prims.turboShake m d
  aes := prims.aes
  aes_length := prims.aes_length

/-- The same instance of Prio3, computing with the oracle `T` -/
def runWith (P : Prio3 (XofTurboShake128 prims fuel) F Meas Agg) (T : Bytes → ℕ → UInt8) :
    Prio3 (XofTurboShake128 (withOracle prims T) fuel) F Meas Agg :=
  ⟨P.id, P.shares, P.proofs, P.flp, P.proofLen⟩

/-- The oracles that differ from TurboSHAKE128 at most in the first `n` bytes of the outputs for the inputs in `S` -/
def oracles (prims : Prims) (S : Set Bytes) (n : ℕ) : Set (Bytes → ℕ → UInt8) :=
  {T | ∀ m i, T m i ≠ prims.turboShake m 1 i → m ∈ S ∧ i < n}

/-! ### The seeds in the Client's random bytes -/

section
variable {X : Xof} (P : Prio3 X F Meas Agg) (rand : Bytes)

/-- The seed of the shares of Helper `j` -/
def shareSeed (j : ℕ) : Bytes := seedAt P rand (if 0 < P.flp.jointRandLen then 2 * (j - 1) else j - 1)

/-- The blind of Aggregator `j` (if joint randomness is used) -/
def blindSeed (j : ℕ) : Bytes := seedAt P rand (if j = 0 then 2 * P.shares - 2 else 2 * (j - 1) + 1)

/-- The seed of the Client's randomness for the proofs -/
def proveSeed : Bytes := seedAt P rand (numSeeds P - 1)

/-- The inputs of TurboSHAKE128 that contain a seed which the coalition against Aggregator `h` does not know: the
measurement share and the proofs share of `h` if it is a Helper, the Client's randomness for the proofs, and
the joint randomness parts of `h` for all measurement shares. -/
def secretInputs (ctx nonce : Bytes) (h : ℕ) : Set Bytes :=
  {m | (0 < h ∧ m = xofInput (shareSeed P rand h) (tag P.id 1 ctx) [UInt8.ofNat h]) ∨
    (0 < h ∧ m = xofInput (shareSeed P rand h) (tag P.id 2 ctx) [UInt8.ofNat P.proofs, UInt8.ofNat h]) ∨
    m = xofInput (proveSeed P rand) (tag P.id 4 ctx) [UInt8.ofNat P.proofs] ∨
    (0 < P.flp.jointRandLen ∧ ∃ (ms : List F) (e : Bytes), ms.length = P.flp.measLen ∧ encodeVec ms = .ok e ∧
      m = xofInput (blindSeed P rand h) (tag P.id 7 ctx) (UInt8.ofNat h :: (nonce ++ e)))}

/-! ### What the coalition sees -/

/-- All that happens when a report is processed: the Client's messages, what `verify_init` returns for each
Aggregator (state and verifier share), and the verifier message -/
structure Transcript (F : Type) where
  publicShare : Option (List Bytes)
  inputShares : List (Prio3InputShare F)
  states : List (List F × Option Bytes)
  verifierShares : List (List F × Option Bytes)
  message : Option Bytes

/-- The Client shards the measurement, the Aggregators verify the report. -/
def transcript (verifyKey ctx : Bytes) (m : Meas) (nonce rand : Bytes) : Res (Transcript F) := do
  let (pub, ish) ← P.shard ctx m nonce rand
  let outs ← mapRes (fun j => do
    let s ← getI ish j
    P.verifyInit verifyKey ctx j () nonce pub s) (List.range P.shares)
  let msg ← P.sharesToMessage ctx () (outs.map Prod.snd)
  return ⟨pub, ish, outs.map Prod.fst, outs.map Prod.snd, msg⟩

/-- The part of a transcript that is known to the coalition of all Aggregators but `h`: the public share, their own
input shares and states, the verifier shares of all the Aggregators, and the verifier message -/
def Transcript.view (h : ℕ) (t : Transcript F) : Transcript F :=
  { t with inputShares := t.inputShares.eraseIdx h, states := t.states.eraseIdx h }

/-! ### Batches of reports -/

/-- What the Client of a report chooses besides the measurement: the nonce and the random bytes -/
structure Coins where
  nonce : Bytes
  rand : Bytes

/-- The secret inputs of the reports `0, …, n - 1` -/
def batchSecrets (ctx : Bytes) (h n : ℕ) (rs : ℕ → Coins) : Set Bytes :=
  {m | ∃ k < n, m ∈ secretInputs P (rs k).rand ctx (rs k).nonce h}

/-- The sizes of the nonces and of the random bytes are right, and no two of the reports have a secret seed in
common (two reports with the same blind are fine if their nonces differ). -/
def FreshCoins (h n : ℕ) (rs : ℕ → Coins) : Prop :=
  (∀ k < n, (rs k).nonce.length = 16 ∧ (rs k).rand.length = P.randSize) ∧
  ∀ k < n, ∀ l < n, k ≠ l →
    (0 < h → shareSeed P (rs k).rand h ≠ shareSeed P (rs l).rand h) ∧
    proveSeed P (rs k).rand ≠ proveSeed P (rs l).rand ∧
    (0 < P.flp.jointRandLen →
      blindSeed P (rs k).rand h ≠ blindSeed P (rs l).rand h ∨ (rs k).nonce ≠ (rs l).nonce)

/-- What the coalition sees when the reports `0, …, n - 1` are verified -/
def reportViews (verifyKey ctx : Bytes) (h n : ℕ) (ms : ℕ → Meas) (rs : ℕ → Coins) : Res (List (Transcript F)) := do
  let ts ← mapRes (fun k => transcript P verifyKey ctx (ms k) (rs k).nonce (rs k).rand) (List.range n)
  return ts.map (Transcript.view h)

/-- The output share of Aggregator `h`: what its `verify_next` returns for the verifier message -/
def outShareOf (ctx : Bytes) (h : ℕ) (t : Transcript F) : Res (List F) := do
  let st ← getI t.states h
  match (← P.vdaf.verifyNext ctx st t.message) with
  | .out o => return o
  | .cont _ _ => .error (.value "expected an output share")

/-- What the coalition sees when the reports `0, …, n - 1` are verified and aggregated: its part of the transcript of
each report, and the aggregate share of Aggregator `h` -/
def batchView (verifyKey ctx : Bytes) (h n : ℕ) (ms : ℕ → Meas) (rs : ℕ → Coins) :
    Res (List (Transcript F) × List F) := do
  let ts ← mapRes (fun k => transcript P verifyKey ctx (ms k) (rs k).nonce (rs k).rand) (List.range n)
  let outs ← mapRes (outShareOf P ctx h) ts
  let agg ← aggregate P.vdaf () outs
  return (ts.map (Transcript.view h), agg)

/-- The truncated encodings of the measurements `0, …, n - 1` add up to `tot`. -/
def TotalIs (V : Valid F Meas Agg) (n : ℕ) (ms : ℕ → Meas) (tot : List F) : Prop :=
  ∃ es os : Fin n → List F, (∀ k : Fin n, V.encode (ms k) = .ok (es k)) ∧ (∀ k, V.truncate (es k) = .ok (os k)) ∧
    IsSum os tot ∧ tot.length = V.outputLen

end
end Vdaf.Spec
