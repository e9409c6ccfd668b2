import Verif.Spec.Poplar1Privacy
import Verif.Spec.PrivacyOracle
import Verif.Spec.RandomOracle
import Verif.Spec.Vdaf

/-!
# Specification vocabulary for the privacy of Poplar1 in the random oracle model

Aggregator `b` is corrupted and works together with the Collector; the other Aggregator and the Clients are honest.  The
attackers evaluate TurboSHAKE128 and AES-128 at inputs of their choice.  They choose the aggregation parameters for which the
honest Aggregator verifies a report, and the verifier messages that it receives; they see its verifier shares, and its
aggregate shares for batches of their choice.  TurboSHAKE128 (with the domain byte of `XofTurboShake128`) is a random oracle,
and AES-128 is a random function from keys and blocks to blocks, which the attackers cannot invert.  The Clients' random
bytes are random.
-/

namespace Vdaf.Spec

/-! ### The oracles -/

/-- The functions from keys and blocks of 16 bytes to 16 bytes -/
def ciphers : Set (Bytes → Bytes → ℕ → UInt8) :=
  {C | ∀ key block i, C key block i ≠ 0 → key.length = 16 ∧ block.length = 16 ∧ i < 16}

/-- The primitives with `C` in place of AES-128 -/
def withCipher (prims : Prims) (C : Bytes → Bytes → ℕ → UInt8) : Prims where
  turboShake := prims.turboShake
  aes key block := if key.length = 16 ∧ block.length = 16 then (List.range 16).map (C key block) else prims.aes key block
  aes_length key block h := by
    split
    · simp
    · exact prims.aes_length key block h

/-- The primitives with `T` in place of TurboSHAKE128 with domain byte 1 and `C` in place of AES-128 -/
def withOracles (prims : Prims) (T : Bytes → ℕ → UInt8) (C : Bytes → Bytes → ℕ → UInt8) : Prims :=
  withOracle (withCipher prims C) T

/-- The inputs of TurboSHAKE128 that contain one of the seeds that the Client or an Aggregator derives for a report -/
def poplar1Inputs (ctx nonce : Bytes) : Set Bytes :=
  {m | ∃ seed : Bytes, seed.length = 32 ∧ (m = xofInput seed (tag 6 1 ctx) nonce ∨
      ∃ j : UInt8, m = xofInput seed (tag 6 2 ctx) (j :: nonce) ∨ m = xofInput seed (tag 6 3 ctx) (j :: nonce))} ∪
  {m | ∃ (seed : Bytes) (usage : ℕ), seed.length = 16 ∧ usage < 2 ∧ m = xofInput seed (idpfTag usage ctx) nonce}

/-! ### The attack -/

/-- What the attackers can do next: evaluate TurboSHAKE128 or AES-128, have the honest Aggregator begin with the
verification of report `k` for an aggregation parameter, send it a verifier message for report `k` at some level, or ask for
its aggregate share -/
inductive TreeMove where
  | turboShake (input : Bytes)
  | cipher (key block : Bytes)
  | start (k : ℕ) (param : Poplar1AggParam)
  | send (k level : ℕ) (message : Option FieldVec)
  | collect (param : Poplar1AggParam) (ks : List ℕ)

/-- What the attackers learn: the output of TurboSHAKE128 or of AES-128, the first or second verifier share of the honest
Aggregator, that it accepts the report, that it refuses the request or rejects the report, or its aggregate share for the
aggregation parameter and those of the reports in question that it has accepted for it -/
inductive TreeReply where
  | output (stream : ℕ → UInt8)
  | block (bytes : Bytes)
  | started (k : ℕ) (param : Poplar1AggParam) (share : FieldVec)
  | continued (share : FieldVec)
  | accepted
  | refused
  | total (param : Poplar1AggParam) (ks : List ℕ) (share : FieldVec)

/-- How far the honest Aggregator is with the verification of a report -/
inductive Progress where
  | running (state : Poplar1VerifyState)
  | done (out : FieldVec)
  | rejected

/-- What the honest Aggregator has for each report and each level -/
abbrev Memory := ℕ → ℕ → Option (Poplar1AggParam × Progress)

def Memory.set (mem : Memory) (k level : ℕ) (x : Poplar1AggParam × Progress) : Memory :=
  fun k' level' => if k' = k ∧ level' = level then some x else mem k' level'

/-- The output share of an accepted report -/
def Memory.out (mem : Memory) (param : Poplar1AggParam) (k : ℕ) : Option FieldVec :=
  match mem k param.1 with
  | some (param', .done out) => if param' = param then some out else none
  | _ => none

/-- The prefixes are distinct and of the length of the level. -/
def Askable (bits : ℕ) (param : Poplar1AggParam) : Prop :=
  param.1 < bits ∧ param.1 < 2 ^ 16 ∧ param.2.Nodup ∧ ∀ p ∈ param.2, p.length = param.1 + 1

instance (bits : ℕ) (param : Poplar1AggParam) : Decidable (Askable bits param) := by unfold Askable; infer_instance

section
variable (prims : Prims) (fuel bits : ℕ)

/-- The reply to a move, for `n` reports, with the function `start` for the beginning of the verification.  The honest
Aggregator verifies a report once for each level at most. -/
def treeRespond (ctx : Bytes) (n : ℕ) (start : ℕ → Poplar1AggParam → Res (Poplar1VerifyState × FieldVec)) (mem : Memory) :
    TreeMove → Res (TreeReply × Memory)
  | .turboShake m => return (.output (prims.turboShake m 1), mem)
  | .cipher key block => return (.block (prims.aes key block), mem)
  | .start k param =>
    if k < n ∧ Askable bits param ∧ mem k param.1 = none then do
      let (state, share) ← start k param
      return (.started k param share, mem.set k param.1 (param, .running state))
    else return (.refused, mem)
  | .send k level message =>
    match mem k level with
    | some (param, .running state) =>
      match Poplar1.verifyNext ctx state message with
      | .ok (.cont state share) => return (.continued share, mem.set k level (param, .running state))
      | .ok (.out out) => return (.accepted, mem.set k level (param, .done out))
      | .error _ => return (.refused, mem.set k level (param, .rejected))
    | _ => return (.refused, mem)
  | .collect param ks => do
    let ids := (List.range n).filter fun k => k ∈ ks ∧ (mem.out param k).isSome
    let share ← aggregate ((⟨poplarIdpf bits⟩ : Poplar1).vdaf prims fuel) param (ids.filterMap (mem.out param))
    return (.total param ids share, mem)

/-- The first `q` moves: the replies, and what the honest Aggregator has -/
def treePlay (ctx : Bytes) (n : ℕ) (start : ℕ → Poplar1AggParam → Res (Poplar1VerifyState × FieldVec))
    (σ : List TreeReply → TreeMove) : ℕ → Res (List TreeReply × Memory)
  | 0 => return ([], fun _ _ => none)
  | q + 1 => do
    let (replies, mem) ← treePlay ctx n start σ q
    let (reply, mem) ← treeRespond prims fuel bits ctx n start mem (σ replies)
    return (replies ++ [reply], mem)

/-- A report: the public share, the input share of Aggregator `b`, and that of the other one.  Aggregator `b` evaluates its
share of the IDPF at the candidates for the measurement. -/
def treeReport (ctx : Bytes) (b : ℕ) (candidates : List (List Bool)) (alpha : List Bool) (nonce rand : Bytes) :
    Res (List CorrectionWord × Poplar1InputShare × Poplar1InputShare) := do
  let (pub, shares) ← (⟨poplarIdpf bits⟩ : Poplar1).shard prims fuel ctx alpha nonce rand
  let own ← getI shares b
  let other ← getI shares (1 - b)
  let _ ← mapRes (fun p => (poplarIdpf bits).eval prims fuel b pub own.key (bits - 1 : ℕ) [p] ctx nonce) candidates
  return (pub, own, other)

/-- What the attackers see: for each report the public share and the input share of Aggregator `b`, and the replies -/
abbrev TreeView := List (List CorrectionWord × Poplar1InputShare) × List TreeReply

/-- The attackers: from all that they saw at first and all the replies up to now they decide on the next move. -/
abbrev TreeStrategy := List (List CorrectionWord × Poplar1InputShare) → List TreeReply → TreeMove

/-- The attack with `q` moves on `n` reports with the measurements `ms` -/
def treeView (verifyKey ctx : Bytes) (b n : ℕ) (candidates : ℕ → List (List Bool)) (ms : ℕ → List Bool) (rs : ℕ → Coins)
    (σ : TreeStrategy) (q : ℕ) : Res TreeView := do
  let reports ← mapRes (fun k => treeReport prims fuel bits ctx b (candidates k) (ms k) (rs k).nonce (rs k).rand)
    (List.range n)
  let views := reports.map fun r => (r.1, r.2.1)
  let start := fun k param => do
    let r ← getI reports k
    (⟨poplarIdpf bits⟩ : Poplar1).verifyInit prims fuel verifyKey ctx (1 - b) param (rs k).nonce r.1 r.2.2
  let (replies, _) ← treePlay prims fuel bits ctx n start (σ views) q
  return (views, replies)

/-- All the choices of the random bytes of `n` Clients, of the values of TurboSHAKE128, where the first `N` bytes of the values
at the inputs in `S` may vary, and of AES-128 -/
def treeWorlds (n : ℕ) (S : Set Bytes) (N : ℕ) :
    Set ((Fin n → Bytes) × (Bytes → ℕ → UInt8) × (Bytes → Bytes → ℕ → UInt8)) :=
  {x | (∀ k, (x.1 k).length = 128) ∧ x.2.1 ∈ oracles prims S N ∧ x.2.2 ∈ ciphers}

/-- The probability that what the attackers see is in `E`, over the random bytes of the Clients, over TurboSHAKE128 and over
AES-128 -/
noncomputable def treeProbability (verifyKey ctx : Bytes) (b n : ℕ) (candidates : ℕ → List (List Bool))
    (ms : ℕ → List Bool) (nonces : ℕ → Bytes) (σ : TreeStrategy) (q : ℕ) (S : Set Bytes) (N : ℕ) (E : Set TreeView) : ℚ :=
  (Set.ncard {x ∈ treeWorlds prims n S N | ∃ v ∈ E, treeView (withOracles prims x.2.1 x.2.2) fuel bits verifyKey ctx b n
    candidates ms (coinsOf nonces x.1) σ q = .ok v} : ℚ) / Set.ncard (treeWorlds prims n S N)

/-- The attackers ask for at most `m` prefixes at once. -/
def AskAtMost (m : ℕ) (σ : TreeStrategy) : Prop :=
  ∀ views replies k param, σ views replies = .start k param → param.2.length ≤ m

/-- For each of the aggregate shares that the attackers got, and each of its prefixes, as many of the aggregated reports begin
with the prefix for the measurements `m0` as for the measurements `m1`. -/
def SameCounts (m0 m1 : ℕ → List Bool) (v : TreeView) : Prop :=
  ∀ param ks share, .total param ks share ∈ v.2 → ∀ p ∈ param.2,
    ks.countP (fun k => p <+: m0 k) = ks.countP (fun k => p <+: m1 k)

end
end Vdaf.Spec
