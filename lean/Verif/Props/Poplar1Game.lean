import Verif.Proofs.Poplar1GameKey
import Verif.Props.Poplar1Main

/-!
# Property C69: robustness of Poplar1 in the random oracle model

A malicious Client, together with a malicious Collector, interacts with honest Aggregators: they make `q` moves, each of
which either evaluates TurboSHAKE128 at an input of their choice or has a report, which is a string of bytes, verified for
an aggregation parameter of their choice, and each of which may depend on everything they have learned before.  They
win if a report is accepted although its output shares do not sum to zero or to a unit vector.  TurboSHAKE128 is random
at the inputs in a finite set `S`, which contains those for the verification randomness; elsewhere it is an arbitrary fixed
function.  AES is an arbitrary fixed function.  The verification key is random.
-/

namespace Vdaf
open Spec
section
variable {prims : Prims} {fuel : ℕ}

/-- C69: with `q` moves, a Client wins with probability at most `q * 2 / modulus`, where the modulus is that of the field of
the first level, plus `q / 2 ^ 256`.  The Aggregators refuse to verify a report for an aggregation parameter that
`is_valid` does not accept after those for which reports with the same nonce have been verified. -/
theorem C69_robustness {bits : ℕ} {P : Poplar1} (hP : Poplar1.init bits = .ok P) {ctx : Bytes}
    (hctx : ctx.length + 8 < 2 ^ 16) {S : Set Bytes} (hfin : S.Finite)
    (hS : ∀ verifyKey : Bytes, verifyKey.length = 32 → verifyRandInputs verifyKey ctx ⊆ S) {N : ℕ} (hN : fuel * 32 ≤ N)
    (σ : Poplar1Strategy) (q : ℕ) :
    poplar1KeyedWinProbability P prims fuel ctx σ q S N ≤ q * (2 / levelModulus bits 0) + q / 2 ^ 256 := by
  have h1 := Poplar1.keyed_bound (P := P) (prims := prims) hctx hfin hS hN σ q
  obtain ⟨rfl, -⟩ := Poplar1.init_ok hP
  exact div_le_of_le_mul₀ (Nat.cast_nonneg _) (by positivity) h1

/-- The same for every verification key, and Clients that do not evaluate TurboSHAKE128 at the inputs for the verification
randomness. -/
theorem C69_fixed_key {bits : ℕ} {P : Poplar1} (hP : Poplar1.init bits = .ok P) {verifyKey ctx : Bytes}
    (hkey : verifyKey.length = 32) (hctx : ctx.length + 8 < 2 ^ 16) {S : Set Bytes} (hfin : S.Finite)
    (hS : verifyRandInputs verifyKey ctx ⊆ S) {N : ℕ} (hN : fuel * 32 ≤ N) {σ : Poplar1Strategy}
    (hσ : Poplar1IgnoresKey verifyKey ctx σ) (q : ℕ) :
    poplar1WinProbability P prims fuel verifyKey ctx σ q S N ≤ q * (2 / levelModulus bits 0) := by
  have h1 := Poplar1.oracle_bound (P := P) (prims := prims) hctx hkey hfin hS hN hσ q
  obtain ⟨rfl, -⟩ := Poplar1.init_ok hP
  exact div_le_of_le_mul₀ (Nat.cast_nonneg _) (by positivity) h1

end

/-! Non-vacuity: a Client and a Collector that evaluate TurboSHAKE128 and have an honest report verified at the first level,
at the first level again, at the second level, and then have a report verified that would count twice. -/

/-- A report for `[true, false]`.  If `cheat`, the first correction word is changed, so that the report counts twice for the
prefix `[true]`, and the nonce is another one. -/
def poplar1Report (cheat : Bool) : Res EncodedReport := do
  let P ← Poplar1.init 2
  let nonce := List.replicate 16 (if cheat then 4 else 3)
  let (pub, ish) ← P.shard toyPrims 40 [1] [true, false] nonce (List.replicate 128 7)
  let cw ← getI pub 0
  let shift ← vecAddF cw.wCw ⟨.inner, ([-1, 0] : List Field64)⟩
  let pub' := if cheat then { cw with wCw := shift } :: pub.drop 1 else pub
  let p ← Poplar1.encodePublicShare pub'
  let shares ← mapRes Poplar1.encodeInputShare ish
  return ⟨nonce, p, shares⟩

/-- The Client and the Collector -/
def poplar1Client : Poplar1Strategy := fun replies =>
  match poplar1Report (4 ≤ replies.length) with
  | .ok e =>
    match replies.length with
    | 0 => .query [1, 2, 3]
    | 1 | 2 | 4 => .submit e (0, [[false], [true]])
    | _ => .submit e (1, [[true, false], [true, true]])
  | .error _ => .query []

-- there is a set of inputs as required
example : ∃ S : Set Bytes, S.Finite ∧ ∀ verifyKey : Bytes, verifyKey.length = 32 → verifyRandInputs verifyKey [1] ⊆ S := by
  refine ⟨⋃ k ∈ {b : Bytes | b.length = 32}, verifyRandInputs k [1], ?_, fun k hk => ?_⟩
  · exact Set.Finite.biUnion (List.finite_length_eq UInt8 32) fun k _ => Poplar1.verifyRandInputs_finite _ _
  · exact Set.subset_biUnion_of_mem (u := fun k => verifyRandInputs k [1]) hk

-- the replies: the value of the oracle, accepted, refused, accepted, rejected
example : (do
    let P ← Poplar1.init 2
    return (poplar1Run P toyPrims 40 (List.replicate 32 1) [1] poplar1Client 5).map fun x : Poplar1Move × Poplar1Reply => match x.2 with
      | .output _ => "output"
      | .refused => "refused"
      | .verdict b => if b then "accepted" else "rejected") =
    .ok ["output", "accepted", "refused", "accepted", "rejected"] := by decide +kernel

-- the Client does not evaluate the oracle at inputs for the verification randomness
example : Poplar1IgnoresKey (List.replicate 32 1) [1] poplar1Client := by
  rintro replies m ⟨nonce, level, hn, -, rfl⟩ h
  unfold poplar1Client at h
  split at h
  · split at h
    · have := congrArg List.length (Poplar1Move.query.inj h)
      simp [verifyRandInput, xofInput, Prio3.tag_length, natToLe, hn] at this
    all_goals cases h
  · have := congrArg List.length (Poplar1Move.query.inj h)
    simp [verifyRandInput, xofInput, Prio3.tag_length, natToLe, hn] at this

end Vdaf
