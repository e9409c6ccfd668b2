import Verif.Proofs.PrivacyBound

/-!
# C70: privacy of Prio3 in the random oracle model

As in C65, all the Aggregators but one, `h`, do not follow the protocol.  In addition they evaluate TurboSHAKE128 at any
inputs they like, those included at which the Clients have evaluated it, if they can find them.  TurboSHAKE128 is a random
oracle, and the Clients' random bytes are random.  Then what the Aggregators see has almost the same distribution for two
choices of the measurements with the same aggregate results: in `q` moves, the probabilities of any set of views differ by
at most `(6 n q + 3 n²) / 2^256`.
-/

namespace Vdaf
open Spec
variable {F : Type} [NttField F] {Meas Agg : Type} {prims : Prims} {fuel : ℕ}

/-- C70 for the circuits supplied by users: the truncated encodings have the same sums for each batch whose aggregate share
the coalition got. -/
theorem C70_privacy_custom {P : Prio3 (XofTurboShake128 prims fuel) F Meas Agg} {T : Spec.Task Meas Agg}
    (I : Spec.CustomInstance P T) {verifyKey ctx : Bytes} (hkey : verifyKey.length = 32)
    (hctx : ctx.length + 8 < 2 ^ 16) {h n N : ℕ} (hh : h < P.shares) (hN : 32 ≤ N)
    (hN' : fuel * PyField.encSize F ≤ N) {nonces : ℕ → Bytes} (hn : ∀ k < n, (nonces k).length = 16)
    {S : Set Bytes} (hfin : S.Finite)
    (hS : ∀ rand nonce : Bytes, rand.length = P.randSize → nonce.length = 16 → secretInputs P rand ctx nonce h ⊆ S)
    {m0 m1 : ℕ → Meas} (hm0 : ∀ k < n, T.valid (m0 k)) (hm1 : ∀ k < n, T.valid (m1 k)) (σ : QueryStrategy F) (q : ℕ)
    {E : Set (List (Transcript F) × List (QueryReply F))}
    (htot : ∀ v ∈ E, ∀ B ∈ batchesBy (σ v.1) v.2, (∀ k ∈ B, k < n) →
      ∃ tot, TotalOf P.flp (B.map m0) tot ∧ TotalOf P.flp (B.map m1) tot) :
    |viewProbability P verifyKey ctx h n m0 nonces σ q S N E - viewProbability P verifyKey ctx h n m1 nonces σ q S N E| ≤
      (6 * n * q + 3 * n ^ 2) / 2 ^ 256 := by
  have h0 := Prio3.advantage I (σ := σ) (q := q) hkey hctx hh hN hN' hn hfin hS hm0 hm1 htot
  have h1 := Prio3.advantage I (σ := σ) (q := q) hkey hctx hh hN hN' hn hfin hS hm1 hm0 fun v hv B hB hBn => by
    obtain ⟨tot, t0, t1⟩ := htot v hv B hB hBn
    exact ⟨tot, t1, t0⟩
  rw [abs_sub_le_iff]
  constructor <;> linarith

/-- C70: for two choices of valid measurements, the probabilities that what the coalition sees is in `E` differ by at most
`(6 n q + 3 n²) / 2^256`, provided that in each view in `E` the aggregate results agree for each batch whose aggregate share
the coalition got.  The probabilities are over the random bytes of the `n` Clients and over the values of TurboSHAKE128 at
the inputs in `S`, a finite set that contains at least those inputs that have a seed in them that the coalition does not
know. -/
theorem C70_privacy {P : Prio3 (XofTurboShake128 prims fuel) F Meas Agg} {fn : Spec.Fun Meas Agg}
    (I : Spec.Instance P fn) {verifyKey ctx : Bytes} (hkey : verifyKey.length = 32)
    (hctx : ctx.length + 8 < 2 ^ 16) {h n N : ℕ} (hh : h < P.shares) (hN : 32 ≤ N)
    (hN' : fuel * PyField.encSize F ≤ N) {nonces : ℕ → Bytes} (hn : ∀ k < n, (nonces k).length = 16)
    {S : Set Bytes} (hfin : S.Finite)
    (hS : ∀ rand nonce : Bytes, rand.length = P.randSize → nonce.length = 16 → secretInputs P rand ctx nonce h ⊆ S)
    {m0 m1 : ℕ → Meas} (hm0 : ∀ k < n, fn.valid (m0 k)) (hm1 : ∀ k < n, fn.valid (m1 k)) (σ : QueryStrategy F) (q : ℕ)
    {E : Set (List (Transcript F) × List (QueryReply F))}
    (hagg : ∀ v ∈ E, ∀ B ∈ batchesBy (σ v.1) v.2, (∀ k ∈ B, k < n) → fn.agg (B.map m0) = fn.agg (B.map m1)) :
    |viewProbability P verifyKey ctx h n m0 nonces σ q S N E - viewProbability P verifyKey ctx h n m1 nonces σ q S N E| ≤
      (6 * n * q + 3 * n ^ 2) / 2 ^ 256 :=
  C70_privacy_custom I.custom hkey hctx hh hN hN' hn hfin hS hm0 hm1 σ q fun v hv B hB hBn =>
    totals_agree I hm0 hm1 hBn (hagg v hv B hB hBn)

omit [NttField F] in
/-- C70: the probabilities are over a finite, non-empty set of choices. -/
theorem C70_worlds (P : Prio3 (XofTurboShake128 prims fuel) F Meas Agg) (n N : ℕ) {S : Set Bytes} (hfin : S.Finite) :
    (worlds P n S N).Finite ∧ (worlds P n S N).Nonempty := by
  have hf : {l : Bytes | l.length = P.randSize}.Finite := by
    have : Finite UInt8 := Finite.of_injective UInt8.toFin fun a b h => UInt8.toFin_inj.1 h
    exact List.finite_length_eq _ _
  refine ⟨?_, (fun _ => List.replicate P.randSize 0, fun m => prims.turboShake m 1), fun _ => by simp, fun m i hc =>
    absurd rfl hc⟩
  refine ((Set.Finite.pi' fun _ => hf).prod (oracles_finite (prims := prims) hfin N)).subset ?_
  rintro ⟨r, O⟩ ⟨h1, h2⟩
  exact ⟨h1, h2⟩

/-- C70: there are finitely many inputs of TurboSHAKE128 with a seed in them that the coalition does not know, so that a set `S`
as in C70 exists. -/
theorem C70_inputs (P : Prio3 (XofTurboShake128 prims fuel) F Meas Agg) (ctx : Bytes) (h : ℕ) :
    {m | ∃ rand nonce : Bytes, rand.length = P.randSize ∧ nonce.length = 16 ∧ m ∈ secretInputs P rand ctx nonce h}.Finite := by
  have : Finite UInt8 := Finite.of_injective UInt8.toFin fun a b h => UInt8.toFin_inj.1 h
  have hs : ∀ rand nonce : Bytes, (secretInputs P rand ctx nonce h).Finite := by
    intro rand nonce
    refine (Prio3.batchSecrets_finite (P := P) (ctx := ctx) (h := h) (n := 1) (rs := fun _ => ⟨nonce, rand⟩)).subset ?_
    exact fun m hm => ⟨0, Nat.one_pos, hm⟩
  refine ((List.finite_length_eq UInt8 P.randSize).biUnion fun rand _ =>
    (List.finite_length_eq UInt8 16).biUnion fun nonce _ => hs rand nonce).subset ?_
  rintro m ⟨rand, nonce, h1, h2, h3⟩
  exact Set.mem_biUnion h1 (Set.mem_biUnion h2 h3)

/-! ## A concrete case

The instance of `Prio3Histogram` in `Props/Privacy.lean`.  The coalition evaluates the oracle, makes the honest Aggregator
accept report 1 if the output begins with a zero and report 0 otherwise, evaluates the oracle where the Client would have to
have done so if its random bytes were all zero, and has the report aggregated. -/

/-- The strategy. -/
def queryExample : QueryStrategy Field128 := fun views replies =>
  match replies with
  | [] => .query [1, 2, 3]
  | [.output s] =>
    let k := if s 0 = 0 then 1 else 0
    .attack (.send k ((views[k]?).bind Transcript.message))
  | [_, _] => .query (xofInput (List.replicate 32 0) (tag privacyExample.id 1 [1]) [1])
  | _ => .attack (.collect [0, 1])

/-- What the coalition sees, for a given oracle. -/
def queryExampleRun (m : ℕ → Int) : Res (List (Transcript Field128) × List (QueryReply Field128)) :=
  queryView (runWith privacyExample fun m i => toyPrims.turboShake m 1 i) (List.replicate 32 1) [1] 1 2 m privacyCoins
    queryExample 4

-- a run in which one report is aggregated
example : ∃ v k, queryExampleRun (fun k => (k : Int)) = .ok v ∧ k < 2 ∧ batchesBy (queryExample v.1) v.2 = [[k]] := by
  have h : (match queryExampleRun (fun k => (k : Int)) with
    | .ok v => decide (batchesBy (queryExample v.1) v.2 = [[0]] ∨ batchesBy (queryExample v.1) v.2 = [[1]])
    | .error _ => false) = true := by decide +kernel
  split at h
  · next v hv =>
    rcases of_decide_eq_true h with h | h
    · exact ⟨v, 0, hv, by decide, h⟩
    · exact ⟨v, 1, hv, by decide, h⟩
  · cases h

-- the measurements `0, 1` and `1, 1`: the coalition cannot tell them from each other if report 1 is aggregated
example : |viewProbability privacyExample (List.replicate 32 1) [1] 1 2 (fun k => (k : Int)) (fun _ => List.replicate 16 7)
        queryExample 4
        {m | ∃ rand nonce : Bytes, rand.length = privacyExample.randSize ∧ nonce.length = 16 ∧
          m ∈ secretInputs privacyExample rand [1] nonce 1} 640 {v | batchesBy (queryExample v.1) v.2 = [[1]]} -
      viewProbability privacyExample (List.replicate 32 1) [1] 1 2 (fun _ => 1) (fun _ => List.replicate 16 7)
        queryExample 4
        {m | ∃ rand nonce : Bytes, rand.length = privacyExample.randSize ∧ nonce.length = 16 ∧
          m ∈ secretInputs privacyExample rand [1] nonce 1} 640 {v | batchesBy (queryExample v.1) v.2 = [[1]]}| ≤
    60 / 2 ^ 256 := by
  refine (C70_privacy privacyExample_instance (by decide) (by decide) (by decide) (by decide) (by decide)
    (fun _ _ => by decide) (C70_inputs _ _ _) (fun rand nonce h1 h2 m hm => ⟨rand, nonce, h1, h2, hm⟩)
    (m0 := fun k => (k : Int)) (m1 := fun _ => 1) ?_ ?_ queryExample 4 ?_).trans (le_of_eq (by norm_num))
  · intro k hk; interval_cases k <;> simp [Spec.histogramFun]
  · intro k hk; simp [Spec.histogramFun]
  · intro v hv B hB _
    rw [show batchesBy (queryExample v.1) v.2 = [[1]] from hv, List.mem_singleton] at hB
    subst hB
    rfl

end Vdaf
