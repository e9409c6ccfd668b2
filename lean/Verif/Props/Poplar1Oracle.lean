import Verif.Proofs.PoplarRom
import Verif.Proofs.PrivacyMain
import Verif.Props.Xof

/-!
# C72: privacy of Poplar1 in the random oracle model

One Aggregator, `b`, works together with the Collector and does not follow the protocol; the other Aggregator and the Clients
are honest.  The attackers choose the aggregation parameters for which the honest Aggregator verifies each report (once for
each level), the verifier messages that it gets, and the batches whose aggregate shares it reveals.  They may evaluate
TurboSHAKE128 and AES-128 wherever they like.  TurboSHAKE128 is a random oracle, and AES-128 is a random function.  Then what
they see has almost the same distribution for two families of measurements, if for each of the aggregate shares that they got
the numbers of measurements that begin with the prefixes are the same.
-/

namespace Vdaf
open Spec
variable {prims : Prims} {fuel bits : ℕ}

/-- C72: for two families of measurements, the probabilities that what the attackers see is in `E` differ by at most
`t (t + 4 n bits B + q (1 + 2 m bits B)) / 2^126` with `t = n (2 bits + 3) B`, provided that in each view in `E` the counts
that the aggregate shares reveal are the same.  Here `n` is the number of reports, `q` the number of moves of the attackers,
`m` the largest number of prefixes that they ask for, and `B` the number of blocks of 16 bytes that may be read from a
stream.  The probabilities are over the random bytes of the Clients, over the first `16 B` bytes of TurboSHAKE128 at the inputs in
`S`, a finite set that contains at least those inputs that have a seed of a report in them, and over AES-128. -/
theorem C72_privacy (hfuel : fuel < 2 ^ 120) (hbits : 0 < bits) {verifyKey ctx : Bytes} (hkey : verifyKey.length = 32)
    (hctx : ctx.length + 8 < 2 ^ 16) {b n B : ℕ} (hb : b < 2) (hB : B ≤ 2 ^ 128) (hN : 32 * fuel * (bits + 2) + 32 ≤ 16 * B)
    {nonces : ℕ → Bytes} (hn : ∀ k < n, (nonces k).length = 16) {S : Set Bytes} (hfin : S.Finite)
    (hS : ∀ k < n, poplar1Inputs ctx (nonces k) ⊆ S) {m0 m1 : ℕ → List Bool} (hm0 : ∀ k < n, (m0 k).length = bits)
    (hm1 : ∀ k < n, (m1 k).length = bits) {m : ℕ} {σ : TreeStrategy} (hσ : AskAtMost m σ) (q : ℕ) {E : Set TreeView}
    (hE : ∀ v ∈ E, SameCounts m0 m1 v) :
    |treeProbability prims fuel bits verifyKey ctx b n (fun k => [m0 k, m1 k]) m0 nonces σ q S (16 * B) E -
        treeProbability prims fuel bits verifyKey ctx b n (fun k => [m0 k, m1 k]) m1 nonces σ q S (16 * B) E| ≤
      (n * (2 * bits + 3) * B : ℕ) * (n * (2 * bits + 3) * B + 4 * n * bits * B + q * (1 + 2 * m * bits * B) : ℕ) / 2 ^ 126 := by
  obtain ⟨e, he⟩ : ∃ e : PO.Env, e = ⟨prims, fuel, bits, verifyKey, ctx, b, n, fun k => [m0 k, m1 k], nonces, σ, q, B⟩ := ⟨_, rfl⟩
  have hok : e.Ok := by
    subst he
    refine ⟨hfuel, hbits, hctx, hkey, hb, hn, hB, hN, fun k hk p hp => ?_⟩
    simp only [List.mem_cons, List.not_mem_nil, or_false] at hp
    rcases hp with rfl | rfl
    · exact hm0 k hk
    · exact hm1 k hk
  have bound : (2 * (e.n * e.L * e.B * (e.K m + e.n * e.L * e.B) : ℕ) / 2 ^ 127 : ℚ) =
      (n * (2 * bits + 3) * B : ℕ) * (n * (2 * bits + 3) * B + 4 * n * bits * B + q * (1 + 2 * m * bits * B) : ℕ) / 2 ^ 126 := by
    subst he
    unfold PO.Env.K PO.Env.L
    push_cast
    ring
  have hl : ∀ k < e.n, (e.cands k).length ≤ 2 := by subst he; intro k _; simp
  have hc0 : ∀ k < e.n, m0 k ∈ e.cands k := by subst he; intro k _; simp
  have hc1 : ∀ k < e.n, m1 k ∈ e.cands k := by subst he; intro k _; simp
  subst he
  have h0 := PO.Env.advantage hok hl hc0 hc1 hfin hS hσ hE
  have hE' : ∀ v ∈ E, SameCounts m1 m0 v := fun v hv param ks share h p hp => (hE v hv param ks share h p hp).symm
  have h1 := PO.Env.advantage hok hl hc1 hc0 hfin hS hσ hE'
  rw [bound] at h0 h1
  dsimp only at h0 h1
  rw [abs_sub_le_iff]
  constructor <;> linarith

/-- C72: the probabilities are over a finite, non-empty set of choices. -/
theorem C72_worlds (prims : Prims) (n N : ℕ) {S : Set Bytes} (hfin : S.Finite) :
    (treeWorlds prims n S N).Finite ∧ (treeWorlds prims n S N).Nonempty := by
  refine ⟨?_, (fun _ => List.replicate 128 0, fun m i => prims.turboShake m 1 i, fun _ _ _ => 0), fun _ => by simp,
    fun m i h => absurd rfl h, fun k x i h => absurd rfl h⟩
  have hC : ciphers.Finite := by
    have h16 : {l : Bytes | l.length = 16}.Finite := finite_bytes 16
    have : Finite {l : Bytes | l.length = 16} := h16
    apply Set.Finite.of_finite_image (f := fun C => fun p : {l : Bytes | l.length = 16} × {l : Bytes | l.length = 16} × Fin 16 =>
      C p.1.1 p.2.1.1 p.2.2) (Set.toFinite _)
    intro C hC C' hC' h
    funext k x i
    by_cases hh : k.length = 16 ∧ x.length = 16 ∧ i < 16
    · exact congrFun h (⟨k, hh.1⟩, ⟨x, hh.2.1⟩, ⟨i, hh.2.2⟩)
    · have h1 : C k x i = 0 := not_not.1 fun hc => hh (hC k x i hc)
      have h2 : C' k x i = 0 := not_not.1 fun hc => hh (hC' k x i hc)
      rw [h1, h2]
  refine ((Set.Finite.pi' (t := fun _ : Fin n => {x : Bytes | x.length = 128}) fun _ => finite_bytes 128).prod
    ((oracles_finite (prims := prims) hfin N).prod hC)).subset ?_
  rintro ⟨r, T, C⟩ ⟨h1, h2, h3⟩
  exact ⟨h1, h2, h3⟩

/-- C72: there are finitely many inputs of TurboSHAKE128 with a seed of a report in them, so that a set `S` as in C72 exists. -/
theorem C72_inputs (ctx nonce : Bytes) : (poplar1Inputs ctx nonce).Finite := by
  have h32 : {l : Bytes | l.length = 32}.Finite := finite_bytes 32
  have h16 : {l : Bytes | l.length = 16}.Finite := finite_bytes 16
  have hj : (Set.univ : Set UInt8).Finite := Set.finite_univ
  refine Set.Finite.union ?_ ?_
  · refine Set.Finite.subset ((h32.image fun seed => xofInput seed (tag 6 1 ctx) nonce).union
      (((h32.prod hj).image fun p => xofInput p.1 (tag 6 2 ctx) (p.2 :: nonce)).union
        ((h32.prod hj).image fun p => xofInput p.1 (tag 6 3 ctx) (p.2 :: nonce)))) ?_
    rintro m ⟨seed, hs, rfl | ⟨j, rfl | rfl⟩⟩
    · exact .inl ⟨seed, hs, rfl⟩
    · exact .inr (.inl ⟨(seed, j), ⟨hs, trivial⟩, rfl⟩)
    · exact .inr (.inr ⟨(seed, j), ⟨hs, trivial⟩, rfl⟩)
  · refine Set.Finite.subset ((h16.prod (Set.finite_lt_nat 2)).image fun p => xofInput p.1 (idpfTag p.2 ctx) nonce) ?_
    rintro m ⟨seed, usage, hs, hu, rfl⟩
    exact ⟨(seed, usage), ⟨hs, hu⟩, rfl⟩

/-! ## A concrete case

Two reports with measurements of two bits.  The attackers have both verified for the prefixes of length 1, send made-up
verifier messages, have the reports aggregated, and evaluate the oracles. -/

/-- The strategy. -/
def treeExample : TreeStrategy := fun _ replies =>
  match replies.length with
  | 0 => .start 0 (0, [[false], [true]])
  | 1 => .start 1 (0, [[false], [true]])
  | 2 => .send 0 0 (some ⟨.inner, [(1 : Field64), 2, 3]⟩)
  | 3 => .send 0 0 none
  | 4 => .send 1 0 (some ⟨.inner, [(4 : Field64), 5, 6]⟩)
  | 5 => .send 1 0 none
  | 6 => .collect (0, [[false], [true]]) [0, 1]
  | 7 => .start 0 (0, [[false]])
  | 8 => .start 0 (1, [[false, true], [true, true]])
  | 9 => .turboShake [1, 2, 3]
  | _ => .cipher (List.replicate 16 1) (List.replicate 16 2)

/-- The measurements. -/
def treeExample0 (k : ℕ) : List Bool := if k = 0 then [true, false] else [false, true]
def treeExample1 (k : ℕ) : List Bool := if k = 0 then [false, true] else [true, true]

/-- What kind of reply it is: the place in the definition of `TreeReply`, and the reports that are aggregated. -/
def replyKind : TreeReply → ℕ × List ℕ
  | .output _ => (0, [])
  | .block _ => (1, [])
  | .started .. => (2, [])
  | .continued _ => (3, [])
  | .accepted => (4, [])
  | .refused => (5, [])
  | .total _ ks _ => (6, ks)

-- a run: the seventh reply is an aggregate share for both reports
example : ∃ v, treeView toyPrims 20 2 (List.replicate 32 1) [1] 1 2 (fun k => [treeExample0 k, treeExample1 k]) treeExample0
      (coinsOf (fun _ => List.replicate 16 7) fun k : Fin 2 => List.replicate 128 (UInt8.ofNat k)) treeExample 11 = .ok v ∧
    v.2.map replyKind = [(2, []), (2, []), (3, []), (4, []), (3, []), (4, []), (6, [0, 1]), (5, []), (2, []), (0, []),
      (1, [])] := by
  have h : (match treeView toyPrims 20 2 (List.replicate 32 1) [1] 1 2 (fun k => [treeExample0 k, treeExample1 k]) treeExample0
      (coinsOf (fun _ => List.replicate 16 7) fun k : Fin 2 => List.replicate 128 (UInt8.ofNat k)) treeExample 11 with
    | .ok v => decide (v.2.map replyKind = [(2, []), (2, []), (3, []), (4, []), (3, []), (4, []), (6, [0, 1]), (5, []), (2, []), (0, []),
      (1, [])])
    | .error _ => false) = true := by decide +kernel
  split at h
  · next v hv => exact ⟨v, hv, of_decide_eq_true h⟩
  · cases h

-- the attackers cannot tell the two families of measurements from each other
example : |treeProbability toyPrims 20 2 (List.replicate 32 1) [1] 1 2 (fun k => [treeExample0 k, treeExample1 k]) treeExample0
        (fun _ => List.replicate 16 7) treeExample 11 (poplar1Inputs [1] (List.replicate 16 7)) (16 * 162)
        {v | ∀ param ks share, .total param ks share ∈ v.2 → param = (0, [[false], [true]]) ∧ ks = [0, 1]} -
      treeProbability toyPrims 20 2 (List.replicate 32 1) [1] 1 2 (fun k => [treeExample0 k, treeExample1 k]) treeExample1
        (fun _ => List.replicate 16 7) treeExample 11 (poplar1Inputs [1] (List.replicate 16 7)) (16 * 162)
        {v | ∀ param ks share, .total param ks share ∈ v.2 → param = (0, [[false], [true]]) ∧ ks = [0, 1]}| ≤ 1 / 2 ^ 100 := by
  refine (C72_privacy (m := 2) (by decide) (by decide) (by decide) (by decide) (by decide) (by decide) (by decide) (fun _ _ => by decide)
    (C72_inputs _ _) (fun _ _ => subset_rfl) (m0 := treeExample0) (m1 := treeExample1) ?_ ?_ ?_ 11 ?_).trans ?_
  · intro k _; unfold treeExample0; split <;> rfl
  · intro k _; unfold treeExample1; split <;> rfl
  · intro views replies k param h
    unfold treeExample at h
    split at h <;> first | (cases h; decide) | cases h
  · intro v hv param ks share h p hp
    obtain ⟨rfl, rfl⟩ := hv param ks share h
    simp only [List.mem_cons, List.not_mem_nil, or_false] at hp
    rcases hp with rfl | rfl <;> decide
  · norm_num

end Vdaf
