import Verif.Proofs.Twin
import Verif.Props.Poplar1Main
import Verif.Props.Poplar1

/-! # C82: does a Poplar1 report stand for one measurement?

The claim (draft, "Safe Usage of IDPF Outputs": at the last level of the tree a Client achieves only the zero function, a point
function or a pseudorandom one): whatever a Client sends, there is a measurement such that the report counts only for its
prefixes.  It is false of the code: a Client that gives the same IDPF key to both the Aggregators, and public correction words
that do not correct the seeds but invert both the control bits, obtains values which are 1 at half of the nodes of each level and
-1 at the others.  What remains true is that an aggregation parameter for which the report is accepted counts it at most once. -/

namespace Vdaf

section
variable {prims : Prims} {fuel : ℕ}

/-- The report counts for the prefix: verification for the aggregation parameter with only this prefix succeeds, and the output
shares sum to 1. -/
def Spec.CountsFor (P : Poplar1) (prims : Prims) (fuel : ℕ) (verifyKey ctx nonce : Bytes) (pub : List CorrectionWord)
    (s0 s1 : Poplar1InputShare) (p : List Bool) : Prop :=
  ∃ u0 u1 : Fk (P.idpf.currentField (p.length - 1)),
    Spec.poplar1Verify P prims fuel verifyKey ctx (p.length - 1, [p]) nonce pub s0 s1 = .ok (⟨_, [u0]⟩, ⟨_, [u1]⟩) ∧ u0 + u1 = 1

/-- C82, the claim is false: take the report of an honest Client (with a measurement `alpha`), replace the keys of both input
shares by one and the same `key`, and the public share by `pub'`.  The new report counts, at every level, for at least half of
the prefixes of that length, whatever the verification key (unless the sampler runs out of its bound). -/
theorem C82_many_prefixes {bits : ℕ} {P : Poplar1} (hP : Poplar1.init bits = .ok P) (hf : fuel < 2 ^ 120)
    {ctx nonce rand : Bytes} (hctx : ctx.length + 8 < 2 ^ 16) (hn : nonce.length = 16) (hr : rand.length = 128)
    {alpha : List Bool} (ha : alpha.length = bits) {pub : List CorrectionWord} {s0 s1 : Poplar1InputShare}
    (hs : P.shard prims fuel ctx alpha nonce rand = .ok (pub, [s0, s1])) {key : Bytes} (hk : key.length = 16) :
    ∃ pub', ∀ level < bits, level < 2 ^ 16 → ∃ S : Finset (List Bool), (∀ p ∈ S, p.length = level + 1) ∧ 2 ^ level ≤ S.card ∧
      ∀ p ∈ S, ∀ verifyKey : Bytes, verifyKey.length = 32 →
        Spec.CountsFor P prims fuel verifyKey ctx nonce pub' { s0 with key := key } { s1 with key := key } p ∨
        Spec.poplar1Verify P prims fuel verifyKey ctx (level, [p]) nonce pub' { s0 with key := key } { s1 with key := key } =
          .error .fuel := by
  classical
  obtain ⟨rfl, hb⟩ := Poplar1.init_ok hP
  have hg := Poplar1.shard_good (P := ⟨⟨2, bits⟩⟩) (prims := prims) hf hb rfl hctx ha hn hr
  rw [hs] at hg
  obtain ⟨t0, t1, beta, he, H⟩ := hg
  simp only [List.cons.injEq, and_true] at he
  obtain ⟨rfl, rfl⟩ := he
  obtain ⟨all, hall⟩ : ∃ all : ℕ → Finset (List Bool), ∀ ℓ, (all ℓ).card = 2 ^ (ℓ + 1) ∧ ∀ p ∈ all ℓ, p.length = ℓ + 1 := by
    refine ⟨fun ℓ => (Finset.univ : Finset (Fin (ℓ + 1) → Bool)).image List.ofFn, fun ℓ => ⟨?_, ?_⟩⟩
    · rw [Finset.card_image_of_injective _ List.ofFn_injective]
      simp
    · intro p hp
      obtain ⟨f, -, rfl⟩ := Finset.mem_image.1 hp
      simp
  obtain ⟨on, hon⟩ : ∃ on : ℕ → List Bool → Prop, ∀ ℓ p, on ℓ p ↔ ∃ r,
      Idpf.root (⟨2, bits⟩ : Idpf) prims fuel ctx nonce key p ℓ = .ok r ∧ r.1 = true := ⟨_, fun _ _ => Iff.rfl⟩
  obtain ⟨sgn, hsgn⟩ : ∃ sgn : ℕ → Bool, ∀ ℓ, sgn ℓ = decide (2 ^ ℓ ≤ ((all ℓ).filter (on ℓ)).card) := ⟨_, fun _ => rfl⟩
  refine ⟨Idpf.flips _ (Poplar1.twinValue beta sgn), fun level hl hl16 =>
    ⟨(all level).filter fun p => on level p ↔ sgn level = true, fun p hp => (hall level).2 p (Finset.mem_filter.1 hp).1, ?_, ?_⟩⟩
  · have h2 := Finset.card_filter_add_card_filter_not (s := all level) (on level)
    rw [(hall level).1, pow_succ] at h2
    by_cases h : 2 ^ level ≤ ((all level).filter (on level)).card
    · simp [hsgn, h]
    · simp only [hsgn, h, decide_false, Bool.false_eq_true, iff_false]
      omega
  · intro p hp vk hvk
    obtain ⟨hp, hon'⟩ := Finset.mem_filter.1 hp
    have hlen := (hall level).2 p hp
    have hsg : ∀ r, Idpf.root (⟨2, bits⟩ : Idpf) prims fuel ctx nonce key p level = .ok r → r.1 = sgn level := by
      intro r hr
      rw [Bool.eq_iff_iff, ← hon', hon]
      exact ⟨fun h => ⟨r, hr, h⟩, fun ⟨r', hr', h⟩ => by rw [hr] at hr'; cases hr'; exact h⟩
    rcases Poplar1.twin_verify (P := ⟨⟨2, bits⟩⟩) hf hctx rfl H hk sgn hl hl16 hlen hsg hvk with h | h
    · exact .inr h
    · left
      unfold Spec.CountsFor
      rw [hlen]
      exact h

/-- C82, the claim is false: in particular, the report counts for two different measurements. -/
theorem C82_two_measurements {bits : ℕ} {P : Poplar1} (hP : Poplar1.init bits = .ok P) (h2 : 2 ≤ bits) (h16 : bits ≤ 2 ^ 16)
    (hf : fuel < 2 ^ 120) {ctx nonce rand : Bytes} (hctx : ctx.length + 8 < 2 ^ 16) (hn : nonce.length = 16)
    (hr : rand.length = 128) {alpha : List Bool} (ha : alpha.length = bits) {pub : List CorrectionWord}
    {s0 s1 : Poplar1InputShare} (hs : P.shard prims fuel ctx alpha nonce rand = .ok (pub, [s0, s1])) {key : Bytes}
    (hk : key.length = 16) :
    ∃ pub' p q, p ≠ q ∧ p.length = bits ∧ q.length = bits ∧ ∀ x ∈ [p, q], ∀ verifyKey : Bytes, verifyKey.length = 32 →
        Spec.CountsFor P prims fuel verifyKey ctx nonce pub' { s0 with key := key } { s1 with key := key } x ∨
        Spec.poplar1Verify P prims fuel verifyKey ctx (bits - 1, [x]) nonce pub' { s0 with key := key } { s1 with key := key } =
          .error .fuel := by
  obtain ⟨pub', h⟩ := C82_many_prefixes hP hf hctx hn hr ha hs hk
  obtain ⟨S, h3, h4, h5⟩ := h (bits - 1) (by omega) (by omega)
  have : 2 ^ 1 ≤ 2 ^ (bits - 1) := Nat.pow_le_pow_right (by decide) (by omega)
  obtain ⟨p, hp, q, hq, hne⟩ := Finset.one_lt_card.1 (show 1 < S.card by omega)
  have := h3 p hp
  have := h3 q hq
  exact ⟨pub', p, q, hne, by omega, by omega, by simpa using ⟨h5 p hp, h5 q hq⟩⟩

-- the hypotheses are met, and the same report counts for two measurements at the last level
example : (do
    let P ← Poplar1.init 2
    let nonce := List.replicate 16 3
    let (pub, ish) ← P.shard toyPrims 40 [1] [true, false] nonce (List.replicate 128 7)
    let s0 ← getI ish 0
    let s1 ← getI ish 1
    -- the value that the honest Client programmed at the last level
    let v0 ← P.idpf.eval toyPrims 40 0 pub s0.key 1 [[true, false]] [1] nonce
    let v1 ← P.idpf.eval toyPrims 40 1 pub s1.key 1 [[true, false]] [1] nonce
    let v ← vecAdd v0.flatten v1.flatten
    let key := List.replicate 16 5
    let pub' : List CorrectionWord := [Idpf.flip ⟨.inner, [1, 1]⟩, Idpf.flip ⟨_, v⟩]
    let count := fun p => do
      let (o0, o1) ← Spec.poplar1Verify P toyPrims 40 (List.replicate 32 1) [1] (1, [p]) nonce pub' { s0 with key := key }
        { s1 with key := key }
      (P.vdaf toyPrims 40).unshard (1, [p]) [o0, o1] 1
    return [[false, false], [false, true], [true, false], [true, true]].map fun p => (count p).toOption) =
    .ok [some [1], none, some [1], none] := by
  decide +kernel

/-- C82, what is true: whatever the report, for all but a fraction `2 / |F|` of the verification randomness, an aggregation
parameter counts it at most once; and the aggregation parameters which are allowed together have distinct levels, and their
prefixes extend each other.  Missing: that the prefixes which are counted at different levels, or that would be counted for
other aggregation parameters, belong to one measurement; by `C82_many_prefixes` they need not. -/
theorem C82_once_per_level_partial (P : Poplar1) (ctx nonce : Bytes) (pub : List CorrectionWord) (s0 s1 : Poplar1InputShare) :
    ∃ Bad : (a : Poplar1AggParam) → Set (Fin a.2.length → Fk (P.idpf.currentField a.1)),
      (∀ a, (Bad a).ncard ≤ 2 * PyField.modulus (Fk (P.idpf.currentField a.1)) ^ (a.2.length - 1)) ∧
      ∀ hist, Spec.Guarded (P.vdaf prims fuel).isValid hist →
        (hist.Pairwise fun a b => a.1 < b.1 ∧ ∀ p ∈ b.2, ∃ q ∈ a.2, q <+: p) ∧
        ∀ a ∈ hist, a.2.Nodup ∧ ∀ verifyKey out0 out1,
          Spec.Poplar1Succeeds P prims fuel verifyKey ctx a nonce pub s0 s1 out0 out1 →
          ∃ (u0 u1 u : List (Fk (P.idpf.currentField a.1))) (r : Fin a.2.length → Fk (P.idpf.currentField a.1)),
            out0 = ⟨_, u0⟩ ∧ out1 = ⟨_, u1⟩ ∧ Spec.IsSum ![u0, u1] u ∧ u.length = a.2.length ∧
            Spec.poplar1VerifyRand P prims fuel verifyKey ctx nonce a.1 a.2.length = .ok (List.ofFn r) ∧
            (Spec.ZeroOrUnit u ∨ r ∈ Bad a) := by
  have h := fun a : Poplar1AggParam => C34_sketch_soundness prims fuel P a.1 a.2 ctx nonce pub s0 s1
  choose Bad h1 h2 using h
  refine ⟨Bad, h1, fun hist hg => ⟨?_, fun a ha => ⟨C35_prefixes_nodup hist hg a ha, h2 a⟩⟩⟩
  have e1 := C35_levels_increase hist hg
  have e2 := C35_prefixes_extend hist hg
  exact (e1.and e2).imp fun h => ⟨h.1, fun p hp => (h.2 p hp).2⟩

end

end Vdaf
