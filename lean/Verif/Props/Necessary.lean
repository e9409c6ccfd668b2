import Verif.Proofs.Forge
import Verif.Proofs.Params
import Verif.Proofs.Twice
import Verif.Props.Poplar1Main

/-!
# Property C81: the requirements for secure usage are necessary

The documentation requires of applications that Clients do not learn the verification key, that a report is verified only once
(Prio3) or only once at each level (Poplar1), under one verification key, and that all the parties agree on the parameters of
the circuit.  If one of these requirements is not met:
- for every vector of field elements there is a report that the Aggregators accept and that contributes that vector
  (`C81_key_known_to_clients`), so verification guarantees nothing;
- the verifier shares of sufficiently many verifications determine the measurement (`C81_prio3_verified_again`);
- the messages of two verifications at the same level show which of the prefixes the measurement starts with
  (`C81_poplar1_level_twice`, `C81_poplar1_prefix_revealed`);
- the Aggregators accept reports made for other parameters of `SumVec` and obtain other values (`C81_parameters_not_bound`).
-/

namespace Vdaf
open Spec
section
variable {F : Type} [NttField F] {Meas Agg : Type} {prims : Prims} {fuel : ℕ}

/-- C81: a Client that knows the verification key.  The measurement share `ms 0` of the Leader is an arbitrary vector of the
right length, so the sum of the measurement shares is too; the Helpers' measurement shares are expanded from arbitrary seeds,
and `seed` and `jrs` are the joint randomness for these shares.  The Client can compute the query randomness `qrs`; if no test
point is a root of unity and no output of the circuit is dropped by a coefficient that is zero, then there is a share of the
proofs for the Leader such that all the Aggregators accept, and they obtain shares of the vector. -/
theorem C81_key_known_to_clients {P : Prio3 (XofTurboShake128 prims fuel) F Meas Agg} {fn : Spec.Fun Meas Agg}
    (I : Spec.Instance P fn) {verifyKey ctx nonce : Bytes} {qrs : List F}
    (hq : Spec.queryRands P verifyKey ctx nonce = .ok qrs)
    (hgood : ∀ i < P.proofs, ¬ Spec.BadTestPoint P.flp (Spec.piece P.flp.queryRandLen qrs i) ∧
      (1 < P.flp.evalOutputLen → (Spec.piece P.flp.queryRandLen qrs i).head? ≠ some 0))
    {ms ps : ℕ → List F} {sd : ℕ → Bytes} {bl : ℕ → Option Bytes} (h0 : (ms 0).length = P.flp.measLen)
    (hh : ∀ j, 0 < j → j < P.shares → Spec.measShare P ctx j (sd j) = .ok (ms j) ∧
      Spec.proofsShare P ctx j (sd j) = .ok (ps j))
    {seed : Option Bytes} {jrs : List F} (hj : Spec.JointRandOf P ctx nonce ms bl seed jrs) :
    ∃ ps0 pub st sh, Spec.VerifySucceeds P verifyKey ctx nonce pub
        (fun j => if j = 0 then .leader (ms 0) ps0 (bl 0) else .helper (sd j) (bl j)) st sh seed ∧
      ∀ e, Spec.IsSum (fun j : Fin P.shares => ms j) e → ∃ o, P.flp.truncate e = .ok o ∧
        Spec.IsSum (fun j : Fin P.shares => (st j).1) o :=
  Prio3.forge I hq hgood h0 hh hj

-- a report for Prio3Count that counts as 1000
example : ∃ P : Prio3 (XofTurboShake128 toyPrims 40) Field64 Int Nat, Prio3Count toyPrims 40 2 = .ok P ∧
    ∃ pub ish st sh msg, Spec.VerifySucceeds P (List.replicate 32 1) [1] (List.replicate 16 3) pub ish st sh msg ∧
      Spec.IsSum (fun j : Fin P.shares => (st j).1) [1000] := by
  refine ⟨⟨1, 2, 1, Count Field64, 5⟩, rfl, ?_⟩
  obtain ⟨ps0, pub, st, sh, h1, h2⟩ := C81_key_known_to_clients (P := ⟨1, 2, 1, Count Field64, 5⟩)
    (instance_count (prims := toyPrims) (fuel := 40) (shares := 2) rfl).1 (verifyKey := List.replicate 32 1) (ctx := [1])
    (nonce := List.replicate 16 3) (qrs := [6019290046165923472]) (by decide +kernel)
    (ms := fun j => if j = 0 then [1000 - 280554802157090836] else [280554802157090836])
    (ps := fun j => [16732830618477811950, 6156698449837705102, 14943018596778387608, 10113283468274970667,
        7257239974688173422]) (sd := fun _ => List.replicate 32 7) (bl := fun _ => none) (seed := none) (jrs := [])
    (by
      intro i hi
      obtain rfl : i = 0 := by simp only at hi; omega
      refine ⟨?_, fun h => absurd h (by decide)⟩
      rintro ⟨i, c, p, t, h1, h2, h3, h4⟩
      cases i with
      | succ i => simp [Count] at h1
      | zero =>
        obtain rfl : 1 = c := by simpa [Count] using h1
        obtain rfl : 2 = p := by
          have : wirePolyLen 1 = .ok 2 := by decide
          rw [this] at h2
          exact Except.ok.inj h2
        have h3 : some (6019290046165923472 : Field64) = some t := h3
        cases h3
        revert h4
        decide +kernel)
    rfl (by
      intro j h0 h1
      obtain rfl : j = 1 := by simp only at h1; omega
      exact ⟨by decide +kernel, by decide +kernel⟩)
    (.inl ⟨rfl, rfl, rfl⟩)
  refine ⟨pub, _, st, sh, none, h1, ?_⟩
  obtain ⟨o, ho, hs⟩ := h2 [1000] (by
    refine ⟨fun j => ?_, fun j => ?_⟩
    · fin_cases j <;> rfl
    · rw [show (∑ i : Fin 2, _) = _ from Fin.sum_univ_two _]
      cases j with
      | zero => decide +kernel
      | succ j => simp)
  have ho : (Except.ok [1000] : Res (List Field64)) = .ok o := ho
  cases ho
  exact hs

/-- C81: reports that are verified again.  Two reports (the input shares `ish` and `ish'` expand to measurement shares whose
sums are `e` and `e'`) are both accepted under `n` verification keys, for which the test points of the first proof are
distinct, and each time the sums of the verifier shares, which all the Aggregators see, are the same for both.  If `n` is at
least the length of the wire polynomials (for `Count` that is 2), then `e = e'`: what the Aggregators see determines the
measurement. -/
theorem C81_prio3_verified_again {P : Prio3 (XofTurboShake128 prims fuel) F Meas Agg} {fn : Spec.Fun Meas Agg}
    (I : Spec.Instance P fn) (hp : 0 < P.proofs) {ctx nonce : Bytes} {n : ℕ}
    (hn : ∀ c ∈ P.flp.gadgetCalls, ∃ p ≤ n, wirePolyLen c = .ok p) {verifyKey : ℕ → Bytes}
    (hpts : ∀ k < n, ∀ k' < n, k ≠ k' → ∀ q q', Spec.queryRands P (verifyKey k) ctx nonce = .ok q →
      Spec.queryRands P (verifyKey k') ctx nonce = .ok q' →
      (Spec.piece P.flp.queryRandLen q 0).getLast? ≠ (Spec.piece P.flp.queryRandLen q' 0).getLast?)
    {ish ish' : ℕ → Prio3InputShare F} {ms ps ms' ps' : ℕ → List F} {bl bl' : ℕ → Option Bytes}
    (hexp : ∀ j < P.shares, Spec.Expands P ctx j (ish j) (ms j) (ps j) (bl j))
    (hexp' : ∀ j < P.shares, Spec.Expands P ctx j (ish' j) (ms' j) (ps' j) (bl' j))
    {pub pub' : Option (List Bytes)} {st sh st' sh' : ℕ → ℕ → List F × Option Bytes} {msg msg' : ℕ → Option Bytes}
    (h : ∀ k < n, Spec.VerifySucceeds P (verifyKey k) ctx nonce pub ish (st k) (sh k) (msg k))
    (h' : ∀ k < n, Spec.VerifySucceeds P (verifyKey k) ctx nonce pub' ish' (st' k) (sh' k) (msg' k))
    (hsame : ∀ k < n, ∀ v, Spec.IsSum (fun j : Fin P.shares => (sh k j).1) v →
      Spec.IsSum (fun j : Fin P.shares => (sh' k j).1) v) {e e' : List F}
    (he : Spec.IsSum (fun j : Fin P.shares => ms j) e) (he' : Spec.IsSum (fun j : Fin P.shares => ms' j) e') :
    e = e' :=
  Prio3.reuse I hp hn hpts hexp hexp' h h' hsame he he'

-- Prio3Count, two verification keys with different query randomness: two reports with the measurement 1 and the same
-- randomness for the proof have the same verifiers; with the measurement 0 the verifiers are different
example : (do
    let P ← Prio3Count toyPrims 40 2
    let nonce := List.replicate 16 3
    let q1 ← Spec.queryRands P (List.replicate 32 1) [1] nonce
    let q2 ← Spec.queryRands P (List.replicate 32 2) [1] nonce
    let verifier (key : UInt8) (m : Int) (seed : UInt8) : Res (List Field64) := do
      let (pub, ish) ← P.shard [1] m nonce (List.replicate 32 seed ++ List.replicate 32 9)
      let i0 ← getI ish 0
      let i1 ← getI ish 1
      let (s0, v0) ← P.verifyInit (List.replicate 32 key) [1] 0 () nonce pub i0
      let (s1, v1) ← P.verifyInit (List.replicate 32 key) [1] 1 () nonce pub i1
      let msg ← P.sharesToMessage [1] () [v0, v1]
      let _ ← Prio3.verifyNext (F := Field64) [1] s0 msg
      let _ ← Prio3.verifyNext (F := Field64) [1] s1 msg
      vecAdd v0.1 v1.1
    let a1 ← verifier 1 1 7
    let a2 ← verifier 2 1 7
    let b1 ← verifier 1 1 8
    let b2 ← verifier 2 1 8
    let c1 ← verifier 1 0 7
    let c2 ← verifier 2 0 7
    return decide (P.flp.gadgetCalls = [1] ∧ q1 ≠ q2 ∧ a1 = b1 ∧ a2 = b2 ∧ (a1, a2) ≠ (c1, c2))) = .ok true := by
  decide +kernel

/-- C81: circuit parameters are not bound.  `P1` and `P2` are instances of Prio3 with `SumVec` for other lengths `l1` and `l2`
and other bounds `m1` and `m2`, such that encoded measurements have the same length.  Every report that is accepted by
Aggregators that use `P1` is accepted by Aggregators that use `P2`: they exchange the same messages, and decode the measurement
shares with the parameters of `P2`. -/
theorem C81_parameters_not_bound {id shares proofs l1 m1 l2 m2 cl : ℕ} {V1 V2 : Valid F (List Int) (List ℕ)}
    {P1 P2 : Prio3 (XofTurboShake128 prims fuel) F (List Int) (List ℕ)} (h1 : SumVec F l1 m1 cl = .ok V1)
    (h2 : SumVec F l2 m2 cl = .ok V2) (h : l1 * Nat.size m1 = l2 * Nat.size m2)
    (hP1 : Prio3.init id _ shares V1 proofs = .ok P1) (hP2 : Prio3.init id _ shares V2 proofs = .ok P2)
    (I : Spec.Instance P1 (Spec.sumVecFun l1 m1)) (hp : 0 < proofs)
    {verifyKey ctx nonce : Bytes} {pub : Option (List Bytes)} {ish : ℕ → Prio3InputShare F}
    {st sh : ℕ → List F × Option Bytes} {msg : Option Bytes}
    (hv : Spec.VerifySucceeds P1 verifyKey ctx nonce pub ish st sh msg) :
    ∃ st', Spec.VerifySucceeds P2 verifyKey ctx nonce pub ish st' sh msg ∧
      ∀ j < shares, ∀ ms ps bl, Spec.Expands P1 ctx j (ish j) ms ps bl → V2.truncate ms = .ok (st' j).1 :=
  Prio3.params h1 h2 h hP1 hP2 I hp hv

-- the Client has two measurements with the bound 1, the Aggregators expect one with the bound 3: [0, 1] is taken for [2]
example : (do
    let P1 ← Prio3SumVec toyPrims 40 2 2 1 2
    let P2 ← Prio3SumVec toyPrims 40 2 1 3 2
    let nonce := List.replicate 16 3
    let (pub, ish) ← P1.shard [1] [0, 1] nonce (List.replicate P1.randSize 7)
    let i0 ← getI ish 0
    let i1 ← getI ish 1
    let (s0, v0) ← P2.verifyInit (List.replicate 32 1) [1] 0 () nonce pub i0
    let (s1, v1) ← P2.verifyInit (List.replicate 32 1) [1] 1 () nonce pub i1
    let msg ← P2.sharesToMessage [1] () [v0, v1]
    let _ ← Prio3.verifyNext (F := Field128) [1] s0 msg
    let _ ← Prio3.verifyNext (F := Field128) [1] s1 msg
    vecAdd s0.1 s1.1) = .ok [2] := by decide +kernel

end

section
variable {prims : Prims} {fuel : ℕ}

/-- The element of the verification randomness that belongs to the prefix which the measurement starts with, and 0 if none of
the prefixes is one -/
def Spec.matching {F : Type} [Zero F] (prefixes : List (List Bool)) (rand : List F) (start : List Bool) : F :=
  ((prefixes.zip rand).lookup start).getD 0

/-- C81: Poplar1, two verifications at the same level, with other verification keys or other prefixes.  `x` and `x'` are the
first elements of the verifier messages of the first round, which both the Aggregators see. -/
theorem C81_poplar1_level_twice {bits : ℕ} {P : Poplar1} (hP : Poplar1.init bits = .ok P) (hf : fuel < 2 ^ 120)
    {ctx nonce rand : Bytes} (hctx : ctx.length + 8 < 2 ^ 16) (hn : nonce.length = 16) (hr : rand.length = 128)
    {alpha : List Bool} (ha : alpha.length = bits) {pub : List CorrectionWord} {s0 s1 : Poplar1InputShare}
    (hs : P.shard prims fuel ctx alpha nonce rand = .ok (pub, [s0, s1])) {level : ℕ} (hl : level < bits)
    {verifyKey verifyKey' : Bytes} {prefixes prefixes' : List (List Bool)} (hnd : prefixes.Nodup) (hnd' : prefixes'.Nodup)
    (hlen : ∀ p ∈ prefixes, p.length = level + 1) (hlen' : ∀ p ∈ prefixes', p.length = level + 1)
    {r r' z z' : List (Fk (P.idpf.currentField level))} {x x' : Fk (P.idpf.currentField level)}
    (hrand : Spec.poplar1VerifyRand P prims fuel verifyKey ctx nonce level prefixes.length = .ok r)
    (hrand' : Spec.poplar1VerifyRand P prims fuel verifyKey' ctx nonce level prefixes'.length = .ok r')
    {st0 st1 st0' st1' : Poplar1VerifyState} {sh0 sh1 sh0' sh1' : FieldVec}
    (h0 : P.verifyInit prims fuel verifyKey ctx 0 (level, prefixes) nonce pub s0 = .ok (st0, sh0))
    (h1 : P.verifyInit prims fuel verifyKey ctx 1 (level, prefixes) nonce pub s1 = .ok (st1, sh1))
    (hm : Poplar1.sharesToMessage ctx (level, prefixes) [sh0, sh1] = .ok (some ⟨_, x :: z⟩))
    (h0' : P.verifyInit prims fuel verifyKey' ctx 0 (level, prefixes') nonce pub s0 = .ok (st0', sh0'))
    (h1' : P.verifyInit prims fuel verifyKey' ctx 1 (level, prefixes') nonce pub s1 = .ok (st1', sh1'))
    (hm' : Poplar1.sharesToMessage ctx (level, prefixes') [sh0', sh1'] = .ok (some ⟨_, x' :: z'⟩)) :
    x - x' = Spec.matching prefixes r (alpha.take (level + 1)) - Spec.matching prefixes' r' (alpha.take (level + 1)) := by
  obtain ⟨rfl, hb⟩ := Poplar1.init_ok hP
  obtain ⟨a, h⟩ := Poplar1.first_message hf hb rfl hctx ha hn hr hs hl
  have e := h _ _ _ _ _ _ _ _ hnd hlen hrand h0 h1 hm
  have e' := h _ _ _ _ _ _ _ _ hnd' hlen' hrand' h0' h1' hm'
  have e : x = _ := e
  have e' : x' = _ := e'
  rw [e, e', add_sub_add_left_eq_sub]
  rfl

/-- C81: if the differences of the verification randomness for the two verification keys are distinct and not zero, then the
difference of the messages shows, for each prefix, whether the measurement starts with it. -/
theorem C81_poplar1_prefix_revealed {bits : ℕ} {P : Poplar1} (hP : Poplar1.init bits = .ok P) (hf : fuel < 2 ^ 120)
    {ctx nonce rand : Bytes} (hctx : ctx.length + 8 < 2 ^ 16) (hn : nonce.length = 16) (hr : rand.length = 128)
    {alpha : List Bool} (ha : alpha.length = bits) {pub : List CorrectionWord} {s0 s1 : Poplar1InputShare}
    (hs : P.shard prims fuel ctx alpha nonce rand = .ok (pub, [s0, s1])) {level : ℕ} (hl : level < bits)
    {verifyKey verifyKey' : Bytes} {prefixes : List (List Bool)} (hnd : prefixes.Nodup)
    (hlen : ∀ p ∈ prefixes, p.length = level + 1)
    {r r' : Fin prefixes.length → Fk (P.idpf.currentField level)} {z z' : List (Fk (P.idpf.currentField level))}
    {x x' : Fk (P.idpf.currentField level)}
    (hrand : Spec.poplar1VerifyRand P prims fuel verifyKey ctx nonce level prefixes.length = .ok (List.ofFn r))
    (hrand' : Spec.poplar1VerifyRand P prims fuel verifyKey' ctx nonce level prefixes.length = .ok (List.ofFn r'))
    (hdist : Function.Injective fun i => r i - r' i) (hzero : ∀ i, r i - r' i ≠ 0)
    {st0 st1 st0' st1' : Poplar1VerifyState} {sh0 sh1 sh0' sh1' : FieldVec}
    (h0 : P.verifyInit prims fuel verifyKey ctx 0 (level, prefixes) nonce pub s0 = .ok (st0, sh0))
    (h1 : P.verifyInit prims fuel verifyKey ctx 1 (level, prefixes) nonce pub s1 = .ok (st1, sh1))
    (hm : Poplar1.sharesToMessage ctx (level, prefixes) [sh0, sh1] = .ok (some ⟨_, x :: z⟩))
    (h0' : P.verifyInit prims fuel verifyKey' ctx 0 (level, prefixes) nonce pub s0 = .ok (st0', sh0'))
    (h1' : P.verifyInit prims fuel verifyKey' ctx 1 (level, prefixes) nonce pub s1 = .ok (st1', sh1'))
    (hm' : Poplar1.sharesToMessage ctx (level, prefixes) [sh0', sh1'] = .ok (some ⟨_, x' :: z'⟩))
    (i : Fin prefixes.length) : prefixes[i] <+: alpha ↔ x - x' = r i - r' i := by
  have e := C81_poplar1_level_twice hP hf hctx hn hr ha hs hl hnd hnd hlen hlen hrand hrand' h0 h1 hm h0' h1' hm'
  have hpre : ∀ j : Fin prefixes.length, prefixes[j] <+: alpha ↔ alpha.take (level + 1) = prefixes[j] := by
    intro j
    rw [List.prefix_iff_eq_take, hlen prefixes[j] (List.getElem_mem j.2)]
    exact eq_comm
  have hlook : ∀ (f : Fin prefixes.length → Fk (P.idpf.currentField level)) (j : Fin prefixes.length),
      Spec.matching prefixes (List.ofFn f) prefixes[j] = f j := by
    intro f j
    unfold Spec.matching
    rw [← Poplar1.sum_lookup _ _ _ hnd (by simp), Finset.sum_eq_single_of_mem j.1 (Finset.mem_range.2 j.2)]
    · simp [coef]
    · intro k hk hne
      have hk := Finset.mem_range.1 hk
      rw [if_neg, zero_mul]
      rw [List.getElem?_eq_getElem hk]
      intro h
      exact hne ((List.Nodup.getElem_inj_iff hnd).1 (Option.some.inj h))
  rw [hpre]
  constructor
  · intro h
    rw [e, h, hlook, hlook]
  · intro h
    by_cases hin : alpha.take (level + 1) ∈ prefixes
    · obtain ⟨k, hk, hk'⟩ := List.mem_iff_getElem.1 hin
      rw [← hk', show prefixes[k] = prefixes[(⟨k, hk⟩ : Fin prefixes.length)] from rfl, hlook, hlook] at e
      have := hdist (e.symm.trans h)
      rw [← hk', ← this]
      rfl
    · have hz : ∀ f : Fin prefixes.length → Fk (P.idpf.currentField level),
          Spec.matching prefixes (List.ofFn f) (alpha.take (level + 1)) = 0 := by
        intro f
        unfold Spec.matching
        rw [← Poplar1.sum_lookup _ _ _ hnd (by simp)]
        refine Finset.sum_eq_zero fun k hk => ?_
        have hk := Finset.mem_range.1 hk
        rw [if_neg, zero_mul]
        rw [List.getElem?_eq_getElem hk]
        intro h
        exact hin ((Option.some.inj h) ▸ List.getElem_mem hk)
      rw [hz, hz, sub_zero] at e
      exact absurd (h.symm.trans e) (hzero i)

-- the measurement 10 and the prefixes 0 and 1: the difference of the messages is that of the randomness for the prefix 1
example : (do
    let P ← Poplar1.init 2
    let nonce := List.replicate 16 3
    let (pub, ish) ← P.shard toyPrims 40 [1] [true, false] nonce (List.replicate 128 7)
    let s0 ← getI ish 0
    let s1 ← getI ish 1
    let first (key : UInt8) : Res (List Nat × List Nat) := do
      let r ← Spec.poplar1VerifyRand P toyPrims 40 (List.replicate 32 key) [1] nonce 0 2
      let (_, sh0) ← P.verifyInit toyPrims 40 (List.replicate 32 key) [1] 0 (0, [[false], [true]]) nonce pub s0
      let (_, sh1) ← P.verifyInit toyPrims 40 (List.replicate 32 key) [1] 1 (0, [[false], [true]]) nonce pub s1
      let m ← Poplar1.sharesToMessage [1] (0, [[false], [true]]) [sh0, sh1]
      return (r.map PyField.toNat, (m.map fun v : FieldVec => v.2.map PyField.toNat).getD [])
    let (r, m) ← first 1
    let (r', m') ← first 2
    let d (a b : Nat) : Nat := (a + PyField.modulus Field64 - b) % PyField.modulus Field64
    return (m.length, m'.length, decide (d (m.getD 0 0) (m'.getD 0 0) = d (r.getD 0 0) (r'.getD 0 0)),
      decide (d (m.getD 0 0) (m'.getD 0 0) = d (r.getD 1 0) (r'.getD 1 0)),
      decide (d (r.getD 0 0) (r'.getD 0 0) = 0))) =
    .ok (3, 3, false, true, false) := by decide +kernel

end
end Vdaf
