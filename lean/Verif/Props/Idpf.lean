import Verif.Proofs.Idpf
import Verif.Proofs.Bits
import Verif.Spec.Idpf
import Verif.Props.Xof

/-! # The IDPF: properties C31, C32 and C38 -/

namespace Vdaf
open Idpf

/-! ## C31 -/

/-- C31: for every `alpha`, every programmed values, every nonce, randomness and context (shorter than
`2^16 - 8` bytes), key generation returns a public share and two keys, such that for every level and every list
of distinct prefixes of that level, the outputs of the two Aggregators sum to the point function, at
each prefix.  The only other outcome is that the sampler of `next_vec` runs out of fuel. -/
theorem C31_idpf_correct (prims : Prims) {fuel : ℕ} (hf : fuel < 2 ^ 120) {valueLen bits : ℕ} {I : Idpf}
    (hI : Idpf.init valueLen bits = .ok I) {alpha : List Bool} {betaInner : List (List Field64)}
    {betaLeaf : List Field255} {ctx nonce rand : Bytes} (halpha : alpha.length = bits)
    (hinner : betaInner.length = bits - 1) (hinner' : ∀ b ∈ betaInner, b.length = valueLen)
    (hleaf : betaLeaf.length = valueLen) (hctx : ctx.length + 8 < 2 ^ 16) (hnonce : nonce.length = 16)
    (hrand : rand.length = 32) :
    I.gen prims fuel alpha betaInner betaLeaf ctx nonce rand = .error .fuel ∨
    ∃ pub key0 key1, I.gen prims fuel alpha betaInner betaLeaf ctx nonce rand = .ok (pub, [key0, key1]) ∧
      ∀ level < bits, ∀ prefixes : List (List Bool), prefixes.Nodup →
        (∀ p ∈ prefixes, p.length = level + 1) →
        I.eval prims fuel 0 pub key0 level prefixes ctx nonce = .error .fuel ∨
        I.eval prims fuel 1 pub key1 level prefixes ctx nonce = .error .fuel ∨
        ∃ out0 out1, I.eval prims fuel 0 pub key0 level prefixes ctx nonce = .ok out0 ∧
          I.eval prims fuel 1 pub key1 level prefixes ctx nonce = .ok out1 ∧
          out0.length = prefixes.length ∧ out1.length = prefixes.length ∧
          ∀ (i : ℕ) (p : List Bool), prefixes[i]? = some p → ∃ y0 y1 y, out0[i]? = some y0 ∧ out1[i]? = some y1 ∧
            vecAdd y0 y1 = .ok y ∧
            some (y.map PyField.toNat) = Spec.point bits valueLen alpha betaInner betaLeaf p := by
  obtain ⟨rfl, hv, hb⟩ := Idpf.init_ok hI
  rcases (gen_good (I := ⟨valueLen, bits⟩) (prims := prims) hf hctx halpha hinner hinner' hleaf hrand
    hnonce).cases with ⟨⟨pub, keys⟩, hg, hk, N, hN⟩ | ⟨e, he, rfl⟩
  swap
  · exact .inl he
  dsimp only at hk hN
  subst hk
  refine .inr ⟨pub, _, _, hg, fun level hl prefixes hnd hpl => ?_⟩
  have e0 := eval_eq ⟨valueLen, bits⟩ prims fuel (aggId := 0) (by decide) pub (rand.take 16) hl hnd ctx nonce
  have e1 := eval_eq ⟨valueLen, bits⟩ prims fuel (aggId := 1) (by decide) pub (rand.drop 16) hl hnd ctx nonce
  have hgood : ∀ (aggId : ℕ) (key : Bytes), key.length = 16 → _ := fun aggId key hk =>
    (Good.mapRes (E := fun e => e = .fuel) prefixes
      (Idpf.evalPrefix ⟨valueLen, bits⟩ prims fuel aggId pub key level ctx nonce)
      (fun _ y => y.length = valueLen)
      fun p hp => evalPrefix_good (I := ⟨valueLen, bits⟩) hf hctx hN.shaped hk aggId hl (hpl p hp)).cases
  rcases hgood 0 (rand.take 16) (by simp [hrand]) with ⟨out0, h0, q0⟩ | ⟨e, he, rfl⟩
  swap
  · exact .inl (e0.trans he)
  rcases hgood 1 (rand.drop 16) (by simp [hrand]) with ⟨out1, h1, q1⟩ | ⟨e, he, rfl⟩
  swap
  · exact .inr (.inl (e1.trans he))
  refine .inr (.inr ⟨out0, out1, e0.trans h0, e1.trans h1, q0.length_eq.symm, q1.length_eq.symm, ?_⟩)
  intro i p hp
  obtain ⟨hi, rfl⟩ := List.getElem?_eq_some_iff.1 hp
  have hi0 : i < out0.length := by rw [← q0.length_eq]; exact hi
  have hi1 : i < out1.length := by rw [← q1.length_eq]; exact hi
  obtain ⟨p0, l0⟩ := q0.get hi hi0
  obtain ⟨p1, l1⟩ := q1.get hi hi1
  simp only [List.get_eq_getElem] at p0 p1 l0 l1
  refine ⟨out0[i], out1[i], List.zipWith (· + ·) out0[i] out1[i], List.getElem?_eq_getElem hi0,
    List.getElem?_eq_getElem hi1, ?_, ?_⟩
  · unfold vecAdd; rw [if_neg (by simp [l0, l1])]
  have hpi := hpl _ (List.getElem_mem hi)
  rw [evalPrefix_eq _ _ _ _ _ _ _ _ _ hpi, Except.bind_eq_ok] at p0 p1
  obtain ⟨y0, r0, hy0⟩ := p0
  obtain ⟨y1, r1, hy1⟩ := p1
  simp only [if_true, Nat.one_ne_zero, if_false, Except.ok.injEq] at hy0 hy1
  rw [← hy0] at l0 ⊢
  rw [← hy1] at l1 ⊢
  unfold Spec.point
  have hpre : prefixes[i] <+: alpha ↔ prefixes[i] = alpha.take (level + 1) := by
    rw [List.prefix_iff_eq_take, hpi]
  by_cases hon : prefixes[i] = alpha.take (level + 1)
  · rw [if_pos (hpre.2 hon)]
    obtain ⟨z0, z1, a0, a1, -, -, hz⟩ := hN.raw_on hl hpi hon
    rw [r0, Except.ok.injEq] at a0
    rw [r1, Except.ok.injEq] at a1
    rw [a0, a1, hpi, Nat.add_sub_cancel, beta_spec rfl hinner]
    exact congrArg (fun l => some (List.map PyField.toNat l)) hz
  · rw [if_neg (fun h => hon (hpre.1 h))]
    have := hN.raw_off hl hpi hon
    rw [r0, r1, Except.ok.injEq] at this
    subst this
    congr 1
    apply List.ext_getElem
    · simp [vecNeg, l0]
    · intro j h1 h2
      simp [vecNeg, toNat_zero]


/-- With a toy XOF: three levels, the values `[5, 6]`, `[7, 8]` and `[9, 10]` on the path to `101`;
the shares are not trivial. -/
def idpfRun (prims : Prims) (level : ℕ) (prefixes : List (List Bool)) :
    Res (List (List ℕ × List ℕ × List ℕ)) := do
  let I ← Idpf.init 2 3
  let (pub, keys) ← I.gen prims 9 [true, false, true] [[5, 6], [7, 8]] [9, 10] [1, 2]
    (List.replicate 16 3) (List.range 32 |>.map UInt8.ofNat)
  let key0 ← getI keys 0
  let key1 ← getI keys 1
  let out0 ← I.eval prims 9 0 pub key0 level prefixes [1, 2] (List.replicate 16 3)
  let out1 ← I.eval prims 9 1 pub key1 level prefixes [1, 2] (List.replicate 16 3)
  mapRes (fun i => do
    let y0 ← getI out0 i
    let y1 ← getI out1 i
    let y ← vecAdd y0 y1
    return (y.map PyField.toNat, y0.map PyField.toNat, y1.map PyField.toNat))
    (List.range prefixes.length)

example : (idpfRun toyPrims 1 [[true, true], [true, false]]).map (List.map Prod.fst) =
    .ok [[0, 0], [7, 8]] := by decide +kernel
example : (idpfRun toyPrims 2 [[true, false, false], [true, false, true], [false, false, true]]).map
    (List.map Prod.fst) = .ok [[0, 0], [9, 10], [0, 0]] := by decide +kernel
example : (idpfRun toyPrims 1 [[true, true], [true, false]]).map
    (fun l => l.all fun x => x.2.1 ≠ [0, 0] ∧ x.2.2 ≠ [0, 0] ∧ x.2.1 ≠ [7, 8]) = .ok true := by
  decide +kernel

/-! ## C32 -/

/-- C32: `eval` returns only if the Aggregator id, the level and the prefix lengths are in range and no
prefix is repeated; its outputs are then those of evaluating each prefix on its own. -/
theorem C32_eval_iff (prims : Prims) (fuel : ℕ) (I : Idpf) (aggId level : ℤ) (pub : List CorrectionWord)
    (key : Bytes) (prefixes : List (List Bool)) (ctx nonce : Bytes)
    (out : List (List (Fk (I.currentField level.toNat)))) :
    I.eval prims fuel aggId pub key level prefixes ctx nonce = .ok out ↔
      (aggId = 0 ∨ aggId = 1) ∧ (0 ≤ level ∧ level < I.bits) ∧ prefixes.Nodup ∧
      (∀ p ∈ prefixes, (p.length : ℤ) = level + 1) ∧
      List.Forall₂ (fun p y => I.eval prims fuel aggId pub key level [p] ctx nonce = .ok [y])
        prefixes out :=
  eval_iff prims fuel I aggId level pub key prefixes ctx nonce out

/-- C32: the exceptions for an Aggregator id or a level out of range, and for repeated prefixes. -/
theorem C32_eval_rejects (prims : Prims) (fuel : ℕ) (I : Idpf) (aggId level : ℤ) (pub : List CorrectionWord)
    (key : Bytes) (prefixes : List (List Bool)) (ctx nonce : Bytes)
    (h : (aggId ≠ 0 ∧ aggId ≠ 1) ∨ level < 0 ∨ (I.bits : ℤ) ≤ level ∨ ¬ prefixes.Nodup) :
    ∃ m, I.eval prims fuel aggId pub key level prefixes ctx nonce = .error (.value m) :=
  eval_rejects I prims fuel pub key ctx nonce h

/-- C32: whatever the lists of prefixes, the output at a prefix is the same. -/
theorem C32_prefix_independent (prims : Prims) (fuel : ℕ) (I : Idpf) (aggId level : ℤ) (pub : List CorrectionWord)
    (key : Bytes) (ps qs : List (List Bool)) (ctx nonce : Bytes)
    (out out' : List (List (Fk (I.currentField level.toNat))))
    (h : I.eval prims fuel aggId pub key level ps ctx nonce = .ok out)
    (h' : I.eval prims fuel aggId pub key level qs ctx nonce = .ok out')
    (i j : ℕ) (p : List Bool) (hi : ps[i]? = some p) (hj : qs[j]? = some p) :
    ∃ y, out[i]? = some y ∧ out'[j]? = some y := by
  obtain ⟨-, -, -, -, h⟩ := (eval_iff ..).1 h
  obtain ⟨-, -, -, -, h'⟩ := (eval_iff ..).1 h'
  obtain ⟨hi, hii⟩ := List.getElem?_eq_some_iff.1 hi
  obtain ⟨hj, hij⟩ := List.getElem?_eq_some_iff.1 hj
  have hi' : i < out.length := by rw [← h.length_eq]; exact hi
  have hj' : j < out'.length := by rw [← h'.length_eq]; exact hj
  have e := h.get hi hi'
  have e' := h'.get hj hj'
  simp only [List.get_eq_getElem, hii, hij] at e e'
  rw [e, Except.ok.injEq, List.cons.injEq] at e'
  exact ⟨out[i], List.getElem?_eq_getElem hi', by rw [List.getElem?_eq_getElem hj', e'.1]⟩

/-- C32: reordering the candidates reorders the outputs: a permuted list of candidates is accepted iff the
original is, and the pairs of candidate and output are the same. -/
theorem C32_reorder (prims : Prims) (fuel : ℕ) (I : Idpf) (aggId level : ℤ) (pub : List CorrectionWord)
    (key : Bytes) (ps qs : List (List Bool)) (ctx nonce : Bytes) (hperm : ps.Perm qs)
    (out : List (List (Fk (I.currentField level.toNat))))
    (h : I.eval prims fuel aggId pub key level ps ctx nonce = .ok out) :
    ∃ out', I.eval prims fuel aggId pub key level qs ctx nonce = .ok out' ∧
      (ps.zip out).Perm (qs.zip out') := by
  obtain ⟨h1, h2, h3, h4, h5⟩ := (eval_iff ..).1 h
  obtain ⟨out', h6, h7⟩ := forall₂_perm hperm h5
  exact ⟨out', (eval_iff ..).2 ⟨h1, h2, hperm.nodup h3, fun p hp => h4 p (hperm.mem_iff.2 hp), h6⟩, h7⟩

/-- C32: on a public share and a key of the right shape, whatever their contents, and valid arguments, `eval` raises
nothing: it returns a vector of `VALUE_LEN` elements for each prefix, unless the sampler runs out of fuel. -/
theorem C32_eval_total (prims : Prims) {fuel : ℕ} (hf : fuel < 2 ^ 120) (I : Idpf) {aggId level : ℕ}
    (haggId : aggId < 2) (hlevel : level < I.bits) {pub : List CorrectionWord} (hpub : pub.length = I.bits)
    (hcw : ∀ cw ∈ pub, cw.seedCw.length = 16 ∧ I.valueLen ≤ cw.wCw.2.length) {key : Bytes}
    (hkey : key.length = 16) {prefixes : List (List Bool)} (hnd : prefixes.Nodup)
    (hlen : ∀ p ∈ prefixes, p.length = level + 1) {ctx : Bytes} (hctx : ctx.length + 8 < 2 ^ 16)
    (nonce : Bytes) :
    I.eval prims fuel aggId pub key level prefixes ctx nonce = .error .fuel ∨
    ∃ out, I.eval prims fuel aggId pub key level prefixes ctx nonce = .ok out ∧
      out.length = prefixes.length ∧ ∀ y ∈ out, y.length = I.valueLen := by
  rw [eval_eq I prims fuel haggId pub key hlevel hnd]
  rcases (Good.mapRes (E := fun e => e = .fuel) prefixes
      (I.evalPrefix prims fuel aggId pub key level ctx nonce)
      (fun _ y => y.length = I.valueLen)
      fun p hp => evalPrefix_good hf hctx ⟨hpub, hcw⟩ hkey aggId hlevel (hlen p hp)).cases with
    ⟨out, h, q⟩ | ⟨e, he, rfl⟩
  · refine .inr ⟨out, h, q.length_eq.symm, fun y hy => ?_⟩
    obtain ⟨i, hi, rfl⟩ := List.mem_iff_getElem.1 hy
    exact (q.get (by rw [q.length_eq]; exact hi) hi).2
  · exact .inl he

/-- A public share of the right shape that no honest client would send, evaluated at two prefixes, at the
same prefixes in the other order, and at one of them alone. -/
def idpfBad (prefixes : List (List Bool)) : Res (List (List ℕ)) := do
  let pub : List CorrectionWord :=
    [⟨List.replicate 16 1, (true, true), ⟨.inner, [1]⟩⟩, ⟨List.replicate 16 2, (true, false), ⟨.leaf, [5]⟩⟩]
  let out ← (⟨1, 2⟩ : Idpf).eval toyPrims 9 1 pub (List.replicate 16 7) 1 prefixes [1] (List.replicate 16 3)
  return out.map (List.map PyField.toNat)

example : (idpfBad [[true, true], [true, false]]).map List.reverse = idpfBad [[true, false], [true, true]] ∧
    (idpfBad [[true, true], [true, false]]).map (List.take 1) = idpfBad [[true, true]] ∧
    (idpfBad [[true, true], [true, false]]).map (fun l => decide (l.length = 2 ∧ l.Nodup)) = .ok true := by
  decide +kernel
example : idpfBad [[true, true], [true, true]] = .error (.value "prefixes must be unique") := by
  decide +kernel
example : idpfBad [[true, true], [true]] = .error (.value "incorrect prefix length") := by
  decide +kernel

/-! ## C38 -/

/-- C38: packing and unpacking a non-empty list of bits returns it. -/
theorem C38_round_trip (bits : List Bool) (h : bits ≠ []) :
    ∃ b, packBits bits = .ok b ∧ unpackBits b bits.length = .ok bits :=
  unpackBits_packBits bits h

/-- C38: unpacking accepts only the packing of its result. -/
theorem C38_canonical {b : Bytes} {n : ℕ} {bits : List Bool} (h : unpackBits b n = .ok bits) :
    packBits bits = .ok b ∧ bits.length = n :=
  packBits_unpackBits h

/-- C38: the layout: bit `i` is at position `i % 8`, counted from the least significant, of byte `i / 8`, and
the other bits are zero. -/
theorem C38_layout (bits : List Bool) : ∃ b, packBits bits = .ok b ∧ b.length = (bits.length + 7) / 8 ∧
    ∀ k (hk : k < b.length), ∀ j < 8, b[k].toNat.testBit j = (bits[8 * k + j]?).getD false := by
  obtain ⟨b, h1, h2, h3⟩ := packBits_ok bits
  refine ⟨b, h1, h2, fun k hk j hj => ?_⟩
  rw [h3 k hk j]
  simp [bitAt, hj]

example : packBits [true, false, false, true, false, false, false, false, false, true] = .ok [9, 2] := by
  decide +kernel
example : unpackBits [9, 2] 10 = .ok [true, false, false, true, false, false, false, false, false, true] := by
  decide +kernel
example : (unpackBits [9, 6] 10).toOption = none ∧ (unpackBits [9, 2, 0] 10).toOption = none ∧
    (unpackBits [9] 10).toOption = none := by
  decide +kernel

end Vdaf
