import Verif.Proofs.Derive
import Verif.Props.Poplar1Main
import Verif.Props.Xof

/-! # Where the values of the IDPF and of Poplar1 come from, and what Poplar1's verification reveals: properties
C56 and C57 -/

namespace Vdaf
open Spec

/-! ## C56 -/

/-- C56: both children of a node come from the first 32 bytes of the node's stream (usage 0): 16 bytes each, the
lowest bit of the first byte being the control bit. -/
theorem C56_extend (prims : Prims) (fuel : ℕ) (I : Idpf) (level : ℕ) {seed ctx : Bytes} (nonce : Bytes)
    (hs : seed.length = 16) (hc : ctx.length + 8 < 2 ^ 16) :
    let s := idpfStream prims I.bits level 0 seed ctx nonce
    I.extend prims fuel level seed ctx nonce =
      .ok ((clearBit (bytesAt s 0 16), clearBit (bytesAt s 16 16)),
        (lowBit (bytesAt s 0 16), lowBit (bytesAt s 16 16))) := Idpf.extend_eq level nonce hs hc

/-- C56: the seed of a child is the first 16 bytes of another stream (usage 1), and its value is sampled from the
bytes that follow. -/
theorem C56_convert (prims : Prims) {fuel : ℕ} (hf : fuel < 2 ^ 120) (I : Idpf) (level : ℕ) {seed ctx : Bytes}
    (nonce : Bytes) (hs : seed.length = 16) (hc : ctx.length + 8 < 2 ^ 16) {next : Bytes}
    {w : List (Fk (I.currentField level))} (h : I.convert prims fuel level seed ctx nonce = .ok (next, w)) :
    next = bytesAt (idpfStream prims I.bits level 1 seed ctx nonce) 0 16 ∧ w.length = I.valueLen ∧
      ∃ pos', Samples (Fk (I.currentField level)) (idpfStream prims I.bits level 1 seed ctx nonce) 16 w pos' :=
  Idpf.convert_eq hf level nonce hs hc h

/- Non-vacuity: a seed is extended; the streams of the inner and of the last level, and of the two usages differ. -/
example : (Idpf.extend ⟨2, 2⟩ toyPrims 9 0 (List.replicate 16 5) [1] (List.replicate 16 3)).toOption ≠ none ∧
    (Idpf.extend ⟨2, 2⟩ toyPrims 9 0 (List.replicate 16 5) [1] (List.replicate 16 3)).toOption ≠
      (Idpf.extend ⟨2, 2⟩ toyPrims 9 1 (List.replicate 16 5) [1] (List.replicate 16 3)).toOption ∧
    bytesAt (idpfStream toyPrims 2 1 0 (List.replicate 16 5) [1] (List.replicate 16 3)) 0 4 ≠
      bytesAt (idpfStream toyPrims 2 1 1 (List.replicate 16 5) [1] (List.replicate 16 3)) 0 4 := by
  decide +kernel
example : (Idpf.convert ⟨2, 2⟩ toyPrims 9 0 (List.replicate 16 5) [1] (List.replicate 16 3)).toOption.isSome = true ∧
    (Idpf.convert ⟨2, 2⟩ toyPrims 9 1 (List.replicate 16 5) [1] (List.replicate 16 3)).toOption.isSome = true := by
  decide +kernel

/-- C56: `eval` returns, for each of the prefixes, the Aggregator's share of the value at the node of its tree. -/
theorem C56_eval (prims : Prims) {fuel : ℕ} (hf : fuel < 2 ^ 120) (I : Idpf) {j level : ℕ} {pub : List CorrectionWord}
    {key ctx nonce : Bytes} {prefixes : List (List Bool)} (hc : ctx.length + 8 < 2 ^ 16) (hk : key.length = 16)
    (hp : ∀ cw ∈ pub, cw.seedCw.length = 16) {value : List (List (Fk (I.currentField level)))}
    (h : I.eval prims fuel j pub key level prefixes ctx nonce = .ok value) :
    List.Forall₂ (fun p y => NodeValue prims I.bits I.valueLen ctx nonce pub key j p _ y) prefixes value := by
  unfold Idpf.eval at h
  simp only [Except.bind_eq_ok] at h
  obtain ⟨_, h1, _, -, _, -, h⟩ := h
  rw [raiseIf_eq_ok, decide_eq_false_iff_not, not_not] at h1
  have hj : j < 2 := by
    have := h1.2
    simp only [Idpf.SHARES] at this
    omega
  rw [mapRes_ok_iff] at h
  exact h.imp fun p y e => Idpf.eval_node hf hc hk hp hj e

/-- C56: the nodes and the values are determined by the key, the public share, the context and the nonce. -/
theorem C56_node_unique (prims : Prims) (bits : ℕ) (ctx nonce : Bytes) (pub : List CorrectionWord) (key : Bytes) (j : ℕ)
    {p : List Bool} {seed seed' : Bytes} {ctrl ctrl' : Bool} (h : Node prims bits ctx nonce pub key j p seed ctrl)
    (h' : Node prims bits ctx nonce pub key j p seed' ctrl') : seed = seed' ∧ ctrl = ctrl' := by
  induction h generalizing seed' ctrl' with
  | root =>
    generalize hp : ([] : List Bool) = p at h'
    cases h' with
    | root => exact ⟨rfl, rfl⟩
    | child => simp at hp
  | child p seed ctrl bit cw hn hcw ih =>
    generalize hq : p ++ [bit] = q at h'
    cases h' with
    | root => simp at hq
    | child p' seed' ctrl' bit' cw' hn' hcw' =>
      obtain ⟨rfl, hb⟩ := List.append_inj' hq rfl
      simp only [List.cons.injEq, and_true] at hb
      subst hb
      obtain ⟨rfl, rfl⟩ := ih hn'
      rw [hcw] at hcw'
      cases hcw'
      exact ⟨rfl, rfl⟩

theorem C56_value_unique (prims : Prims) (bits valueLen : ℕ) (ctx nonce : Bytes) (pub : List CorrectionWord)
    (key : Bytes) (j : ℕ) {p : List Bool} {κ : Kind} {y y' : List (Fk κ)}
    (h : NodeValue prims bits valueLen ctx nonce pub key j p κ y)
    (h' : NodeValue prims bits valueLen ctx nonce pub key j p κ y') : y = y' := by
  obtain ⟨q, seed, ctrl, bit, cw, w, rfl, hn, hcw, ⟨hw, pos, hs⟩, rfl⟩ := h
  obtain ⟨q', seed', ctrl', bit', cw', w', hq, hn', hcw', ⟨hw', pos', hs'⟩, rfl⟩ := h'
  obtain ⟨rfl, hb⟩ := List.append_inj' hq rfl
  simp only [List.cons.injEq, and_true] at hb
  subst hb
  obtain ⟨rfl, rfl⟩ := C56_node_unique _ _ _ _ _ _ _ hn hn'
  rw [hcw] at hcw'
  cases hcw'
  obtain ⟨rfl, -⟩ := Samples.unique hs hs' (hw.trans hw'.symm)
  rfl

/-- C56: `gen` splits `rand` into the two keys, and the correction word of each level is computed from the two nodes
on the path to `alpha`: it makes the two children off the path equal, makes the control bits on the path differ and
programs the value. -/
theorem C56_gen (prims : Prims) {fuel : ℕ} (hf : fuel < 2 ^ 120) (I : Idpf) {alpha : List Bool}
    {betaInner : List (List Field64)} {betaLeaf : List Field255} {ctx nonce rand : Bytes}
    (hc : ctx.length + 8 < 2 ^ 16) (hib : ∀ x ∈ betaInner, x.length = I.valueLen)
    (hl : betaLeaf.length = I.valueLen) {pub : List CorrectionWord} {keys : List Bytes}
    (h : I.gen prims fuel alpha betaInner betaLeaf ctx nonce rand = .ok (pub, keys)) :
    ∃ key0 key1, key0.length = 16 ∧ key1.length = 16 ∧ rand = key0 ++ key1 ∧ keys = [key0, key1] ∧
    pub.length = I.bits ∧ alpha.length = I.bits ∧
    ∀ level < I.bits, ∃ bit cw seed0 ctrl0 seed1 ctrl1 b w0 w1,
      alpha[level]? = some bit ∧ pub[level]? = some cw ∧
      Node prims I.bits ctx nonce pub key0 0 (alpha.take level) seed0 ctrl0 ∧
      Node prims I.bits ctx nonce pub key1 1 (alpha.take level) seed1 ctrl1 ∧
      betaOf betaInner betaLeaf level (I.currentField level) = some b ∧
      RawValue prims I.bits I.valueLen ctx nonce level seed0 ctrl0 bit cw _ w0 ∧
      RawValue prims I.bits I.valueLen ctx nonce level seed1 ctrl1 bit cw _ w1 ∧
      (let s0 := idpfStream prims I.bits level 0 seed0 ctx nonce
       let s1 := idpfStream prims I.bits level 0 seed1 ctx nonce
       let lose := if bit then 0 else 16
       cw.seedCw = List.zipWith (· ^^^ ·) (clearBit (bytesAt s0 lose 16)) (clearBit (bytesAt s1 lose 16)) ∧
       cw.ctrlCw = ((lowBit (bytesAt s0 0 16) != lowBit (bytesAt s1 0 16)) != !bit,
         (lowBit (bytesAt s0 16 16) != lowBit (bytesAt s1 16 16)) != bit)) ∧
      (let w := List.zipWith (· + ·) (List.zipWith (· - ·) b w0) w1
       cw.wCw = ⟨I.currentField level, if childCtrl prims I.bits ctx nonce level seed1 ctrl1 bit cw then
         w.map fun x => -x else w⟩) := by
  have hlen : alpha.length = I.bits ∧ betaInner.length = I.bits - 1 ∧ rand.length = 32 ∧ nonce.length = 16 := by
    unfold Idpf.gen at h
    simp only [Except.bind_eq_ok] at h
    obtain ⟨_, h1, _, h2, _, h3, _, h4, -⟩ := h
    rw [raiseIf_eq_ok, decide_eq_false_iff_not, not_not] at h1 h2 h3 h4
    exact ⟨h1, h2, h3, h4⟩
  obtain ⟨ha, hi, hr, hn⟩ := hlen
  obtain ⟨hkeys, N, hN⟩ := (Idpf.gen_good (prims := prims) hf hc ha hi hib hl hr hn).elim h
  have l0 : (rand.take 16).length = 16 := by simp [hr]
  have l1 : (rand.drop 16).length = 16 := by simp [hr]
  refine ⟨rand.take 16, rand.drop 16, l0, l1, (List.take_append_drop _ _).symm, hkeys, hN.len, ha, fun level hlv => ?_⟩
  obtain ⟨n0, n1, N0, N1⟩ := hN.spec hf hc l0 l1 level hlv.le ha.ge
  obtain ⟨bit, cw, hbit, hcw, hs⟩ := hN.step level hlv
  obtain ⟨s0, t0, s1, t1, w0, w1, w, h1, h2, h3, h4, h5, h6, h7, h8, h9, h10, h11, h12, h13, h14,
    h15, h16, h17, h18⟩ := hs.ex
  have lcw : cw.seedCw.length = 16 := by
    rw [h7, xor_length, Idpf.pick_length h3 h4, Idpf.pick_length h5 h6]; rfl
  rw [Idpf.child_spec n0 hc _ _ _ h1] at h10 h12
  rw [Idpf.child_spec n1 hc _ _ _ h2] at h11 h13
  obtain ⟨-, r0⟩ := Idpf.convert_eq hf level nonce (Idpf.childSeed_length lcw) hc h10
  obtain ⟨-, r1⟩ := Idpf.convert_eq hf level nonce (Idpf.childSeed_length lcw) hc h11
  have e0 := (Idpf.extend_eq level nonce n0 hc).symm.trans h1
  have e1 := (Idpf.extend_eq level nonce n1 hc).symm.trans h2
  have e0' := Except.ok.inj e0
  have e1' := Except.ok.inj e1
  rw [Prod.mk.injEq] at e0' e1'
  rw [← e0'.1, ← e1'.1] at h7
  rw [← e0'.2, ← e1'.2] at h8
  refine ⟨bit, cw, _, _, _, _, Idpf.betaFun betaInner betaLeaf level _, w0, w1, hbit, hcw, N0, N1, ?_, r0, r1, ⟨?_, ?_⟩, ?_⟩
  · by_cases hlb : level < I.bits - 1
    · rw [Idpf.currentField_inner hlb]
      show betaInner[level]? = some (betaInner.getD level [])
      rw [List.getD_eq_getElem?_getD, List.getElem?_eq_getElem (by omega)]; rfl
    · rw [Idpf.currentField_leaf hlb]; rfl
  · rw [h7]
    cases bit <;> rfl
  · rw [h8]
  · dsimp only at h13 ⊢
    rw [h9, h13]
    congr 1
    refine List.ext_getElem ?_ ?_
    · rw [h17]; split <;> simp [h14, h15, h16]
    · generalize (N (level + 1)).2.2 = c at h18
      intro i hi1 hi2
      have := h18 i (by omega)
      rw [List.getElem?_eq_getElem hi1, List.getElem?_eq_getElem (by omega), List.getElem?_eq_getElem (by omega),
        List.getElem?_eq_getElem (by omega)] at this
      simp only [Option.bind_eq_bind, Option.bind_some, Option.pure_def, Option.some.injEq] at this
      rw [this]
      revert hi2
      cases c <;> simp

/-- C56: what a Client of Poplar1 computes from `rand`: the two IDPF keys (16 bytes each), the two seeds of the
correlated randomness and the seed of its own randomness (32 bytes each).  From its own randomness it samples the
authenticators of the inner levels, that of the last level, and the second Aggregator's shares of the correlated
randomness of the inner levels and of the last level, in this order.  The IDPF is programmed with `(1, k)` at each
level.  At each level the shares satisfy the relation of the sketch, with respect to the triples that the Aggregators
expand from their seeds. -/
theorem C56_shard (prims : Prims) {fuel : ℕ} (hf : fuel < 2 ^ 120) {bits : ℕ} {P : Poplar1}
    (hP : Poplar1.init bits = .ok P) {ctx nonce rand : Bytes} {alpha : List Bool} {pub : List CorrectionWord}
    {shares : List Poplar1InputShare} (h : P.shard prims fuel ctx alpha nonce rand = .ok (pub, shares)) :
    ∃ key0 key1 seed0 seed1 seed2 : Bytes,
    ∃ (ks : List Field64) (kLeaf : Field255) (inner0 inner1 : List Field64) (leaf0 leaf1 : List Field255) (p1 p2 p3 p4 : ℕ),
      key0.length = 16 ∧ key1.length = 16 ∧ seed0.length = 32 ∧ seed1.length = 32 ∧ seed2.length = 32 ∧
      rand = key0 ++ key1 ++ seed0 ++ seed1 ++ seed2 ∧
      shares = [⟨key0, seed0, inner0, leaf0⟩, ⟨key1, seed1, inner1, leaf1⟩] ∧
      ks.length = bits - 1 ∧ inner0.length = 2 * (bits - 1) ∧ inner1.length = 2 * (bits - 1) ∧
      Samples Field64 (shardStream prims seed2 ctx nonce) 0 ks p1 ∧
      Samples Field255 (shardStream prims seed2 ctx nonce) p1 [kLeaf] p2 ∧
      Samples Field64 (shardStream prims seed2 ctx nonce) p2 inner1 p3 ∧
      Samples Field255 (shardStream prims seed2 ctx nonce) p3 leaf1 p4 ∧
      P.idpf.gen prims fuel alpha (ks.map fun k => [1, k]) [1, kLeaf] ctx nonce (key0 ++ key1) =
        .ok (pub, [key0, key1]) ∧
      (∀ level k, ks[level]? = some k → ∃ abc0 abc1, CorrAt prims bits seed0 ctx nonce 0 level .inner abc0 ∧
        CorrAt prims bits seed1 ctx nonce 1 level .inner abc1 ∧
        CorrRel abc0 abc1 k ((inner0.drop (2 * level)).take 2) ((inner1.drop (2 * level)).take 2)) ∧
      ∃ abc0 abc1, CorrAt prims bits seed0 ctx nonce 0 (bits - 1) .leaf abc0 ∧
        CorrAt prims bits seed1 ctx nonce 1 (bits - 1) .leaf abc1 ∧ CorrRel abc0 abc1 kLeaf leaf0 leaf1 := by
  obtain ⟨rfl, hb⟩ := Poplar1.init_ok hP
  obtain ⟨hn, hr, hc, ha⟩ := Poplar1.shard_inv h
  obtain ⟨key0, key1, seed0, seed1, seed2, tag, tagI, tagL, ks, inner0, inner1, kLeaf, leaf0, leaf1, u0, u1, w0, w1,
    hsh, L⟩ := (Poplar1.shard_layout (prims := prims) (P := ⟨⟨2, bits⟩⟩) hf hb rfl hc ha hn hr).elim h
  obtain ⟨x, x1, x2, x3, x4, f, i1, i2, i3, i4, i5⟩ := L.stream
  have := Poplar1.dst_eq L.dst
  subst this
  have := Poplar1.dst_eq L.dstI
  subst this
  have := Poplar1.dst_eq L.dstL
  subst this
  obtain ⟨-, rfl⟩ := turbo_init_ok i1
  obtain ⟨l1, p1, rfl, j1⟩ := turbo_nextVec i2
  obtain ⟨l2, p2, rfl, j2⟩ := turbo_nextVec i3
  obtain ⟨l3, p3, rfl, j3⟩ := turbo_nextVec i4
  obtain ⟨l4, p4, rfl, j4⟩ := turbo_nextVec i5
  refine ⟨key0, key1, seed0, seed1, seed2, ks, kLeaf, inner0, inner1, leaf0, leaf1, p1, p2, p3, p4, L.lkey0, L.lkey1,
    L.lseed0, L.lseed1, L.lseed2, L.rand, hsh, L.lks, L.linner0, l3, j1, j2, j3, j4, L.gen, fun level k hk => ?_, ?_⟩
  · obtain ⟨hlt, rfl⟩ := List.getElem?_eq_some_iff.1 hk
    have hlt' : level < bits - 1 := L.lks ▸ hlt
    refine ⟨_, _, Poplar1.corrAt_inner (P := ⟨⟨2, bits⟩⟩) hlt' L.ex0, Poplar1.corrAt_inner (P := ⟨⟨2, bits⟩⟩) hlt' L.ex1,
      ?_⟩
    have := L.inner level hlt'
    rw [Poplar1.slice_zipWith, coef_of_lt hlt] at this
    have hsl : ∀ {α : Type} (l : List α), slice l (2 * level) (2 * (level + 1)) = (l.drop (2 * level)).take 2 := by
      intro α l
      unfold slice
      rw [List.drop_take]
      congr 1
      omega
    have lu0 := L.lu0
    have lu1 := L.lu1
    dsimp only at lu0 lu1
    refine cast (congrArg₂ (CorrRel (F := Fk .inner) _ _ ks[level]) (hsl (α := Fk .inner) inner0)
      (hsl (α := Fk .inner) inner1)) (Poplar1.corrRel_of ?_ ?_ this)
    · rw [slice_length _ _ _ (by omega)]; omega
    · rw [slice_length _ _ _ (by omega)]; omega
  · obtain ⟨-, q0, k0⟩ := turbo_expand L.ey0
    obtain ⟨-, q1, k1⟩ := turbo_expand L.ey1
    exact ⟨w0, w1, ⟨by omega, q0, L.lw0, k0⟩, ⟨by omega, q1, L.lw1, k1⟩, Poplar1.corrRel_of L.lw0 L.lw1 L.leaf⟩

/-- C56: what an Aggregator of Poplar1 computes in `verify_init`: the first-round share is its triple of the
correlated randomness plus the sketch of the data and authenticator shares of the IDPF, and its state holds the shares
of the correlated randomness sent by the Client, its own number and the data shares. -/
theorem C56_verify_init (prims : Prims) (fuel : ℕ) {bits : ℕ} {P : Poplar1} (hP : Poplar1.init bits = .ok P)
    {verifyKey ctx nonce : Bytes} {j level : ℕ} (hj : j < 2) {prefixes : List (List Bool)} {pub : List CorrectionWord}
    {s : Poplar1InputShare} {st : Poplar1VerifyState} {sh : FieldVec}
    (h : P.verifyInit prims fuel verifyKey ctx j (level, prefixes) nonce pub s = .ok (st, sh)) :
    ∃ (ds hs r : List (Fk (P.idpf.currentField level))) (a b c A B : Fk (P.idpf.currentField level)) (pos' : ℕ),
      ds.length = prefixes.length ∧ hs.length = prefixes.length ∧ r.length = prefixes.length ∧
      P.idpf.eval prims fuel j pub s.key level prefixes ctx nonce = .ok (List.zipWith (fun d h => [d, h]) ds hs) ∧
      Samples _ (verifyStream prims verifyKey ctx nonce level) 0 r pos' ∧
      CorrAt prims bits s.corrSeed ctx nonce j level _ [a, b, c] ∧
      abAt s level _ = [A, B] ∧
      sh = ⟨_, [a + (sketchOf ds hs r).1, b + (sketchOf ds hs r).2.1, c + (sketchOf ds hs r).2.2]⟩ ∧
      st = ⟨.evaluate, level, ⟨_, [A, B, (j : Fk (P.idpf.currentField level))] ++ ds⟩⟩ := by
  obtain ⟨rfl, hb⟩ := Poplar1.init_ok hP
  obtain ⟨value, corr, A, B, r, R, rfl, rfl⟩ := (Poplar1.verifyInit_iff hj).1 h
  obtain ⟨l1, l2⟩ := Idpf.eval_rows R.eval
  obtain ⟨ds, hs, l3, l4, rfl⟩ := Idpf.rows_two value l2
  obtain ⟨l5, pos', hr⟩ := Poplar1.verifyRand_at R.rand
  refine ⟨ds, hs, r, corr.1, corr.2.1, corr.2.2, A, B, pos', by omega, by omega, l5, R.eval, hr,
    Poplar1.corrShares_at R.corr, (Poplar1.abShares_eq _ _ _).symm.trans R.ab, ?_, ?_⟩
  · rw [Poplar1.sums_zip (by omega) (by omega)]
    rfl
  · rw [show r.length = ds.length by omega, Poplar1.outs_zip (by omega)]

/- Non-vacuity: a report of a 2-bit Poplar1 is generated, its keys and the seeds have the required lengths, and both
Aggregators evaluate it at both levels. -/
example : ((do
    let P ← Poplar1.init 2
    let nonce := List.replicate 16 3
    let (pub, ish) ← P.shard toyPrims 40 [1] [true, false] nonce (List.replicate 128 7)
    let s0 ← getI ish 0
    let s1 ← getI ish 1
    let (_, sh0) ← P.verifyInit toyPrims 40 (List.replicate 32 1) [1] 0 (0, [[false], [true]]) nonce pub s0
    let (_, sh1) ← P.verifyInit toyPrims 40 (List.replicate 32 1) [1] 1 (1, [[true, false]]) nonce pub s1
    return (s0.key.length, s1.key.length, pub.all fun cw => cw.seedCw.length = 16, sh0.2.length, sh1.2.length)) : Res _) =
      .ok (16, 16, true, 3, 3) := by decide +kernel

/-- C56: the streams for the different purposes are the outputs of TurboSHAKE128 on different inputs: the input
determines the purpose (with the number of the Aggregator or the level), the seed, the context and the nonce. -/
theorem C56_separation (u u' : Poplar1Use) (hu : u.InRange) (hu' : u'.InRange) :
    ∃ input input' : Bytes → Bytes → Bytes → Bytes,
      (∀ prims seed ctx nonce, u.stream prims seed ctx nonce = prims.turboShake (input seed ctx nonce) 1) ∧
      (∀ prims seed ctx nonce, u'.stream prims seed ctx nonce = prims.turboShake (input' seed ctx nonce) 1) ∧
      ∀ seed seed' ctx ctx' nonce nonce' : Bytes, seed.length = 32 → seed'.length = 32 → ctx.length + 8 < 2 ^ 16 →
        ctx'.length + 8 < 2 ^ 16 → nonce.length = 16 → nonce'.length = 16 →
        input seed ctx nonce = input' seed' ctx' nonce' → u = u' ∧ seed = seed' ∧ ctx = ctx' ∧ nonce = nonce' := by
  have key : ∀ u : Poplar1Use, ∀ prims seed ctx nonce, u.stream prims seed ctx nonce =
      prims.turboShake (turboInput seed (tag 6 u.usage ctx) (u.binder nonce)) 1 := by
    intro u prims seed ctx nonce
    cases u <;> rfl
  refine ⟨_, _, key u, key u', ?_⟩
  intro seed seed' ctx ctx' nonce nonce' h1 h2 h3 h4 h5 h6 h
  obtain ⟨rfl, ht, hb⟩ := turboInput_inj (by simp [tag]; omega) (by simp [tag]; omega) (by omega) (by omega) h
  unfold tag at ht
  obtain ⟨ht1, rfl⟩ := List.append_inj ht (by simp)
  have hnum : u.usage = u'.usage := by
    revert ht1
    cases u <;> cases u' <;> simp [Poplar1Use.usage]
  have byteInj : ∀ a b : ℕ, a < 256 → b < 256 → UInt8.ofNat a = UInt8.ofNat b → a = b := by
    intro a b ha hb h
    have := congrArg UInt8.toNat h
    simpa [Nat.mod_eq_of_lt ha, Nat.mod_eq_of_lt hb] using this
  cases u <;> cases u' <;> first | (simp [Poplar1Use.usage] at hnum; done) | skip
  · exact ⟨rfl, rfl, rfl, hb⟩
  · simp only [Poplar1Use.binder, List.cons.injEq] at hb
    exact ⟨by rw [byteInj _ _ hu hu' hb.1], rfl, rfl, hb.2⟩
  · simp only [Poplar1Use.binder, List.cons.injEq] at hb
    exact ⟨by rw [byteInj _ _ hu hu' hb.1], rfl, rfl, hb.2⟩
  · next l l' =>
    simp only [Poplar1Use.binder] at hb
    obtain ⟨hn, hb'⟩ := List.append_inj hb (by omega)
    subst hn
    simp only [List.cons.injEq, and_true] at hb'
    simp only [Poplar1Use.InRange] at hu hu'
    have e1 := byteInj _ _ (by omega) (by omega) hb'.1
    have e2 := congrArg UInt8.toNat hb'.2
    simp only [UInt8.toNat_ofNat'] at e2
    exact ⟨by rw [show l = l' by omega], rfl, rfl, rfl⟩

example : (Poplar1Use.corrInner 1).InRange ∧ (Poplar1Use.verify 300).InRange ∧
    bytesAt ((Poplar1Use.corrInner 1).stream toyPrims [1] [] [2]) 0 4 ≠
      bytesAt ((Poplar1Use.corrLeaf 1).stream toyPrims [1] [] [2]) 0 4 :=
  ⟨by show 1 < 256; decide, by show 300 < 2 ^ 16; decide, by decide +kernel⟩

/-- C56: no stream of the IDPF has the same input as one of Poplar1: the second byte of the tag differs. -/
theorem C56_idpf_tag (usage usage' : ℕ) (hu : usage < 256) (hu' : usage' < 256) (ctx ctx' : Bytes) :
    (idpfTag usage ctx = idpfTag usage' ctx' → usage = usage' ∧ ctx = ctx') ∧
    ∀ id n, idpfTag usage ctx ≠ tag id n ctx' := by
  constructor
  · intro h
    unfold idpfTag at h
    obtain ⟨h1, h2⟩ := List.append_inj h (by simp)
    simp only [List.cons.injEq, true_and, and_true] at h1
    have := congrArg UInt8.toNat h1
    simp only [UInt8.toNat_ofNat'] at this
    exact ⟨by omega, h2⟩
  · intro id n h
    unfold idpfTag tag at h
    simp at h

/-! ## C57 -/

/-- C57: the first-round share of an Aggregator is a part that does not depend on the correlated randomness, masked
by the triple it expands from the seed of the correlated randomness: for every other triple the share is a different
one, and every share occurs for exactly one triple. -/
theorem C57_first_round (prims : Prims) (fuel : ℕ) {bits : ℕ} {P : Poplar1} (hP : Poplar1.init bits = .ok P)
    (verifyKey ctx nonce : Bytes) {j : ℕ} (hj : j < 2) (level : ℕ) (prefixes : List (List Bool))
    (pub : List CorrectionWord) (key : Bytes) :
    ∃ x y z : Fk (P.idpf.currentField level), ∀ (corrSeed : Bytes) (corrInner : List Field64)
      (corrLeaf : List Field255) (st : Poplar1VerifyState) (sh : FieldVec),
      P.verifyInit prims fuel verifyKey ctx j (level, prefixes) nonce pub ⟨key, corrSeed, corrInner, corrLeaf⟩ =
        .ok (st, sh) →
      ∃ a b c, CorrAt prims bits corrSeed ctx nonce j level _ [a, b, c] ∧ sh = ⟨_, [a + x, b + y, c + z]⟩ := by
  by_cases h : ∃ (corrSeed : Bytes) (corrInner : List Field64)
      (corrLeaf : List Field255) (st : Poplar1VerifyState) (sh : FieldVec),
      P.verifyInit prims fuel verifyKey ctx j (level, prefixes) nonce pub ⟨key, corrSeed, corrInner, corrLeaf⟩ =
        .ok (st, sh)
  · obtain ⟨cs, ci, cl, st, sh, h⟩ := h
    obtain ⟨ds, hs, r, a, b, c, A, B, pos', l1, l2, l3, e, hr, -⟩ := C56_verify_init prims fuel hP hj h
    refine ⟨(sketchOf ds hs r).1, (sketchOf ds hs r).2.1, (sketchOf ds hs r).2.2, fun cs' ci' cl' st' sh' h' => ?_⟩
    obtain ⟨ds', hs', r', a', b', c', A', B', pos'', l1', l2', l3', e', hr', hco, -, hsh, -⟩ :=
      C56_verify_init prims fuel hP hj h'
    obtain ⟨rfl, -⟩ := Samples.unique hr hr' (l3.trans l3'.symm)
    have := Except.ok.inj (e.symm.trans e')
    obtain ⟨rfl, rfl⟩ : ds = ds' ∧ hs = hs' := by
      constructor
      · refine List.ext_getElem (by omega) fun i h1 h2 => ?_
        have := congrArg (fun l => l[i]?) this
        simp [show i < ds.length by omega, show i < ds'.length by omega,
          show i < hs.length by omega, show i < hs'.length by omega] at this
        exact this.1
      · refine List.ext_getElem (by omega) fun i h1 h2 => ?_
        have := congrArg (fun l => l[i]?) this
        simp [show i < ds.length by omega, show i < ds'.length by omega,
          show i < hs.length by omega, show i < hs'.length by omega] at this
        exact this.2
    exact ⟨a', b', c', hco, hsh⟩
  · refine ⟨0, 0, 0, fun cs ci cl st sh h' => absurd ⟨cs, ci, cl, st, sh, h'⟩ h⟩

/- Non-vacuity: an Aggregator with two different seeds of the correlated randomness sends different shares. -/
example : ((do
    let P ← Poplar1.init 1
    let nonce := List.replicate 16 3
    let (pub, ish) ← P.shard toyPrims 40 [1] [true] nonce (List.replicate 128 7)
    let s0 ← getI ish 0
    let (_, sh) ← P.verifyInit toyPrims 40 (List.replicate 32 1) [1] 0 (0, [[false], [true]]) nonce pub s0
    let (_, sh') ← P.verifyInit toyPrims 40 (List.replicate 32 1) [1] 0 (0, [[false], [true]]) nonce pub
      { s0 with corrSeed := List.replicate 32 8 }
    return (sh.2.length, decide (sh.2.map PyField.toNat = sh'.2.map PyField.toNat))) : Res _) = .ok (3, false) := by
  decide +kernel

/-- C57: in the second round of an accepted report each Aggregator's share is the negation of the other's: it can
compute the other's share from its own. -/
theorem C57_second_round (prims : Prims) (fuel : ℕ) {P : Poplar1} {verifyKey ctx nonce : Bytes}
    {aggParam : Poplar1AggParam} {pub : List CorrectionWord} {s0 s1 : Poplar1InputShare}
    {st0 st1 st0' st1' : Poplar1VerifyState} {sh0 sh1 sh0' sh1' : FieldVec} {m m' : Option FieldVec}
    (h0 : P.verifyInit prims fuel verifyKey ctx 0 aggParam nonce pub s0 = .ok (st0, sh0))
    (h1 : P.verifyInit prims fuel verifyKey ctx 1 aggParam nonce pub s1 = .ok (st1, sh1))
    (hm : Poplar1.sharesToMessage ctx aggParam [sh0, sh1] = .ok m)
    (n0 : Poplar1.verifyNext ctx st0 m = .ok (.cont st0' sh0'))
    (n1 : Poplar1.verifyNext ctx st1 m = .ok (.cont st1' sh1'))
    (hm' : Poplar1.sharesToMessage ctx aggParam [sh0', sh1'] = .ok m') :
    ∃ κ, ∃ x : Fk κ, sh0' = ⟨κ, [x]⟩ ∧ sh1' = ⟨κ, [-x]⟩ ∧ m' = none := by
  obtain ⟨level, prefixes⟩ := aggParam
  obtain ⟨v0, corr0, A0, B0, r, R0, rfl, rfl⟩ := (Poplar1.verifyInit_iff (by decide)).1 h0
  obtain ⟨v1, corr1, A1, B1, r', R1, rfl, rfl⟩ := (Poplar1.verifyInit_iff (by decide)).1 h1
  rw [Poplar1.message_three] at hm
  cases hm
  rw [Poplar1.next_evaluate] at n0 n1
  cases n0
  cases n1
  rw [Poplar1.message_one] at hm'
  split at hm'
  · next hz =>
    cases hm'
    exact ⟨_, _, rfl, by rw [eq_neg_of_add_eq_zero_right hz], rfl⟩
  · cases hm'

/- Non-vacuity: the second round of an honest report.  The shares are not zero. -/
example : ((do
    let P ← Poplar1.init 1
    let nonce := List.replicate 16 3
    let (pub, ish) ← P.shard toyPrims 40 [1] [true] nonce (List.replicate 128 7)
    let s0 ← getI ish 0
    let s1 ← getI ish 1
    let (st0, sh0) ← P.verifyInit toyPrims 40 (List.replicate 32 1) [1] 0 (0, [[false], [true]]) nonce pub s0
    let (st1, sh1) ← P.verifyInit toyPrims 40 (List.replicate 32 1) [1] 1 (0, [[false], [true]]) nonce pub s1
    let m ← Poplar1.sharesToMessage [1] (0, [[false], [true]]) [sh0, sh1]
    let r0 ← Poplar1.verifyNext [1] st0 m
    let r1 ← Poplar1.verifyNext [1] st1 m
    match r0, r1 with
    | .cont _ sh0', .cont _ sh1' => do
      let m' ← Poplar1.sharesToMessage [1] (0, [[false], [true]]) [sh0', sh1']
      return (decide (sh0'.2.map PyField.toNat = [0]), m'.isNone)
    | _, _ => .error .index) : Res _) = .ok (false, true) := by
  decide +kernel

end Vdaf
