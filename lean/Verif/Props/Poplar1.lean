import Verif.Proofs.Poplar1Codec
import Verif.Proofs.Poplar1Valid
import Verif.Proofs.Poplar1Agg
import Verif.Spec.Vec
import Verif.Props.Idpf

/-! # Poplar1: properties C28 and C35 to C37 -/

namespace Vdaf
open Poplar1 Finset

variable {P : Poplar1} {prims : Prims} {fuel : ℕ}

/-! ## C28 -/

/-- C28 for Poplar1: the aggregate share does not depend on the order of the output shares. -/
theorem C28_poplar1_order (a : Poplar1AggParam) {outs outs' : List FieldVec} (h : outs.Perm outs') :
    Spec.aggregate (P.vdaf prims fuel) a outs = Spec.aggregate (P.vdaf prims fuel) a outs' :=
  merge_perm h

/-- C28 for Poplar1: merging the aggregate shares of sub-batches `bs`, in any order, gives the aggregate share of
the batch. -/
theorem C28_poplar1_merge (a : Poplar1AggParam) {outs : List FieldVec} {bs : List (List FieldVec)}
    (h : outs.Perm bs.flatten) :
    (do
      let as ← mapRes (Spec.aggregate (P.vdaf prims fuel) a) bs
      (P.vdaf prims fuel).merge a as) = Spec.aggregate (P.vdaf prims fuel) a outs := by
  rw [C28_poplar1_order a h]
  exact merge_flatten a bs

/-- C28 for Poplar1: the aggregate share, a vector with an entry for each prefix over the field of the level, is
the sum of the output shares. -/
theorem C28_poplar1_sum {k : ℕ} (a : Poplar1AggParam) (outs : Fin k → List (Fk (P.idpf.currentField a.1)))
    (v : FieldVec)
    (h : Spec.aggregate (P.vdaf prims fuel) a (List.ofFn fun i => ⟨_, outs i⟩) = .ok v) :
    ∃ w : List (Fk (P.idpf.currentField a.1)), v = ⟨_, w⟩ ∧ Spec.IsSum outs w ∧ w.length = a.2.length := by
  rw [aggregate_eq_merge, merge_eq] at h
  split at h
  · next hl =>
    cases h
    refine ⟨_, rfl, isSum_iff.2 ⟨fun i => by simpa using hl ⟨_, outs i⟩ (by simp), fun j => ?_⟩, by simp⟩
    have hm : (List.ofFn fun i => (⟨_, outs i⟩ : FieldVec)).map (castVec (P.idpf.currentField a.1)) =
        List.ofFn outs := by
      rw [List.map_ofFn]
      congr 1
      funext i
      exact castVec_self _
    rw [hm]
    by_cases hj : j < a.2.length
    · simp [coef_tab, hj, colsum, List.map_ofFn, List.sum_ofFn]
    · rw [coef_tab, if_neg hj]
      refine (sum_eq_zero fun i _ => ?_).symm
      have := hl ⟨_, outs i⟩ (by simp)
      dsimp only at this
      exact coef_of_le (by omega)
  · cases h

/-- C28 for Poplar1: `agg_init` is neutral. -/
theorem C28_poplar1_init_neutral (a : Poplar1AggParam) (w : List (Fk (P.idpf.currentField a.1)))
    (hw : w.length = a.2.length) :
    ∃ z, (P.vdaf prims fuel).aggInit a = .ok z ∧ (P.vdaf prims fuel).merge a [z, ⟨_, w⟩] = .ok ⟨_, w⟩ ∧
      (P.vdaf prims fuel).merge a [⟨_, w⟩, z] = .ok ⟨_, w⟩ ∧
      (P.vdaf prims fuel).merge a [⟨_, w⟩] = .ok ⟨_, w⟩ ∧ (P.vdaf prims fuel).merge a [] = .ok z := by
  refine ⟨⟨_, fieldZeros _ a.2.length⟩, rfl, ?_, ?_, ?_, rfl⟩ <;>
  · show P.merge a _ = _
    rw [merge_eq, if_pos (by simp [hw, fieldZeros])]
    congr 2
    conv_rhs => rw [eq_tab hw]
    apply tab_congr
    intro j hj
    simp [colsum, fieldZeros, coef, hj, hw, castVec_self]

/-- A batch of three output shares, over the field of the inner levels; and vectors of different lengths are
rejected. -/
example : let V := (⟨⟨2, 3⟩⟩ : Poplar1).vdaf toyPrims 40
    let a : Poplar1AggParam := (0, [[false], [true]])
    Spec.aggregate V a [⟨.inner, [1, 2]⟩, ⟨.inner, [3, 4]⟩, ⟨.inner, [5, 6]⟩] = .ok ⟨.inner, [9, 12]⟩ ∧
    V.merge a [⟨.inner, [6, 8]⟩, ⟨.inner, [3, 4]⟩] = .ok ⟨.inner, [9, 12]⟩ ∧
    Spec.aggregate V a [⟨.inner, [1, 2]⟩, ⟨.inner, [3]⟩] = .error (.value "mismatched vector sizes") := by
  decide +kernel

/-! ## C35 -/

/-- C35: `is_valid` always returns, and it accepts iff the prefixes are strictly increasing in lexicographic
order and, if there is a previous parameter, the level is greater than that of the last one and the
ancestor at the last level of each prefix is one of the last prefixes. -/
theorem C35_is_valid (level : ℕ) (prefixes : List (List Bool)) (previous : List Poplar1AggParam) :
    ∃ b, (P.vdaf prims fuel).isValid (level, prefixes) previous = .ok b ∧
      (b = true ↔ prefixes.Pairwise Spec.LexLt ∧ ∀ last, previous.getLast? = some last →
        last.1 < level ∧ ∀ p ∈ prefixes, p.take (last.1 + 1) ∈ last.2) :=
  isValid_iff level prefixes previous

/-- C35: for parameters whose prefixes have the length that goes with the level, the last condition says that each
prefix extends one of the last prefixes. -/
theorem C35_is_valid_extends (level lastLevel : ℕ) (prefixes lastPrefixes : List (List Bool))
    (earlier : List Poplar1AggParam) (hlen : ∀ q ∈ lastPrefixes, q.length = lastLevel + 1) :
    (P.vdaf prims fuel).isValid (level, prefixes) (earlier ++ [(lastLevel, lastPrefixes)]) = .ok true ↔
      prefixes.Pairwise Spec.LexLt ∧ lastLevel < level ∧
      ∀ p ∈ prefixes, ∃ q ∈ lastPrefixes, q <+: p := by
  rw [show (P.vdaf prims fuel).isValid = isValid from rfl, isValid_true_iff]
  simp only [List.getLast?_concat, Option.some.injEq, forall_eq']
  refine and_congr_right fun _ => and_congr_right fun _ => forall₂_congr fun p _ => ?_
  constructor
  · intro h
    exact ⟨_, h, List.take_prefix _ _⟩
  · rintro ⟨q, hq, h⟩
    rwa [← hlen q hq, ← List.prefix_iff_eq_take.1 h]

/-- C35: in every history guarded by `is_valid`, the levels are strictly increasing, so no level is used
twice. -/
theorem C35_levels_increase (hist : List Poplar1AggParam)
    (h : Spec.Guarded (P.vdaf prims fuel).isValid hist) : hist.Pairwise fun a b => a.1 < b.1 :=
  (guarded_pairwise h).imp fun h => h.1

/-- C35: in every history guarded by `is_valid`, every candidate prefix extends a candidate of each earlier
parameter, namely its ancestor at that level. -/
theorem C35_prefixes_extend (hist : List Poplar1AggParam)
    (h : Spec.Guarded (P.vdaf prims fuel).isValid hist) :
    hist.Pairwise fun a b => ∀ p ∈ b.2, p.take (a.1 + 1) ∈ a.2 ∧ ∃ q ∈ a.2, q <+: p :=
  (guarded_pairwise h).imp fun h p hp => ⟨h.2 p hp, _, h.2 p hp, List.take_prefix _ _⟩

/-- C35: no prefix occurs twice in a parameter of a guarded history. -/
theorem C35_prefixes_nodup (hist : List Poplar1AggParam)
    (h : Spec.Guarded (P.vdaf prims fuel).isValid hist) : ∀ a ∈ hist, a.2.Nodup := by
  induction h with
  | nil => simp
  | snoc hg hv ih =>
    intro a ha
    rcases List.mem_append.1 ha with ha | ha
    · exact ih a ha
    · rw [List.mem_singleton] at ha
      subst ha
      refine (isValid_true_iff.1 hv).1.imp fun h1 h2 => ?_
      subst h2
      exact lexLt_irrefl _ h1

/-- A guarded history: level 0, then level 2. -/
example : Spec.Guarded ((⟨⟨2, 3⟩⟩ : Poplar1).vdaf toyPrims 40).isValid
    [(0, [[false], [true]]), (2, [[false, true, false], [false, true, true], [true, false, false]])] :=
  .snoc (hist := [(0, [[false], [true]])]) (.snoc (hist := []) .nil rfl) rfl

example : isValid (1, [[true, false], [true, true]]) [(0, [[true]])] = .ok true ∧
    isValid (0, [[true]]) [(0, [[true]])] = .ok false ∧
    isValid (1, [[true, true], [true, false]]) [(0, [[true]])] = .ok false ∧
    isValid (1, [[true, false], [true, false]]) [(0, [[true]])] = .ok false ∧
    isValid (1, [[false, false], [true, false]]) [(0, [[true]])] = .ok false := by
  decide +kernel

/-! ## C36 -/

/-- C36: the byte strings that decode to an aggregation parameter are exactly its encoding; and the prefixes of a
decoded parameter have the right length. -/
theorem C36_decode_iff (b : Bytes) (a : Poplar1AggParam) :
    decodeAggParam b = .ok a ↔ (∀ p ∈ a.2, p.length = a.1 + 1) ∧ encodeAggParam a = .ok b :=
  decodeAggParam_iff

/-- C36: every well-formed parameter has an encoding, and it decodes to the parameter. -/
theorem C36_round_trip (a : Poplar1AggParam) (ha : Spec.WellFormed a) :
    ∃ b, encodeAggParam a = .ok b ∧ decodeAggParam b = .ok a ∧
      b.length = 6 + (a.1 + 8) / 8 * a.2.length := by
  obtain ⟨level, prefixes⟩ := a
  obtain ⟨h1, h2, h3⟩ := ha
  have h := encodeAggParam_iff.2 ⟨h1, h2, encPrefixes_length h3, rfl⟩
  refine ⟨_, h, decodeAggParam_iff.2 ⟨h3, h⟩, ?_⟩
  rw [List.length_append, encPrefixes_length h3]
  simp only [List.length_append, List.length_reverse, natToLe_length]

/-- C36: parameters out of range are rejected. -/
theorem C36_out_of_range (level : ℕ) (prefixes : List (List Bool))
    (h : 2 ^ 16 ≤ level ∨ 2 ^ 32 ≤ prefixes.length) :
    ∃ m, encodeAggParam (level, prefixes) = .error (.value m) := by
  unfold encodeAggParam
  dsimp only
  by_cases h1 : level < 2 ^ 16
  · rw [raiseIf_of_not (by simpa using h1), Except.ok_bind', raiseIf_of (by simp; omega)]
    exact ⟨_, rfl⟩
  · rw [raiseIf_of (by simpa using h1)]
    exact ⟨_, rfl⟩

/-- C36: the layout of the encoding: the level in 2 bytes and the number of prefixes in 4 bytes, big-endian;
then, for each prefix, its bits from the most significant bit of the first byte on, with zeros at the end. -/
theorem C36_layout (a : Poplar1AggParam) (ha : Spec.WellFormed a) :
    ∃ lv np ps, encodeAggParam a = .ok (lv ++ np ++ ps.flatten) ∧
      toBeBytes a.1 2 = .ok lv ∧ toBeBytes a.2.length 4 = .ok np ∧
      List.Forall₂ (fun (p : List Bool) (b : Bytes) => b.length = (p.length + 7) / 8 ∧
        ∀ k (hk : k < b.length), ∀ j < 8, b[k].toNat.testBit (7 - j) = (p[8 * k + j]?).getD false) a.2 ps := by
  obtain ⟨level, prefixes⟩ := a
  obtain ⟨h1, h2, h3⟩ := ha
  refine ⟨_, _, _, encodeAggParam_iff.2 ⟨h1, h2, encPrefixes_length h3, rfl⟩,
    toBeBytes_nat (by simpa using h1), toBeBytes_nat (by simpa using h2), ?_⟩
  rw [List.forall₂_map_right_iff, List.forall₂_same]
  intro p _
  refine ⟨encPrefix_length p, fun k hk j hj => ?_⟩
  rw [encPrefix_testBit, decide_eq_true (by omega), Bool.true_and, show 7 - (7 - j) = j by omega]
  rfl

example : encodeAggParam (8, [[true, false, false, true, false, false, false, false, true],
      [true, true, false, false, false, false, false, false, false]]) =
    .ok [0, 8, 0, 0, 0, 2, 0x90, 0x80, 0xc0, 0] := by decide +kernel
example : decodeAggParam [0, 8, 0, 0, 0, 1, 0x90, 0x80] =
    .ok (8, [[true, false, false, true, false, false, false, false, true]]) := by decide +kernel
example : decodeAggParam [0, 8, 0, 0, 0, 1, 0x90, 0xc0] = .error (.value "trailing bits in prefix") ∧
    decodeAggParam [0, 8, 0, 0, 0, 1, 0x90, 0x80, 0] = .error (.value "trailing bytes") := by
  decide +kernel

/-- `encode_agg_param` does not check the length of each prefix, only that the total length of the encoded
prefixes is the expected one: a malformed parameter may have the encoding of another parameter, or one that
does not decode.  The hypothesis on the lengths is necessary. -/
theorem C36_malformed :
    encodeAggParam (0, [[true, false]]) = .ok [0, 0, 0, 0, 0, 1, 0x80] ∧
    encodeAggParam (0, [[true]]) = .ok [0, 0, 0, 0, 0, 1, 0x80] ∧
    encodeAggParam (0, [[true, true]]) = .ok [0, 0, 0, 0, 0, 1, 0xc0] ∧
    decodeAggParam [0, 0, 0, 0, 0, 1, 0xc0] = .error (.value "trailing bits in prefix") := by
  decide +kernel

/-! ## C37 -/

/-- C37: public shares.  The byte strings that decode to `pub` are exactly its encoding, if it has a correction word
for each level with a seed of 16 bytes and a vector of the right length over the field of the level. -/
theorem C37_public_share (hb : 0 < P.idpf.bits) (b : Bytes) (pub : List CorrectionWord) :
    P.decodePublicShare b = .ok pub ↔
      (pub.length = P.idpf.bits ∧ ∀ level (h : level < pub.length), pub[level].seedCw.length = 16 ∧
        ∃ w : List (Fk (P.idpf.currentField level)),
          pub[level].wCw = ⟨P.idpf.currentField level, w⟩ ∧ w.length = P.idpf.valueLen) ∧
      Poplar1.encodePublicShare pub = .ok b :=
  Idpf.decodePublicShare_iff hb

/-- C37: public shares of the right shape have an encoding. -/
theorem C37_public_share_encodes (hb : 0 < P.idpf.bits) (pub : List CorrectionWord)
    (hpub : pub.length = P.idpf.bits ∧ ∀ level (h : level < pub.length), pub[level].seedCw.length = 16 ∧
        ∃ w : List (Fk (P.idpf.currentField level)),
          pub[level].wCw = ⟨P.idpf.currentField level, w⟩ ∧ w.length = P.idpf.valueLen) :
    ∃ b, Poplar1.encodePublicShare pub = .ok b ∧ P.decodePublicShare b = .ok pub := by
  obtain ⟨b, h, -⟩ := packBits_ok (Idpf.ctrlBits pub)
  have := Idpf.encodePublicShare_ok hb hpub h
  exact ⟨_, this, (Idpf.decodePublicShare_iff hb).2 ⟨hpub, this⟩⟩

/-- C37: input shares. -/
theorem C37_input_share (aggId : ℕ) (b : Bytes) (s : Poplar1InputShare) :
    P.decodeInputShare prims fuel aggId b = .ok s ↔
      (s.key.length = 16 ∧ s.corrSeed.length = 32 ∧ s.corrInner.length = 2 * (P.idpf.bits - 1) ∧
        s.corrLeaf.length = 2) ∧ encodeInputShare s = .ok b :=
  decodeInputShare_iff

/-- C37: every input share has an encoding, so those of the right shape round trip. -/
theorem C37_input_share_encodes (s : Poplar1InputShare) : ∃ b, encodeInputShare s = .ok b :=
  ⟨_, encodeInputShare_eq s⟩

/-- C37: verifier shares, output shares and aggregate shares, which are vectors over the field of the level. -/
theorem C37_vectors (a : Poplar1AggParam) (st : Poplar1VerifyState) (b : Bytes) (v : FieldVec) :
    (P.decodeAggShare a b = .ok v ↔ v.1 = P.idpf.currentField a.1 ∧ encodeAggShare v = .ok b) ∧
    (P.decodeOutShare a b = .ok v ↔ v.1 = P.idpf.currentField a.1 ∧ encodeOutShare v = .ok b) ∧
    ((P.vdaf prims fuel).decodeVerifierShare st b = .ok v ↔
      v.1 = P.idpf.currentField st.level ∧ (P.vdaf prims fuel).encodeVerifierShare v = .ok b) ∧
    ∃ b', encodeAggShare v = .ok b' ∧ encodeOutShare v = .ok b' ∧
      (P.vdaf prims fuel).encodeVerifierShare v = .ok b' :=
  ⟨decodeAtLevel_iff, decodeAtLevel_iff, decodeAtLevel_iff, _, encodeIdpfFieldVec_eq v,
    encodeIdpfFieldVec_eq v, encodeIdpfFieldVec_eq v⟩

/-- C37: verifier messages: the sketch of the first round, which has three elements, or `None`. -/
theorem C37_verifier_message (st : Poplar1VerifyState) (b : Bytes) (m : Option FieldVec) :
    ((P.vdaf prims fuel).decodeVerifierMessage st b = .ok m ↔
      (∀ v, m = some v → v.1 = P.idpf.currentField st.level ∧ v.2 ≠ []) ∧
      (P.vdaf prims fuel).encodeVerifierMessage m = .ok b) ∧
    ∃ b', (P.vdaf prims fuel).encodeVerifierMessage m = .ok b' := by
  refine ⟨decodeVerifierMessage_iff, ?_⟩
  cases m with
  | none => exact ⟨_, rfl⟩
  | some v => exact ⟨_, encodeIdpfFieldVec_eq v⟩

/-- A public share for two levels, and some byte strings that are rejected. -/
example : let P : Poplar1 := ⟨⟨2, 2⟩⟩
    let pub : List CorrectionWord :=
      [⟨List.replicate 16 1, (true, false), ⟨.inner, [1, 2]⟩⟩,
        ⟨List.replicate 16 2, (true, true), ⟨.leaf, [3, 4]⟩⟩]
    ∃ b, Poplar1.encodePublicShare pub = .ok b ∧ P.decodePublicShare b = .ok pub ∧ b.length = 1 + 32 + 16 + 64 ∧
      b.head? = some 13 ∧ (P.decodePublicShare (b ++ [0])).toOption = none ∧
      (P.decodePublicShare (16 :: b.tail)).toOption = none :=
  ⟨_, rfl, by decide +kernel⟩

example : let P : Poplar1 := ⟨⟨2, 2⟩⟩
    let s : Poplar1InputShare := ⟨List.replicate 16 1, List.replicate 32 2, [5, 6], [7, 8]⟩
    ∃ b, encodeInputShare s = .ok b ∧ P.decodeInputShare toyPrims 40 0 b = .ok s ∧ b.length = 16 + 32 + 16 + 64 ∧
      P.decodeInputShare toyPrims 40 0 (b ++ [0]) = .error (.value "input share is too long") :=
  ⟨_, rfl, by decide +kernel⟩

end Vdaf
