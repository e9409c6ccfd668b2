import Verif.Model.Idpf
import Verif.Model.Vdaf
import Verif.Model.Prio3

/-!
# Model of `poc/vdaf_poc/vdaf_poplar1.py`

Levels are natural numbers: the code raises `ValueError` for a negative level before it does anything else
with it in `verify_init` and `encode_agg_param`; the other methods are only modelled for natural
numbers.
-/

namespace Vdaf

/-- vdaf_poplar1.py:13-16 -/
def USAGE_SHARD_RAND : Nat := 1
def USAGE_CORR_INNER : Nat := 2
def USAGE_CORR_LEAF : Nat := 3
def USAGE_VERIFY_RAND : Nat := 4

/-- vdaf_poplar1.py:19-22 `Poplar1AggParam`: the level and the prefixes -/
abbrev Poplar1AggParam := Nat × List (List Bool)

/-- vdaf_poplar1.py:24-29 `Poplar1InputShare` -/
structure Poplar1InputShare where
  key : Bytes
  corrSeed : Bytes
  corrInner : List Field64
  corrLeaf : List Field255
deriving DecidableEq

/-- The constants `b'evaluate sketch'` and `b'reveal sketch'` -/
inductive SketchStep where
  | evaluate
  | reveal
deriving DecidableEq

/-- vdaf_poplar1.py:30-34 `Poplar1VerifyState`.  The step is one of the two constants, so that the branch
for an invalid state (line 357) is unreachable. -/
structure Poplar1VerifyState where
  step : SketchStep
  level : Nat
  mem : FieldVec
deriving DecidableEq

/-- `itertools.batched(l, n)` for `n ≥ 1`: consecutive chunks of `n` elements, the last of which may
be shorter -/
def batched {α : Type} (l : List α) (n : Nat) : List (List α) :=
  (List.range ((l.length + n - 1) / n)).map fun i => (l.drop (n * i)).take n

/-- Python's `x < y` for tuples of `bool`s: lexicographic -/
def tupleLt : List Bool → List Bool → Bool
  | _, [] => false
  | [], _ :: _ => true
  | a :: x, b :: y => if a = b then tupleLt x y else (!a && b)

/-- vdaf_poplar1.py:574-581 `get_ancestor` -/
def getAncestor (index : List Bool) (level : Nat) : List Bool := slice index 0 (level + 1)

/-- vdaf_poplar1.py:562-567 `encode_idpf_field_vec` -/
def encodeIdpfFieldVec (vec : FieldVec) : Res Bytes :=
  if vec.2.length > 0 then encodeVec vec.2 else .ok []

/-- vdaf_poplar1.py:37-66, class `Poplar1`; `idpf` is `IdpfBBCGGI21(2, bits)`. -/
structure Poplar1 where
  idpf : Idpf

/-- vdaf_poplar1.py:62-66 `__init__` -/
def Poplar1.init (bits : Nat) : Res Poplar1 := do
  let idpf ← Idpf.init 2 bits
  return ⟨idpf⟩

namespace Poplar1

/-- vdaf_poplar1.py:54-57 -/
def ID : Nat := 6
def NONCE_SIZE : Nat := 16
def SHARES : Nat := 2
def ROUNDS : Nat := 2

variable (P : Poplar1) (prims : Prims) (fuel : Nat)

/-- vdaf_poplar1.py:64 `self.xof` -/
abbrev xof : Xof := XofTurboShake128 prims fuel

/-- vdaf_poplar1.py:65-66 -/
def verifyKeySize : Nat := (xof prims fuel).seedSize
def randSize : Nat := 3 * (xof prims fuel).seedSize + Idpf.RAND_SIZE

/-- vdaf.py:203-212 -/
def dst (usage : Nat) (ctx : Bytes) : Res Bytes := domainSeparationTag ID usage ctx

/-! ### Sharding -/

/-- vdaf_poplar1.py:129-144 and 145-160: the sum of the correlated randomness expanded from the two
seeds -/
def corrOffsets (κ : Kind) (usage : Nat) (ctx nonce : Bytes) (seed0 seed1 : Bytes) (length : Nat) :
    Res (List (Fk κ)) := do
  let dst0 ← dst usage ctx
  let b0 ← byte 0
  let l ← (xof prims fuel).expandIntoVec (Fk κ) seed0 dst0 (b0 ++ nonce) length
  let dst1 ← dst usage ctx
  let b1 ← byte 1
  let r ← (xof prims fuel).expandIntoVec (Fk κ) seed1 dst1 (b1 ++ nonce) length
  vecAdd l r

/-- vdaf_poplar1.py:165 and 175-182: `corr_inner` and `corr_leaf` (not assigned before the last level) -/
structure CorrState where
  inner0 : List Field64
  inner1 : List Field64
  leaf : Option (List Field255 × List Field255)

/-- vdaf_poplar1.py:175-182 -/
def CorrState.push (st : CorrState) : (κ : Kind) → (corr0 corr1 : List (Fk κ)) → CorrState
  | .inner, corr0, corr1 => ⟨List.append st.inner0 corr0, List.append st.inner1 corr1, st.leaf⟩
  | .leaf, corr0, corr1 => ⟨st.inner0, st.inner1, some (corr0, corr1)⟩

/-- vdaf_poplar1.py:166-182, the body of the loop over the levels.  `corr_offsets` is a list with elements of
both fields; `a`, `b`, `c` always are of the field of the level, to which they are coerced here. -/
def corrLevel (betaInner : List (List Field64)) (betaLeaf : List Field255)
    (st : (xof prims fuel).State × List (Σ κ, Fk κ) × CorrState) (level : Nat) :
    Res ((xof prims fuel).State × List (Σ κ, Fk κ) × CorrState) := do
  let (x, offsets, corr) := st
  let κ := P.idpf.currentField level
  let beta ← Idpf.betaAt betaInner betaLeaf level κ
  let k ← getI beta 1
  match offsets.take 3 with
  | [a, b, c] => do
    let a : Fk κ := castElem κ a.2
    let b : Fk κ := castElem κ b.2
    let c : Fk κ := castElem κ c.2
    let two ← ofInt (Fk κ) 2
    let A := -two * a + k
    let B := a ^ 2 + b - a * k + c
    let (corr1, x) ← (xof prims fuel).nextVec (Fk κ) fuel x 2
    let corr0 ← vecSub [A, B] corr1
    return (x, offsets.drop 3, corr.push κ corr0 corr1)
  | _ => .error (.value "not enough values to unpack")

/-- vdaf_poplar1.py:73-187 `shard` -/
def shard (ctx : Bytes) (measurement : List Bool) (nonce rand : Bytes) :
    Res (List CorrectionWord × List Poplar1InputShare) := do
  raiseIf (nonce.length ≠ NONCE_SIZE) "incorrect nonce size"
  raiseIf (rand.length ≠ randSize prims fuel) "incorrect size of random bytes argument"
  let l := (xof prims fuel).seedSize
  raiseIf (rand.length ≠ randSize prims fuel) "incorrect rand size"
  let (idpfRand, rand) ← front Idpf.RAND_SIZE rand
  let seeds := chunks rand 3 l
  let (corrSeed, seeds) ← front 2 seeds
  let corrSeed0 ← getI corrSeed 0
  let corrSeed1 ← getI corrSeed 1
  let (s, _) ← front 1 seeds
  let shardSeed ← getI s 0
  let shardDst ← dst USAGE_SHARD_RAND ctx
  let x ← (xof prims fuel).init shardSeed shardDst nonce
  let (ks, x) ← (xof prims fuel).nextVec Field64 fuel x (P.idpf.bits - 1)
  let one ← ofInt Field64 1
  let betaInner := ks.map fun k => [one, k]
  let oneLeaf ← ofInt Field255 1
  let (kLeaf, x) ← (xof prims fuel).nextVec Field255 fuel x 1
  let betaLeaf := [oneLeaf] ++ kLeaf
  let (publicShare, keys) ← P.idpf.gen prims fuel measurement betaInner betaLeaf ctx nonce idpfRand
  let offInner ← corrOffsets prims fuel .inner USAGE_CORR_INNER ctx nonce corrSeed0 corrSeed1
    (3 * (P.idpf.bits - 1))
  let offLeaf ← corrOffsets prims fuel .leaf USAGE_CORR_LEAF ctx nonce corrSeed0 corrSeed1 3
  let offsets : List (Σ κ, Fk κ) := offInner.map (⟨.inner, ·⟩) ++ offLeaf.map (⟨.leaf, ·⟩)
  let (_, _, corr) ← forFold (List.range P.idpf.bits) (x, offsets, ⟨[], [], none⟩)
    (P.corrLevel prims fuel betaInner betaLeaf)
  match corr.leaf with
  | none => .error .type
  | some (leaf0, leaf1) =>
    -- `zip(keys, corr_seed, corr_inner, corr_leaf)`
    return (publicShare, List.zipWith (fun key f => f key) keys
      [fun key => ⟨key, corrSeed0, corr.inner0, leaf0⟩,
        fun key => ⟨key, corrSeed1, corr.inner1, leaf1⟩])

/-! ### Validity of aggregation parameters -/

/-- vdaf_poplar1.py:194-228 `is_valid` -/
def isValid (aggParam : Poplar1AggParam) (previousAggParams : List Poplar1AggParam) : Res Bool := do
  let (level, prefixes) := aggParam
  let unsorted ← mapRes (fun i => do
    let p ← getI prefixes (i - 1)
    let q ← getI prefixes i
    return !tupleLt p q) (List.range' 1 (prefixes.length - 1))
  if unsorted.any id then return false
  else
    match previousAggParams.getLast? with
    | none => return true
    | some (lastLevel, lastPrefixes) =>
      if level ≤ lastLevel then return false
      else return prefixes.all fun p => getAncestor p lastLevel ∈ lastPrefixes

/-! ### Verification -/

/-- vdaf_poplar1.py:257-270: the XOF for the correlated randomness, fast-forwarded to the level -/
def corrXof (ctx : Bytes) (aggId level : Nat) (nonce corrSeed : Bytes) : Res (xof prims fuel).State :=
  if level < P.idpf.bits - 1 then do
    let tag ← dst USAGE_CORR_INNER ctx
    let b ← byte aggId
    let x ← (xof prims fuel).init corrSeed tag (b ++ nonce)
    let (_, x) ← (xof prims fuel).nextVec (Fk (P.idpf.currentField level)) fuel x (3 * level)
    return x
  else do
    let tag ← dst USAGE_CORR_LEAF ctx
    let b ← byte aggId
    (xof prims fuel).init corrSeed tag (b ++ nonce)

/-- vdaf_poplar1.py:257-271: the list unpacked to `(a_share, b_share, c_share)` -/
def corrShares (ctx : Bytes) (aggId level : Nat) (nonce corrSeed : Bytes) :
    Res (List (Fk (P.idpf.currentField level))) := do
  let x ← P.corrXof prims fuel ctx aggId level nonce corrSeed
  let (v, _) ← (xof prims fuel).nextVec (Fk (P.idpf.currentField level)) fuel x 3
  return v

/-- vdaf_poplar1.py:272-278: the list unpacked to `(A_share, B_share)` -/
def abShares (level : Nat) (corrInner : List Field64) (corrLeaf : List Field255) :
    (κ : Kind) → List (Fk κ)
  | .inner => slice corrInner (2 * level) (2 * (level + 1))
  | .leaf => corrLeaf

/-- vdaf_poplar1.py:282-290 -/
def verifyRand (verifyKey ctx nonce : Bytes) (level n : Nat) :
    Res (List (Fk (P.idpf.currentField level))) := do
  let tag ← dst USAGE_VERIFY_RAND ctx
  let lv ← toBeBytes level 2
  let x ← (xof prims fuel).init verifyKey tag (nonce ++ lv)
  let (v, _) ← (xof prims fuel).nextVec (Fk (P.idpf.currentField level)) fuel x n
  return v

/-- vdaf_poplar1.py:291-302: the sketch and output shares -/
def sketch {κ : Kind} (corr : Fk κ × Fk κ × Fk κ) (value : List (List (Fk κ)))
    (verifyRand : List (Fk κ)) : Res ((Fk κ × Fk κ × Fk κ) × List (Fk κ)) :=
  forFold verifyRand.zipIdx (corr, []) fun (sk, out) (r, i) => do
    let v ← getI value i
    let dataShare ← getI v 0
    let v ← getI value i
    let authShare ← getI v 1
    return ((sk.1 + dataShare * r, sk.2.1 + dataShare * r ^ 2, sk.2.2 + authShare * r),
      out ++ [dataShare])

/-- vdaf_poplar1.py:236-312 `verify_init` -/
def verifyInit (verifyKey ctx : Bytes) (aggId : Nat) (aggParam : Poplar1AggParam) (nonce : Bytes)
    (publicShare : List CorrectionWord) (inputShare : Poplar1InputShare) :
    Res (Poplar1VerifyState × FieldVec) := do
  let (level, prefixes) := aggParam
  let κ := P.idpf.currentField level
  let value ← P.idpf.eval prims fuel aggId publicShare inputShare.key level prefixes ctx nonce
  let corr ← P.corrShares prims fuel ctx aggId level nonce inputShare.corrSeed
  match corr with
  | [a, b, c] =>
    match abShares level inputShare.corrInner inputShare.corrLeaf κ with
    | [A, B] => do
      let rand ← P.verifyRand prims fuel verifyKey ctx nonce level prefixes.length
      let (sk, out) ← sketch (a, b, c) value rand
      let id ← ofInt (Fk κ) aggId
      return (⟨.evaluate, level, ⟨κ, [A, B, id] ++ out⟩⟩, ⟨κ, [sk.1, sk.2.1, sk.2.2]⟩)
    | _ => .error (.value "values to unpack (expected 2)")
  | _ => .error (.value "values to unpack (expected 3)")

/-- vdaf_poplar1.py:314-357 `verify_next` -/
def verifyNext (_ctx : Bytes) (st : Poplar1VerifyState) (msg : Option FieldVec) :
    Res (Next Poplar1VerifyState FieldVec FieldVec) :=
  match st.step with
  | .evaluate =>
    match msg with
    | none => .error (.value "expected value, got none")
    | some prev =>
      match prev.2 with
      | [p0, p1, p2] => do
        let A ← getI st.mem.2 0
        let B ← getI st.mem.2 1
        let id ← getI st.mem.2 2
        let s := id * castElem st.mem.1 (p0 ^ 2 - p1 - p2) + A * castElem st.mem.1 p0 + B
        return .cont ⟨.reveal, st.level, ⟨st.mem.1, st.mem.2.drop 3⟩⟩ ⟨st.mem.1, [s]⟩
      | _ => .error (.value "incorrect sketch length")
  | .reveal =>
    match msg with
    | none => .ok (.out st.mem)
    | some _ => .error (.value "invalid verifier message")

/-- vdaf_poplar1.py:359-382 `verifier_shares_to_message`.  Elements are compared by value. -/
def sharesToMessage (_ctx : Bytes) (_aggParam : Poplar1AggParam) (verifierShares : List FieldVec) :
    Res (Option FieldVec) :=
  match verifierShares with
  | [v0, v1] => do
    let sketch ← vecAddF v0 v1
    match sketch.2 with
    | [_, _, _] => .ok (some sketch)
    | [s] =>
      if PyField.toNat s = 0 then .ok none else .error (.value "sketch verification failed")
    | _ => .error (.value "incorrect sketch length")
  | _ => .error (.value "incorrect number of verifier shares")

/-! ### Aggregation -/

/-- vdaf_poplar1.py:390-393 `agg_init` -/
def aggInit (aggParam : Poplar1AggParam) : Res FieldVec :=
  .ok ⟨P.idpf.currentField aggParam.1, fieldZeros _ aggParam.2.length⟩

/-- vdaf_poplar1.py:395-401 `agg_update` -/
def aggUpdate (_aggParam : Poplar1AggParam) (aggShare outShare : FieldVec) : Res FieldVec :=
  vecAddF aggShare outShare

/-- vdaf_poplar1.py:403-411 `merge` -/
def merge (aggParam : Poplar1AggParam) (aggShares : List FieldVec) : Res FieldVec :=
  forFold aggShares ⟨P.idpf.currentField aggParam.1, fieldZeros _ aggParam.2.length⟩ vecAddF

/-- vdaf_poplar1.py:418-424 `unshard` -/
def unshard (aggParam : Poplar1AggParam) (aggShares : List FieldVec) (_numMeasurements : Nat) :
    Res (List Nat) := do
  let agg ← P.merge aggParam aggShares
  return agg.2.map PyField.toNat

/-! ### Encodings -/

/-- `bytearray.append` raises `ValueError` for a value above 255. -/
def toByte (x : Nat) : Res UInt8 :=
  if x < 256 then .ok (UInt8.ofNat x) else .error (.value "byte must be in range(0, 256)")

/-- vdaf_poplar1.py:443-445 -/
def packChunk (chunk : List Bool) : Nat :=
  chunk.zipIdx.foldl (fun byteOut (bit, pos) => byteOut ||| (bit.toNat <<< (7 - pos))) 0

/-- vdaf_poplar1.py:426-450 `encode_agg_param` -/
def encodeAggParam (aggParam : Poplar1AggParam) : Res Bytes := do
  let (level, prefixes) := aggParam
  raiseIf (¬ level < 2 ^ 16) "level out of range"
  raiseIf (¬ prefixes.length < 2 ^ 32) "number of prefixes out of range"
  let lv ← toBeBytes level 2
  let np ← toBeBytes prefixes.length 4
  let prefixesLen := ((level + 1) + 7) / 8 * prefixes.length
  let encodedPrefixes ← forFold prefixes ([] : Bytes) fun enc prefix_ =>
    forFold (batched prefix_ 8) enc fun enc chunk => do
      let b ← toByte (packChunk chunk)
      return enc ++ [b]
  pyAssert (encodedPrefixes.length = prefixesLen)
  return lv ++ np ++ encodedPrefixes

/-- vdaf_poplar1.py:465-470 `last_byte_mask` -/
def lastByteMask (level : Nat) : Nat :=
  let leftoverBits := (level + 1) % 8
  if leftoverBits > 0 then
    (List.range' (8 - leftoverBits) leftoverBits).foldl (fun m i => m ||| 1 <<< i) 0 ^^^ 255
  else 0

/-- vdaf_poplar1.py:473-483, the loop body for one chunk -/
def decodePrefix (level : Nat) (chunk : Bytes) : Res (List Bool) :=
  -- `chunk[-1]`
  match chunk.getLast? with
  | none => .error .index
  | some last => do
    raiseIf (last.toNat &&& lastByteMask level > 0) "trailing bits in prefix"
    mapRes (fun i => do
      let b ← getI chunk (i / 8)
      return (b.toNat >>> (7 - i % 8)) &&& 1 != 0) (List.range (level + 1))

/-- vdaf_poplar1.py:452-487 `decode_agg_param` -/
def decodeAggParam (encoded : Bytes) : Res Poplar1AggParam := do
  let (encodedLevel, encoded) ← front 2 encoded
  let level := fromBeBytes encodedLevel
  let (encodedNum, encoded) ← front 4 encoded
  let numPrefixes := fromBeBytes encodedNum
  let prefixesLen := ((level + 1) + 7) / 8 * numPrefixes
  let (encodedPrefixes, encoded) ← front prefixesLen encoded
  let bytesPerPrefix := ((level + 1) + 7) / 8
  let prefixes ← mapRes (decodePrefix level) (batched encodedPrefixes bytesPerPrefix)
  raiseIf (encoded.length ≠ 0) "trailing bytes"
  return (level, prefixes)

/-- vdaf_poplar1.py:493-500 `encode_input_share` -/
def encodeInputShare (inputShare : Poplar1InputShare) : Res Bytes := do
  let inner ← encodeVec inputShare.corrInner
  let leaf ← encodeVec inputShare.corrLeaf
  return inputShare.key ++ inputShare.corrSeed ++ inner ++ leaf

/-- vdaf_poplar1.py:502-517 `decode_input_share` -/
def decodeInputShare (_aggId : Nat) (encoded : Bytes) : Res Poplar1InputShare := do
  let (key, encoded) ← front Idpf.KEY_SIZE encoded
  let (seed, encoded) ← front (xof prims fuel).seedSize encoded
  let (b, encoded) ← front (PyField.encSize Field64 * (P.idpf.bits - 1) * 2) encoded
  let inner ← decodeVec Field64 b
  let (b, encoded) ← front (PyField.encSize Field255 * 2) encoded
  let leaf ← decodeVec Field255 b
  raiseIf (encoded.length ≠ 0) "input share is too long"
  return ⟨key, seed, inner, leaf⟩

/-- vdaf_poplar1.py:519-520 `encode_public_share` -/
def encodePublicShare (publicShare : List CorrectionWord) : Res Bytes :=
  Idpf.encodePublicShare publicShare

/-- vdaf_poplar1.py:522-523 `decode_public_share` -/
def decodePublicShare (encoded : Bytes) : Res (List CorrectionWord) :=
  P.idpf.decodePublicShare encoded

/-- `field = self.idpf.current_field(level); return field.decode_vec(encoded)` -/
def decodeAtLevel (level : Nat) (encoded : Bytes) : Res FieldVec := do
  let v ← decodeVec (Fk (P.idpf.currentField level)) encoded
  return ⟨_, v⟩

/-- vdaf_poplar1.py:525-526 `encode_agg_share` -/
def encodeAggShare (aggShare : FieldVec) : Res Bytes := encodeIdpfFieldVec aggShare

/-- vdaf_poplar1.py:528-531 `decode_agg_share` -/
def decodeAggShare (aggParam : Poplar1AggParam) (encoded : Bytes) : Res FieldVec :=
  P.decodeAtLevel aggParam.1 encoded

/-- vdaf_poplar1.py:533-534 `encode_verifier_share` -/
def encodeVerifierShare (verifierShare : FieldVec) : Res Bytes := encodeIdpfFieldVec verifierShare

/-- vdaf_poplar1.py:536-539 `decode_verifier_share` -/
def decodeVerifierShare (st : Poplar1VerifyState) (encoded : Bytes) : Res FieldVec :=
  P.decodeAtLevel st.level encoded

/-- vdaf_poplar1.py:541-544 `encode_verifier_message` -/
def encodeVerifierMessage (msg : Option FieldVec) : Res Bytes :=
  match msg with
  | some v => encodeIdpfFieldVec v
  | none => .ok []

/-- vdaf_poplar1.py:546-551 `decode_verifier_message` -/
def decodeVerifierMessage (st : Poplar1VerifyState) (encoded : Bytes) : Res (Option FieldVec) :=
  if encoded.length = 0 then .ok none
  else do
    let v ← P.decodeAtLevel st.level encoded
    return some v

/-- vdaf_poplar1.py:553-554 `encode_out_share` -/
def encodeOutShare (outShare : FieldVec) : Res Bytes := encodeIdpfFieldVec outShare

/-- vdaf_poplar1.py:556-559 `decode_out_share` -/
def decodeOutShare (aggParam : Poplar1AggParam) (encoded : Bytes) : Res FieldVec :=
  P.decodeAtLevel aggParam.1 encoded

/-- `Poplar1` as a `Vdaf` -/
def vdaf : VdafImpl (List Bool) Poplar1AggParam (List CorrectionWord) Poplar1InputShare FieldVec
    FieldVec (List Nat) Poplar1VerifyState FieldVec (Option FieldVec) where
  id := ID
  verifyKeySize := verifyKeySize prims fuel
  nonceSize := NONCE_SIZE
  randSize := randSize prims fuel
  rounds := ROUNDS
  shares := SHARES
  shard := P.shard prims fuel
  isValid := isValid
  verifyInit := P.verifyInit prims fuel
  sharesToMessage := sharesToMessage
  verifyNext := verifyNext
  aggInit := P.aggInit
  aggUpdate := aggUpdate
  merge := P.merge
  unshard := P.unshard
  encodeAggParam := encodeAggParam
  decodeAggParam := decodeAggParam
  encodePublicShare := encodePublicShare
  decodePublicShare := P.decodePublicShare
  encodeInputShare := encodeInputShare
  decodeInputShare := P.decodeInputShare prims fuel
  encodeVerifierShare := encodeVerifierShare
  decodeVerifierShare := P.decodeVerifierShare
  encodeVerifierMessage := encodeVerifierMessage
  decodeVerifierMessage := P.decodeVerifierMessage

end Poplar1
end Vdaf
