import Verif.Model.Xof
import Verif.Model.Fields
import Mathlib.Data.List.Dedup

/-!
# Model of `poc/vdaf_poc/idpf.py` and `poc/vdaf_poc/idpf_bbcggi21.py`

An IDPF works over two fields, `Field64` for the inner nodes and `Field255` for the leaves.  A
Python list of field elements is a list over one of them: it is a `FieldVec`, a list together
with the field.  (Python lists could mix the two; the code never builds such a list, except `corr_offsets`,
see `Verif/Model/Poplar1.lean`.  The empty list also carries a field here; nothing depends on it.)
-/

namespace Vdaf

/-- The two fields of an IDPF: `field_inner` and `field_leaf` (idpf_bbcggi21.py:41-42). -/
inductive Kind where
  | inner
  | leaf
deriving DecidableEq, Repr

/-- idpf_bbcggi21.py:41-42 -/
def Fk : Kind → Type
  | .inner => Field64
  | .leaf => Field255

instance (κ : Kind) : PyField (Fk κ) :=
  match κ with
  | .inner => inferInstanceAs (PyField Field64)
  | .leaf => inferInstanceAs (PyField Field255)

/-- idpf_bbcggi21.py:26 `FieldVec` -/
abbrev FieldVec := Σ κ : Kind, List (Fk κ)

instance : DecidableEq FieldVec := inferInstance

/-- The other operand of an arithmetic operation: `Field.__add__`, `__sub__` and `__mul__`
(field.py:76-98) work with `other.val` modulo the `MODULUS` of the left operand, whatever the class of
the right operand.  If both have the same class this is the identity. -/
def castElem {κ : Kind} (κ' : Kind) (x : Fk κ) : Fk κ' :=
  ((PyField.toNat x : Nat) : Fk κ')

/-- `castElem` for lists -/
def castVec (κ : Kind) (v : FieldVec) : List (Fk κ) := v.2.map (castElem κ)

/-- common.py:83-87 `vec_add` for lists over either field -/
def vecAddF (left right : FieldVec) : Res FieldVec := do
  let v ← vecAdd left.2 (castVec left.1 right)
  return ⟨left.1, v⟩

/-- field.py:48-55, the class method `encode_vec` of one of the fields for a list over either -/
def encodeVecAs (κ : Kind) (vec : FieldVec) : Res Bytes :=
  forFold vec.2 [] fun encoded x =>
    match toLeBytes (PyField.toNat x : Int) (PyField.encSize (Fk κ)) with
    | .ok b => .ok (encoded ++ b)
    | .error e => .error e

/-- idpf_bbcggi21.py:27 `CorrectionWord` -/
structure CorrectionWord where
  seedCw : Bytes
  ctrlCw : Bool × Bool
  wCw : FieldVec
deriving DecidableEq

/-! ### Packing of the control bits -/

/-- idpf_bbcggi21.py:356-367 `pack_bits` -/
def packBits (controlBits : List Bool) : Res Bytes := do
  let packedLen := (controlBits.length + 7) / 8
  let buf ← forFold controlBits.zipIdx (List.replicate packedLen 0) fun buf (bit, i) => do
    let x ← getI buf (i / 8)
    setI buf (i / 8) (x ||| (bit.toNat <<< (i % 8)))
  -- `bytes(packed_control_buf)`
  mapRes (fun x => if x < 256 then .ok (UInt8.ofNat x) else .error (.value "bytes must be in range(0, 256)")) buf

/-- idpf_bbcggi21.py:370-387 `unpack_bits` -/
def unpackBits (packed : Bytes) (length : Nat) : Res (List Bool) := do
  let controlBits ← mapRes (fun i => do
    let b ← getI packed (i / 8)
    return (b.toNat >>> (i % 8)) &&& 1 != 0) (List.range length)
  -- `packed_control_bits[-1]`
  match packed.getLast? with
  | none => .error .index
  | some last =>
    let leftoverBits := last.toNat >>> ((length + 7) % 8 + 1)
    raiseIf ((length + 7) / 8 ≠ packed.length ∨ leftoverBits ≠ 0) "trailing bits"
    return controlBits

/-! ### The IDPF -/

/-- idpf_bbcggi21.py:30-62, the attributes of an `IdpfBBCGGI21` -/
structure Idpf where
  /-- `VALUE_LEN` -/
  valueLen : Nat
  /-- `BITS` -/
  bits : Nat

/-- idpf_bbcggi21.py:47-62 `__init__` -/
def Idpf.init (valueLen bits : Nat) : Res Idpf := do
  pyAssert (valueLen > 0)
  pyAssert (bits > 0)
  return ⟨valueLen, bits⟩

namespace Idpf

/-- idpf_bbcggi21.py:37-40 -/
def SHARES : Nat := 2
def KEY_SIZE : Nat := 16
def RAND_SIZE : Nat := 32
def NONCE_SIZE : Nat := 16

variable (I : Idpf) (prims : Prims) (fuel : Nat)

/-- idpf.py:134-139 `current_field` -/
def currentField (level : Nat) : Kind := if level < I.bits - 1 then .inner else .leaf

/-- idpf.py:141-149 `is_prefix` -/
def isPrefix (x y : List Bool) (level : Nat) : Bool := x = slice y 0 (level + 1)

/-- idpf_bbcggi21.py:306-313 `current_xof` -/
def currentXof (level : Nat) : Xof :=
  if level < I.bits - 1 then XofFixedKeyAes128 prims fuel else XofTurboShake128 prims fuel

/-- idpf_bbcggi21.py:281-286: the control bit is the least significant bit of the first byte,
which is then cleared. -/
def ctrlBit (s : Bytes) : Res (Bytes × Bool) :=
  match s with
  | [] => .error .index
  | b :: s => .ok ((b &&& 0xFE) :: s, b &&& 1 != 0)

/-- idpf_bbcggi21.py:265-287 `extend` -/
def extend (level : Nat) (seed ctx nonce : Bytes) : Res ((Bytes × Bytes) × (Bool × Bool)) := do
  let X := I.currentXof prims fuel level
  let dst ← formatDst 1 0 0
  let xof ← X.init seed (dst ++ ctx) nonce
  let (s0, xof) ← X.next xof KEY_SIZE
  let (s1, _) ← X.next xof KEY_SIZE
  let (s0, t0) ← ctrlBit s0
  let (s1, t1) ← ctrlBit s1
  return ((s0, s1), (t0, t1))

/-- idpf_bbcggi21.py:289-304 `convert` -/
def convert (level : Nat) (seed ctx nonce : Bytes) :
    Res (Bytes × List (Fk (I.currentField level))) := do
  let X := I.currentXof prims fuel level
  let dst ← formatDst 1 0 1
  let xof ← X.init seed (dst ++ ctx) nonce
  let (nextSeed, xof) ← X.next xof KEY_SIZE
  let (w, _) ← X.nextVec (Fk (I.currentField level)) X.fuel xof I.valueLen
  return (nextSeed, w)

/-- `p[i]` for a pair and a bit -/
def pick {α : Type} (p : α × α) (bit : Bool) : α := if bit then p.2 else p.1

/-- idpf_bbcggi21.py:126-129: the value to program at the level; the lists in `beta_inner` have elements of
`Field64`, that of `beta_leaf` of `Field255`. -/
def betaAt (betaInner : List (List Field64)) (betaLeaf : List Field255) (level : Nat) :
    (κ : Kind) → Res (List (Fk κ))
  | .inner => getI betaInner level
  | .leaf => .ok betaLeaf

/-- The state of the loop of `gen`: `seed`, `ctrl` and `public_share`. -/
structure GenState where
  seed : Bytes × Bytes
  ctrl : Bool × Bool
  publicShare : List CorrectionWord

/-- idpf_bbcggi21.py:111-122: the child seed and control bit of one party -/
def genKeep (s : Bytes × Bytes) (t : Bool × Bool) (ctrl keep : Bool) (seedCw : Bytes)
    (ctrlCw : Bool × Bool) : Bytes × Bool :=
  if ctrl then (xor (pick s keep) seedCw, Bool.xor (pick t keep) (pick ctrlCw keep))
  else (pick s keep, pick t keep)

/-- idpf_bbcggi21.py:94-144, the body of the loop of `gen` -/
def genLevel (alpha : List Bool) (betaInner : List (List Field64)) (betaLeaf : List Field255)
    (ctx nonce : Bytes) (st : GenState) (level : Nat) : Res GenState := do
  let bit ← getI alpha level
  let keep := bit
  let lose := !bit
  let (s0, t0) ← I.extend prims fuel level st.seed.1 ctx nonce
  let (s1, t1) ← I.extend prims fuel level st.seed.2 ctx nonce
  let seedCw := xor (pick s0 lose) (pick s1 lose)
  let ctrlCw := (Bool.xor (Bool.xor t0.1 t1.1) (!bit), Bool.xor (Bool.xor t0.2 t1.2) bit)
  let (x0, c0) := genKeep s0 t0 st.ctrl.1 keep seedCw ctrlCw
  let (x1, c1) := genKeep s1 t1 st.ctrl.2 keep seedCw ctrlCw
  let (seed0, w0) ← I.convert prims fuel level x0 ctx nonce
  let (seed1, w1) ← I.convert prims fuel level x1 ctx nonce
  let b ← betaAt betaInner betaLeaf level (I.currentField level)
  raiseIf (b.length ≠ I.valueLen) "length of beta must match the value length"
  let d ← vecSub b w0
  let wCw ← vecAdd d w1
  let wCw := if c1 then wCw.map fun x => -x else wCw
  return ⟨(seed0, seed1), (c0, c1), st.publicShare ++ [⟨seedCw, ctrlCw, ⟨_, wCw⟩⟩]⟩

/-- idpf_bbcggi21.py:69-145 `gen` -/
def gen (alpha : List Bool) (betaInner : List (List Field64)) (betaLeaf : List Field255)
    (ctx nonce rand : Bytes) : Res (List CorrectionWord × List Bytes) := do
  raiseIf (alpha.length ≠ I.bits) "incorrect alpha length"
  raiseIf (betaInner.length ≠ I.bits - 1) "incorrect beta_inner length"
  raiseIf (rand.length ≠ RAND_SIZE) "incorrect rand size"
  raiseIf (nonce.length ≠ NONCE_SIZE) "incorrect nonce size"
  let key0 := rand.take 16
  let key1 := rand.drop 16
  let st ← forFold (List.range I.bits) ⟨(key0, key1), (false, true), []⟩
    (I.genLevel prims fuel alpha betaInner betaLeaf ctx nonce)
  return (st.publicShare, [key0, key1])

/-- idpf_bbcggi21.py:217-258 `eval_next` -/
def evalNext (prevSeed : Bytes) (prevCtrl : Bool) (cw : CorrectionWord) (level : Nat) (bit : Bool)
    (ctx nonce : Bytes) : Res (Bytes × Bool × List (Fk (I.currentField level))) := do
  let (s, t) ← I.extend prims fuel level prevSeed ctx nonce
  let s := if prevCtrl then (xor s.1 cw.seedCw, xor s.2 cw.seedCw) else s
  let t := if prevCtrl then (Bool.xor t.1 cw.ctrlCw.1, Bool.xor t.2 cw.ctrlCw.2) else t
  let nextCtrl := pick t bit
  let (nextSeed, y) ← I.convert prims fuel level (pick s bit) ctx nonce
  let y ← if nextCtrl then
      forFold (List.range y.length) y fun y i => do
        let yi ← getI y i
        let wi ← getI (castVec _ cw.wCw) i
        setI y i (yi + wi)
    else .ok y
  return (nextSeed, nextCtrl, y)

/-- idpf_bbcggi21.py:182-207, one iteration of the loop along a prefix, without the value -/
def evalStep (publicShare : List CorrectionWord) (prefix_ : List Bool) (ctx nonce : Bytes)
    (st : Bytes × Bool) (currentLevel : Nat) : Res (Bytes × Bool) := do
  let bit ← getI prefix_ currentLevel
  let cw ← getI publicShare currentLevel
  let (seed, ctrl, _) ← I.evalNext prims fuel st.1 st.2 cw currentLevel bit ctx nonce
  return (seed, ctrl)

/-- idpf_bbcggi21.py:170-211, the body of the loop over the prefixes.  The last iteration of the inner
loop, whose value `y` is used, is written out. -/
def evalPrefix (aggId : Nat) (publicShare : List CorrectionWord) (key : Bytes) (level : Nat)
    (ctx nonce : Bytes) (prefix_ : List Bool) : Res (List (Fk (I.currentField level))) := do
  raiseIf (prefix_.length ≠ level + 1) "incorrect prefix length"
  let (seed, ctrl) ← forFold (List.range level) (key, decide (aggId ≠ 0))
    (I.evalStep prims fuel publicShare prefix_ ctx nonce)
  let bit ← getI prefix_ level
  let cw ← getI publicShare level
  let (_, _, y) ← I.evalNext prims fuel seed ctrl cw level bit ctx nonce
  if aggId = 0 then return y else return vecNeg y

/-- idpf_bbcggi21.py:153-215 `eval`.  `agg_id` and `level` may be any integers. -/
def eval (aggId : Int) (publicShare : List CorrectionWord) (key : Bytes) (level : Int)
    (prefixes : List (List Bool)) (ctx nonce : Bytes) :
    Res (List (List (Fk (I.currentField level.toNat)))) := do
  raiseIf (¬ (0 ≤ aggId ∧ aggId < SHARES)) "aggregator id out of range"
  raiseIf (¬ (0 ≤ level ∧ level < I.bits)) "level out of range"
  -- `len(set(prefixes)) != len(prefixes)`
  raiseIf (prefixes.dedup.length ≠ prefixes.length) "prefixes must be unique"
  mapRes (I.evalPrefix prims fuel aggId.toNat publicShare key level.toNat ctx nonce) prefixes

/-! ### Encoding of the public share -/

/-- idpf_bbcggi21.py:315-326 `encode_public_share`.  Unpacking `zip(*[])` raises `ValueError`. -/
def encodePublicShare (publicShare : List CorrectionWord) : Res Bytes := do
  raiseIf (publicShare = []) "not enough values to unpack"
  let seeds := publicShare.map CorrectionWord.seedCw
  let ctrl := publicShare.map CorrectionWord.ctrlCw
  let payloads := publicShare.map CorrectionWord.wCw
  let encoded ← packBits (ctrl.flatMap fun c => [c.1, c.2])
  let encoded := seeds.foldl (fun encoded seed => encoded ++ seed) encoded
  let encoded ← forFold payloads.dropLast encoded fun encoded payload => do
    let b ← encodeVecAs .inner payload
    return encoded ++ b
  -- `payloads[-1]`
  match payloads.getLast? with
  | none => .error .index
  | some payload => do
    let b ← encodeVecAs .leaf payload
    return encoded ++ b

/-- idpf_bbcggi21.py:328-353 `decode_public_share` -/
def decodePublicShare (encoded : Bytes) : Res (List CorrectionWord) := do
  let (encodedCtrl, encoded) ← front ((2 * I.bits + 7) / 8) encoded
  let flattenedCtrl ← unpackBits encodedCtrl (2 * I.bits)
  let ctrl ← mapRes (fun level => do
    let a ← getI flattenedCtrl (2 * level)
    let b ← getI flattenedCtrl (2 * level + 1)
    return (a, b)) (List.range I.bits)
  let (seeds, encoded) ← forFold (List.range I.bits) (([] : List Bytes), encoded)
    fun (seeds, encoded) _ => do
      let (seed, encoded) ← front KEY_SIZE encoded
      return (seeds ++ [seed], encoded)
  let (payloads, encoded) ← forFold (List.range I.bits) (([] : List FieldVec), encoded)
    fun (payloads, encoded) level => do
      let κ := I.currentField level
      let (b, encoded) ← front (PyField.encSize (Fk κ) * I.valueLen) encoded
      let payload ← decodeVec (Fk κ) b
      return (payloads ++ [⟨κ, payload⟩], encoded)
  raiseIf (encoded.length ≠ 0) "trailing bytes"
  -- `list(zip(seeds, ctrl, payloads))`
  return List.zipWith (fun seed (c, payload) => ⟨seed, c, payload⟩) seeds (List.zip ctrl payloads)

end Idpf
end Vdaf
