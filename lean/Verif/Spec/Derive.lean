import Verif.Spec.Xof
import Verif.Spec.Poplar1

/-!
# Where the pseudorandom values of the IDPF and of Poplar1 come from

Everything is described in terms of the two primitives: the output of a XOF is an infinite stream of bytes,
determined by seed, tag and binder; values are read from it at byte positions.
-/

namespace Vdaf.Spec

/-- `n` bytes of a stream, starting at position `pos` -/
def bytesAt (s : ℕ → UInt8) (pos n : ℕ) : Bytes := (List.range n).map fun i => s (pos + i)

/-- The stream of `XofTurboShake128(seed, dst, binder)`: TurboSHAKE128 with domain byte 1 of the tag (preceded
by its length, two bytes), the seed (preceded by its length, one byte) and the binder -/
def turboStream (prims : Prims) (seed dst binder : Bytes) : ℕ → UInt8 :=
  prims.turboShake (natToLe dst.length 2 ++ dst ++ natToLe seed.length 1 ++ seed ++ binder) 1

/-- The stream of `XofFixedKeyAes128(seed, dst, binder)`: the key is the first 16 bytes of TurboSHAKE128 with
domain byte 2 of the tag (preceded by its length, two bytes) and the binder -/
def fixedKeyStream (prims : Prims) (seed dst binder : Bytes) : ℕ → UInt8 :=
  aesByte prims (firstBytes (prims.turboShake (natToLe dst.length 2 ++ dst ++ binder) 2) 16) seed

/-- `Samples F s pos v pos'`: sampling the elements `v` from the stream `s` by rejection, starting at byte `pos`,
consumes the stream up to byte `pos'`. -/
inductive Samples (F : Type) [PyField F] (s : ℕ → UInt8) : ℕ → List F → ℕ → Prop
  | done (pos) : Samples F s pos [] pos
  | accept (pos x v pos') : sample F (bytesAt s pos (PyField.encSize F)) = some x →
      Samples F s (pos + PyField.encSize F) v pos' → Samples F s pos (x :: v) pos'
  | reject (pos x v pos') : sample F (bytesAt s pos (PyField.encSize F)) = none →
      Samples F s (pos + PyField.encSize F) (x :: v) pos' → Samples F s pos (x :: v) pos'

/-! ### The IDPF -/

/-- The tag of the IDPF: the version 18, the class 1 of IDPFs, the algorithm identifier 0 (four bytes), the usage
(two bytes, big-endian), and the application context -/
def idpfTag (usage : ℕ) (ctx : Bytes) : Bytes := [18, 1, 0, 0, 0, 0, 0, UInt8.ofNat usage] ++ ctx

/-- The stream for a node of the tree at some level: fixed-key AES for the inner levels, TurboSHAKE for the
last one -/
def idpfStream (prims : Prims) (bits level usage : ℕ) (seed ctx nonce : Bytes) : ℕ → UInt8 :=
  if level + 1 < bits then fixedKeyStream prims seed (idpfTag usage ctx) nonce
  else turboStream prims seed (idpfTag usage ctx) nonce

/-- A seed with the lowest bit of its first byte cleared -/
def clearBit (seed : Bytes) : Bytes :=
  (seed.take 1).map (fun b => UInt8.ofNat (b.toNat / 2 * 2)) ++ seed.drop 1

/-- The lowest bit of the first byte of a seed -/
def lowBit (seed : Bytes) : Bool := seed.take 1 |>.any fun b => b.toNat % 2 = 1

/-- The seed from which the child along `bit` of a node is computed: one half of the node's stream with the lowest
bit of the first byte cleared, corrected if the control bit of the node is set -/
def childSeed (prims : Prims) (bits : ℕ) (ctx nonce : Bytes) (level : ℕ) (seed : Bytes) (ctrl bit : Bool)
    (cw : CorrectionWord) : Bytes :=
  let s := clearBit (bytesAt (idpfStream prims bits level 0 seed ctx nonce) (if bit then 16 else 0) 16)
  if ctrl then List.zipWith (· ^^^ ·) s cw.seedCw else s

/-- The control bit of the child along `bit`: the bit that was cleared, corrected if the control bit of the node is
set -/
def childCtrl (prims : Prims) (bits : ℕ) (ctx nonce : Bytes) (level : ℕ) (seed : Bytes) (ctrl bit : Bool)
    (cw : CorrectionWord) : Bool :=
  let t := lowBit (bytesAt (idpfStream prims bits level 0 seed ctx nonce) (if bit then 16 else 0) 16)
  if ctrl then t != (if bit then cw.ctrlCw.2 else cw.ctrlCw.1) else t

/-- `Node prims bits ctx nonce pub key j p seed ctrl`: in the tree of Aggregator `j` the node at the prefix `p` has
the seed `seed` and the control bit `ctrl`. -/
inductive Node (prims : Prims) (bits : ℕ) (ctx nonce : Bytes) (pub : List CorrectionWord) (key : Bytes) (j : ℕ) :
    List Bool → Bytes → Bool → Prop
  | root : Node prims bits ctx nonce pub key j [] key (j == 1)
  | child (p seed ctrl bit cw) : Node prims bits ctx nonce pub key j p seed ctrl → pub[p.length]? = some cw →
      Node prims bits ctx nonce pub key j (p ++ [bit])
        (bytesAt (idpfStream prims bits p.length 1 (childSeed prims bits ctx nonce p.length seed ctrl bit cw) ctx nonce)
          0 16)
        (childCtrl prims bits ctx nonce p.length seed ctrl bit cw)

/-- The uncorrected value of the child along `bit` of a node: sampled from the stream after the child's seed -/
def RawValue (prims : Prims) (bits valueLen : ℕ) (ctx nonce : Bytes) (level : ℕ) (seed : Bytes) (ctrl bit : Bool)
    (cw : CorrectionWord) (κ : Kind) (w : List (Fk κ)) : Prop :=
  w.length = valueLen ∧ ∃ pos', Samples (Fk κ)
    (idpfStream prims bits level 1 (childSeed prims bits ctx nonce level seed ctrl bit cw) ctx nonce) 16 w pos'

/-- `NodeValue … p κ y`: Aggregator `j`'s share of the value at the prefix `p` is `y`: the uncorrected value, plus the
correction word if the control bit is set, negated by the second Aggregator. -/
def NodeValue (prims : Prims) (bits valueLen : ℕ) (ctx nonce : Bytes) (pub : List CorrectionWord) (key : Bytes)
    (j : ℕ) (p : List Bool) (κ : Kind) (y : List (Fk κ)) : Prop :=
  ∃ q seed ctrl bit cw w, p = q ++ [bit] ∧ Node prims bits ctx nonce pub key j q seed ctrl ∧
    pub[q.length]? = some cw ∧ RawValue prims bits valueLen ctx nonce q.length seed ctrl bit cw κ w ∧
    let z := if childCtrl prims bits ctx nonce q.length seed ctrl bit cw then
      List.zipWith (· + ·) w (castVec κ cw.wCw) else w
    y = if j = 0 then z else z.map fun x => -x

/-- The value to be programmed at a level -/
def betaOf (betaInner : List (List Field64)) (betaLeaf : List Field255) (level : ℕ) : (κ : Kind) → Option (List (Fk κ))
  | .inner => betaInner[level]?
  | .leaf => some betaLeaf

/-! ### Poplar1 -/

/-- Aggregator `j`'s shares `(a, b, c)` for all the inner levels: usage 2, with the Aggregator and the nonce as the
binder -/
def corrInnerStream (prims : Prims) (corrSeed ctx nonce : Bytes) (j : ℕ) : ℕ → UInt8 :=
  turboStream prims corrSeed (tag 6 2 ctx) (UInt8.ofNat j :: nonce)

/-- Aggregator `j`'s shares `(a, b, c)` for the last level: usage 3 -/
def corrLeafStream (prims : Prims) (corrSeed ctx nonce : Bytes) (j : ℕ) : ℕ → UInt8 :=
  turboStream prims corrSeed (tag 6 3 ctx) (UInt8.ofNat j :: nonce)

/-- The Client's own randomness: usage 1, with the nonce as the binder -/
def shardStream (prims : Prims) (seed ctx nonce : Bytes) : ℕ → UInt8 := turboStream prims seed (tag 6 1 ctx) nonce

/-- The verification randomness: usage 4, with the nonce and the level (two bytes, big-endian) as the binder -/
def verifyStream (prims : Prims) (verifyKey ctx nonce : Bytes) (level : ℕ) : ℕ → UInt8 :=
  turboStream prims verifyKey (tag 6 4 ctx) (nonce ++ [UInt8.ofNat (level / 2 ^ 8), UInt8.ofNat level])

/-- The purposes for which Poplar1 expands a seed -/
inductive Poplar1Use
  | shard
  | corrInner (j : ℕ)
  | corrLeaf (j : ℕ)
  | verify (level : ℕ)

/-- The number of a purpose in the tag -/
def Poplar1Use.usage : Poplar1Use → ℕ
  | .shard => 1
  | .corrInner _ => 2
  | .corrLeaf _ => 3
  | .verify _ => 4

/-- The binder of a purpose -/
def Poplar1Use.binder (nonce : Bytes) : Poplar1Use → Bytes
  | .shard => nonce
  | .corrInner j => UInt8.ofNat j :: nonce
  | .corrLeaf j => UInt8.ofNat j :: nonce
  | .verify level => nonce ++ [UInt8.ofNat (level / 2 ^ 8), UInt8.ofNat level]

/-- The Aggregators are numbered below 256, the levels below 2^16. -/
def Poplar1Use.InRange : Poplar1Use → Prop
  | .shard => True
  | .corrInner j => j < 256
  | .corrLeaf j => j < 256
  | .verify level => level < 2 ^ 16

/-- The stream for a purpose -/
def Poplar1Use.stream (prims : Prims) (seed ctx nonce : Bytes) : Poplar1Use → ℕ → UInt8
  | .shard => shardStream prims seed ctx nonce
  | .corrInner j => corrInnerStream prims seed ctx nonce j
  | .corrLeaf j => corrLeafStream prims seed ctx nonce j
  | .verify level => verifyStream prims seed ctx nonce level

/-- `abc` are the three elements for the level that Aggregator `j` expands from its seed: three elements of
`Field64` after those of the levels before, or, for the last level, the first three elements of `Field255`. -/
def CorrAt (prims : Prims) (bits : ℕ) (corrSeed ctx nonce : Bytes) (j level : ℕ) : (κ : Kind) → List (Fk κ) → Prop
  | .inner, abc => level + 1 < bits ∧ ∃ before pos pos', before.length = 3 * level ∧ abc.length = 3 ∧
      Samples (Fk .inner) (corrInnerStream prims corrSeed ctx nonce j) 0 before pos ∧
      Samples (Fk .inner) (corrInnerStream prims corrSeed ctx nonce j) pos abc pos'
  | .leaf, abc => ¬ level + 1 < bits ∧ ∃ pos', abc.length = 3 ∧
      Samples (Fk .leaf) (corrLeafStream prims corrSeed ctx nonce j) 0 abc pos'

/-- The two numbers for the level in an input share -/
def abAt (s : Poplar1InputShare) (level : ℕ) : (κ : Kind) → List (Fk κ)
  | .inner => (s.corrInner.drop (2 * level)).take 2
  | .leaf => s.corrLeaf

/-- The relation between the correlated randomness of a level, the authenticator `k` of the level and the shares
`ab0`, `ab1` that the Client sends: `A = -2a + k` and `B = a^2 + b - ak + c` -/
def CorrRel {F : Type} [PyField F] (abc0 abc1 : List F) (k : F) (ab0 ab1 : List F) : Prop :=
  ∃ a0 b0 c0 a1 b1 c1 A0 B0 A1 B1 : F, abc0 = [a0, b0, c0] ∧ abc1 = [a1, b1, c1] ∧ ab0 = [A0, B0] ∧
    ab1 = [A1, B1] ∧ A0 + A1 = -2 * (a0 + a1) + k ∧
    B0 + B1 = (a0 + a1) ^ 2 + (b0 + b1) - (a0 + a1) * k + (c0 + c1)

/-- The sketch of the values `(d, h)` at the prefixes, with one random element `r` per prefix:
`sum d r`, `sum d r^2` and `sum h r` -/
def sketchOf {F : Type} [PyField F] (ds hs rs : List F) : F × F × F :=
  ((List.zipWith (fun d r => d * r) ds rs).sum, (List.zipWith (fun d r => d * r ^ 2) ds rs).sum,
    (List.zipWith (fun h r => h * r) hs rs).sum)

end Vdaf.Spec
