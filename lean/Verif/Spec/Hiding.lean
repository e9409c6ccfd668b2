import Verif.Spec.Derive

/-!
# Specification vocabulary for what one key of the IDPF reveals

One Aggregator, `b`, knows its own key and the public share.  The other Aggregator's key is unknown to it, so all
that the Client expands from the other Aggregator's seeds along the path is pseudorandom to `b`.  In the ideal
process these expansions are replaced by uniformly random ones, independent for each level.
-/

namespace Vdaf.Spec

/-- What the Client expands at one level from the seed of the node on the path of the other Aggregator: the two
halves of the node's stream, and the uncorrected value of the child on the path -/
structure Expansion (κ : Kind) where
  left : Bytes
  right : Bytes
  value : List (Fk κ)

/-- One expansion for each level -/
abbrev Expansions (I : Idpf) := (level : Fin I.bits) → Expansion (I.currentField level)

/-- The expansions have the right sizes: two seeds of 16 bytes and `VALUE_LEN` field elements -/
def Expansion.Sized (valueLen : ℕ) {κ : Kind} (e : Expansion κ) : Prop :=
  e.left.length = 16 ∧ e.right.length = 16 ∧ e.value.length = valueLen

/-- All the choices of expansions: finitely many -/
def expansions (I : Idpf) : Set (Expansions I) := {e | ∀ level, (e level).Sized I.valueLen}

/-- The correction word `cw` of a level in the ideal process: the expansion of Aggregator `b` is computed from its
key, that of the other Aggregator is `e`. -/
def IdealWord (prims : Prims) (I : Idpf) (ctx nonce : Bytes) (b : ℕ) (key : Bytes) (alpha : List Bool)
    (pub : List CorrectionWord) (level : ℕ) (beta : List (Fk (I.currentField level)))
    (e : Expansion (I.currentField level)) (cw : CorrectionWord) : Prop :=
  ∃ bit seed ctrl w, alpha[level]? = some bit ∧
    Node prims I.bits ctx nonce pub key b (alpha.take level) seed ctrl ∧
    RawValue prims I.bits I.valueLen ctx nonce level seed ctrl bit cw (I.currentField level) w ∧
    (let s := idpfStream prims I.bits level 0 seed ctx nonce
     cw.seedCw = List.zipWith (· ^^^ ·) (clearBit (bytesAt s (if bit then 0 else 16) 16))
        (clearBit (if bit then e.left else e.right)) ∧
      cw.ctrlCw = ((lowBit (bytesAt s 0 16) != lowBit e.left) != !bit,
        (lowBit (bytesAt s 16 16) != lowBit e.right) != bit)) ∧
    (let ctrl' := childCtrl prims I.bits ctx nonce level seed ctrl bit cw
     let w0 := if b = 0 then w else e.value
     let w1 := if b = 0 then e.value else w
     let d := List.zipWith (· + ·) (List.zipWith (· - ·) beta w0) w1
     -- negated if the control bit of the child of Aggregator 1 is set; those of the two Aggregators differ
     cw.wCw = ⟨I.currentField level, if (if b = 0 then !ctrl' else ctrl') then d.map fun x => -x else d⟩)

/-- `pub` is the public share of the ideal process: for the point `alpha`, the values `beta`, the key of Aggregator
`b` and the expansions `e` of the other Aggregator. -/
def IdealShare (prims : Prims) (I : Idpf) (ctx nonce : Bytes) (b : ℕ) (key : Bytes) (alpha : List Bool)
    (beta : (level : Fin I.bits) → List (Fk (I.currentField level))) (e : Expansions I)
    (pub : List CorrectionWord) : Prop :=
  pub.length = I.bits ∧ ∀ level : Fin I.bits, ∃ cw, pub[level.val]? = some cw ∧
    IdealWord prims I ctx nonce b key alpha pub level (beta level) (e level) cw

/-- `e` are the expansions that are computed from the key of Aggregator `j`, along the path to `alpha`. -/
def ExpandedFrom (prims : Prims) (I : Idpf) (ctx nonce : Bytes) (j : ℕ) (key : Bytes) (alpha : List Bool)
    (pub : List CorrectionWord) (e : Expansions I) : Prop :=
  ∀ level : Fin I.bits, ∃ bit cw seed ctrl, alpha[level.val]? = some bit ∧ pub[level.val]? = some cw ∧
    Node prims I.bits ctx nonce pub key j (alpha.take level) seed ctrl ∧
    (e level).left = bytesAt (idpfStream prims I.bits level 0 seed ctx nonce) 0 16 ∧
    (e level).right = bytesAt (idpfStream prims I.bits level 0 seed ctx nonce) 16 16 ∧
    RawValue prims I.bits I.valueLen ctx nonce level seed ctrl bit cw (I.currentField level) (e level).value

/-- The format of a public share: one correction word for each level, with a seed of 16 bytes the lowest bit of which
is zero, and `VALUE_LEN` elements of the field of the level -/
def PublicShareFormat (I : Idpf) (pub : List CorrectionWord) : Prop :=
  pub.length = I.bits ∧ ∀ level < I.bits, ∃ cw v, pub[level]? = some cw ∧ cw.seedCw.length = 16 ∧
    lowBit cw.seedCw = false ∧ cw.wCw = ⟨I.currentField level, v⟩ ∧ v.length = I.valueLen

/-- Aggregator `b` has a value at every prefix of `alpha` (sampling it by rejection ends). -/
def HasValues (prims : Prims) (I : Idpf) (ctx nonce : Bytes) (pub : List CorrectionWord) (key : Bytes) (b : ℕ)
    (alpha : List Bool) : Prop :=
  ∀ level < I.bits, ∃ y, NodeValue prims I.bits I.valueLen ctx nonce pub key b (alpha.take (level + 1))
    (I.currentField level) y

end Vdaf.Spec
