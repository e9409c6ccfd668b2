import Verif.Spec.Hiding
import Verif.Spec.Vec

/-!
# Specification vocabulary for the privacy of Poplar1

Aggregator `b` is corrupted, the other one is honest.  What the Client and the honest Aggregator derive from seeds
that `b` does not know is random: the expansions of the honest Aggregator's seeds along the path of the IDPF tree, the
authenticators, the honest Aggregator's triples, and the second Aggregator's shares of the correlated
randomness.  In the ideal process these values are uniformly random and independent; everything else is computed as
by the code.
-/

namespace Vdaf.Spec

/-- The IDPF of Poplar1: two elements for each prefix -/
abbrev poplarIdpf (bits : ℕ) : Idpf := ⟨2, bits⟩

/-- The field of a level -/
abbrev levelKind (bits level : ℕ) : Kind := (poplarIdpf bits).currentField level

/-- The random values of a report at one level -/
structure LevelCoins (κ : Kind) where
  /-- the expansion of the honest Aggregator's seed on the path -/
  tree : Expansion κ
  /-- the authenticator `k` -/
  auth : Fk κ
  /-- the triple `(a, b, c)` of the honest Aggregator -/
  triple : Fk κ × Fk κ × Fk κ
  /-- the share `(A, B)` of the second Aggregator -/
  helper : Fk κ × Fk κ

/-- The random values of a report -/
abbrev ReportCoins (bits : ℕ) := (level : Fin bits) → LevelCoins (levelKind bits level)

/-- All the choices of the random values: finitely many -/
def reportCoins (bits : ℕ) : Set (ReportCoins bits) := {c | ∀ level, (c level).tree.Sized 2}

/-- What Aggregator `b` sees when a report is verified at one level: the honest Aggregator's verifier share of the first
round, the verifier message that the honest Aggregator receives, and its verifier share of the second round -/
structure RoundView (κ : Kind) where
  first : Fk κ × Fk κ × Fk κ
  message : Fk κ × Fk κ × Fk κ
  second : Fk κ

/-- What Aggregator `b` sees of a report: the public share, its own shares `(A, B)` of the correlated randomness for
each level, and what it sees when the report is verified -/
structure ReportView (bits : ℕ) where
  publicShare : List CorrectionWord
  own : (level : Fin bits) → Fk (levelKind bits level) × Fk (levelKind bits level)
  rounds : (level : Fin bits) → RoundView (levelKind bits level)

/-- What is fixed: the context, the verification key, the number of the corrupted Aggregator and, for the report, the
nonce and the two seeds of the corrupted Aggregator -/
structure Known where
  ctx : Bytes
  verifyKey : Bytes
  b : ℕ
  nonce : Bytes
  key : Bytes
  corrSeed : Bytes

section
variable (prims : Prims) {bits : ℕ} (K : Known)

/-- The sums of the two Aggregators' shares: `A = -2a + k` and `B = a^2 + b - ak + c`, where `a`, `b` and `c` are the
sums of the elements of the two triples -/
def sumAB {F : Type} [PyField F] (t t' : F × F × F) (k : F) : F × F :=
  (-2 * (t.1 + t'.1) + k,
    (t.1 + t'.1) ^ 2 + (t.2.1 + t'.2.1) - (t.1 + t'.1) * k + (t.2.2 + t'.2.2))

/-- The share `(A, B)` of Aggregator `j`: that of the second Aggregator is random, the first one gets the difference
to the sum. -/
def shareAB {F : Type} [PyField F] (j : ℕ) (sum helper : F × F) : F × F :=
  if j = 1 then helper else (sum.1 - helper.1, sum.2 - helper.2)

/-- Aggregator `b`'s shares of the values at the prefixes are `ys`. -/
def OwnValues (κ : Kind) (pub : List CorrectionWord) (prefixes : List (List Bool)) (ys : List (Fk κ × Fk κ)) : Prop :=
  List.Forall₂ (fun p y => NodeValue prims bits 2 K.ctx K.nonce pub K.key K.b p κ [y.1, y.2]) prefixes ys

/-- 1 for a prefix of `alpha`, 0 for any other string -/
def isOn (κ : Kind) (alpha p : List Bool) : Fk κ := if p <+: alpha then 1 else 0

/-- Verification of the report at one level, with the honest Aggregator's values `(1, k)` at the prefix of `alpha` and
`(0, 0)` elsewhere, minus the shares of Aggregator `b` -/
def IdealRound (alpha : List Bool) (pub : List CorrectionWord) (level : ℕ) (prefixes : List (List Bool))
    (c : LevelCoins (levelKind bits level)) (v : RoundView (levelKind bits level)) : Prop :=
  ∃ (ys : List (Fk (levelKind bits level) × Fk (levelKind bits level))) (rs : List (Fk (levelKind bits level)))
    (t : Fk (levelKind bits level) × Fk (levelKind bits level) × Fk (levelKind bits level)) (pos : ℕ),
    OwnValues prims (bits := bits) K (levelKind bits level) pub prefixes ys ∧
    rs.length = prefixes.length ∧ Samples _ (verifyStream prims K.verifyKey K.ctx K.nonce level) 0 rs pos ∧
    CorrAt prims bits K.corrSeed K.ctx K.nonce K.b level _ [t.1, t.2.1, t.2.2] ∧
    (let ds := List.zipWith (fun p y => isOn _ alpha p - y.1) prefixes ys
     let hs := List.zipWith (fun p y => isOn _ alpha p * c.auth - y.2) prefixes ys
     let s := sketchOf ds hs rs
     v.first = (c.triple.1 + s.1, c.triple.2.1 + s.2.1, c.triple.2.2 + s.2.2)) ∧
    (let AB := shareAB (1 - K.b) (sumAB t c.triple c.auth) c.helper
     let z := v.message
     v.second = ((1 - K.b : ℕ) : Fk (levelKind bits level)) * (z.1 ^ 2 - z.2.1 - z.2.2) + AB.1 * z.1 + AB.2)

/-- Aggregator `b`'s own shares `(A, B)` for one level -/
def IdealOwn (level : ℕ) (c : LevelCoins (levelKind bits level))
    (own : Fk (levelKind bits level) × Fk (levelKind bits level)) : Prop :=
  ∃ t : Fk (levelKind bits level) × Fk (levelKind bits level) × Fk (levelKind bits level),
    CorrAt prims bits K.corrSeed K.ctx K.nonce K.b level _ [t.1, t.2.1, t.2.2] ∧
    own = shareAB K.b (sumAB t c.triple c.auth) c.helper

/-- The ideal process for a report with the measurement `alpha` and the random values `c` leads to the view `v`.  The
report is verified at the levels for which `queries` has a list of prefixes, once for each such level. -/
def IdealReport (queries : Fin bits → Option (List (List Bool))) (alpha : List Bool) (c : ReportCoins bits)
    (v : ReportView bits) : Prop :=
  IdealShare prims (poplarIdpf bits) K.ctx K.nonce K.b K.key alpha (fun level => [1, (c level).auth])
    (fun level => (c level).tree) v.publicShare ∧
  ∀ level : Fin bits, IdealOwn prims K level (c level) (v.own level) ∧
    ∀ prefixes, queries level = some prefixes →
      IdealRound prims K alpha v.publicShare level prefixes (c level) (v.rounds level)

/-- The authenticator of a level: those of the inner levels, and that of the last level -/
def authAt (ks : List Field64) (kLeaf : Field255) (level : ℕ) : (κ : Kind) → Option (Fk κ)
  | .inner => ks[level]?
  | .leaf => some kLeaf

/-- `c` are the values that are derived from the seeds that Aggregator `b` does not know: from the honest
Aggregator's input share `other` and from the seed `shardSeed` of the Client. `helper` is the input share of the second
Aggregator. -/
def CoinsFrom (ctx nonce : Bytes) (b : ℕ) (alpha : List Bool) (pub : List CorrectionWord)
    (other helper : Poplar1InputShare) (shardSeed : Bytes) (c : ReportCoins bits) : Prop :=
  ExpandedFrom prims (poplarIdpf bits) ctx nonce (1 - b) other.key alpha pub (fun level => (c level).tree) ∧
  (∀ level : Fin bits, CorrAt prims bits other.corrSeed ctx nonce (1 - b) level _
    [(c level).triple.1, (c level).triple.2.1, (c level).triple.2.2]) ∧
  ∃ (ks : List Field64) (kLeaf : Field255) (p1 p2 p3 p4 : ℕ), ks.length = bits - 1 ∧
    Samples Field64 (shardStream prims shardSeed ctx nonce) 0 ks p1 ∧
    Samples Field255 (shardStream prims shardSeed ctx nonce) p1 [kLeaf] p2 ∧
    Samples Field64 (shardStream prims shardSeed ctx nonce) p2 helper.corrInner p3 ∧
    Samples Field255 (shardStream prims shardSeed ctx nonce) p3 helper.corrLeaf p4 ∧
    ∀ level : Fin bits, authAt ks kLeaf level _ = some (c level).auth ∧
      abAt helper level _ = [(c level).helper.1, (c level).helper.2]

/-- The output share of the honest Aggregator: 1 at the prefix of `alpha` and 0 elsewhere, minus the output share of
Aggregator `b` -/
def OtherOut (alpha : List Bool) (pub : List CorrectionWord) (level : ℕ) (prefixes : List (List Bool))
    (out : List (Fk (levelKind bits level))) : Prop :=
  ∃ ys : List (Fk (levelKind bits level) × Fk (levelKind bits level)),
    OwnValues prims (bits := bits) K (levelKind bits level) pub prefixes ys ∧
    out = List.zipWith (fun p y => isOn _ alpha p - y.1) prefixes ys

end

/-- The ideal process for `n` reports with the measurements `alpha`: they are verified at the same levels with the same
prefixes, and at each of these levels Aggregator `b` also gets the honest Aggregator's aggregate share `agg`, the
sum of its output shares of the accepted reports. -/
def IdealBatch (prims : Prims) {bits n : ℕ} (K : Fin n → Known) (queries : Fin bits → Option (List (List Bool)))
    (accepted : Fin bits → Finset (Fin n)) (alpha : Fin n → List Bool) (c : Fin n → ReportCoins bits)
    (v : Fin n → ReportView bits) (agg : (level : Fin bits) → List (Fk (levelKind bits level))) : Prop :=
  (∀ i, IdealReport prims (K i) queries (alpha i) (c i) (v i)) ∧
  ∀ level prefixes, queries level = some prefixes → (agg level).length = prefixes.length ∧
    ∃ outs : accepted level → List (Fk (levelKind bits level)),
      (∀ i, OtherOut prims (K i.1) (alpha i.1) (v i.1).publicShare level prefixes (outs i)) ∧ IsSum outs (agg level)

end Vdaf.Spec
