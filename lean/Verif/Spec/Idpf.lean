import Verif.Model.Idpf

/-! Specification of an incremental distributed point function. -/

namespace Vdaf.Spec

/-- The value programmed at a level, as integers: `beta_inner[level]` below the last level, `beta_leaf` at
the last. -/
def beta (bits : ℕ) (betaInner : List (List Field64)) (betaLeaf : List Field255) (level : ℕ) : Option (List ℕ) :=
  if level < bits - 1 then betaInner[level]?.map (List.map PyField.toNat)
  else some (betaLeaf.map PyField.toNat)

/-- The point function: the programmed value on the path to `alpha`, zero elsewhere. -/
def point (bits valueLen : ℕ) (alpha : List Bool) (betaInner : List (List Field64))
    (betaLeaf : List Field255) (p : List Bool) : Option (List ℕ) :=
  if p <+: alpha then beta bits betaInner betaLeaf (p.length - 1) else some (List.replicate valueLen 0)

end Vdaf.Spec
