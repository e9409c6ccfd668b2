import Verif.Model.Fields
import Verif.Model.Poplar1
import Verif.Model.Vdaf

/-! # Specification for C96: a collection of a batch by Poplar1 -/

namespace Vdaf.Spec

/-- The arguments of a collection of a batch of honest reports by Poplar1, and its result: the parameters are as
documented, and the batch is smaller than the field. -/
structure Collected (P : Poplar1) (bits : ℕ) (batch : List (List Bool × Bytes × Bytes)) (level : ℕ)
    (prefixes : List (List Bool)) (R : List ℕ) : Prop where
  hinit : Poplar1.init bits = .ok P
  hlevel : level < bits
  hlevel16 : level < 2 ^ 16
  distinct : prefixes.Nodup
  lengths : ∀ p ∈ prefixes, p.length = level + 1
  hbatch : ∀ m ∈ batch, m.1.length = bits ∧ m.2.1.length = 16 ∧ m.2.2.length = 128
  small : batch.length < PyField.modulus Field64
  hrun : ∃ (prims : Prims) (fuel : ℕ) (verifyKey ctx : Bytes), fuel < 2 ^ 120 ∧ verifyKey.length = 32 ∧
    ctx.length + 8 < 2 ^ 16 ∧ runVdaf (P.vdaf prims fuel) verifyKey (level, prefixes) ctx batch = .ok R

end Vdaf.Spec
