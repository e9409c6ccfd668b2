import Verif.Spec.Flp

/-! # Specification for C95: what it means that two circuits mean the same -/

namespace Vdaf.Spec

variable {F : Type} [NttField F] {Meas Agg : Type}

/-- Two circuits encode, truncate and decode in the same way. -/
structure SameEncoding (V V' : Valid F Meas Agg) : Prop where
  measLen : V'.measLen = V.measLen
  outputLen : V'.outputLen = V.outputLen
  encode : V'.encode = V.encode
  truncate : V'.truncate = V.truncate
  decode : V'.decode = V.decode

/-- The vector is accepted with every joint randomness. -/
def PassesAlways (V : Valid F Meas Agg) (meas : List F) : Prop :=
  ∀ jr : List F, jr.length = V.jointRandLen → Accepts V meas jr

/-- The vector is accepted with more than `chunk_length * MODULUS ** (JOINT_RAND_LEN - 1)` of the
`MODULUS ** JOINT_RAND_LEN` choices of the joint randomness: with a larger fraction than
`chunk_length / MODULUS`. -/
def PassesOften (V : Valid F Meas Agg) (chunkLength : ℕ) (meas : List F) : Prop :=
  chunkLength * PyField.modulus F ^ (V.jointRandLen - 1) <
    Set.ncard {jr : Fin V.jointRandLen → F | Accepts V meas (List.ofFn jr)}

/-- The circuits `V` (with the given chunk length) and `V'` accept the same vectors: those that
`V` accepts more often than an invalid vector, `V'` accepts always; those that `V` accepts
always, it also accepts often. -/
def SameLanguage (V V' : Valid F Meas Agg) (chunkLength : ℕ) : Prop :=
  ∀ meas : List F, meas.length = V.measLen →
    (PassesOften V chunkLength meas → PassesAlways V' meas) ∧
    (chunkLength < PyField.modulus F → PassesAlways V meas → PassesOften V chunkLength meas)

end Vdaf.Spec
