import Mathlib.Data.Nat.Notation

/-! # Specification for C97: where the reports of a batch are from -/

namespace Vdaf.Spec

/-- The measurements of the honest Clients, in a list that has `none` for each report of somebody else -/
def honestMeasurements {Meas : Type} (origins : List (Option Meas)) : List Meas := origins.filterMap id

/-- How many reports are not from honest Clients -/
def strangers {Meas : Type} (origins : List (Option Meas)) : ℕ := origins.countP Option.isNone

/-- `x` is at least what the honest Clients contribute, and by at most `slack` larger. -/
def Within (x honest slack : ℕ) : Prop := honest ≤ x ∧ x ≤ honest + slack

end Vdaf.Spec
