import Mathlib.Data.Real.Basic

/-!
# Specification: samples that differ in a few observations
-/

namespace Pysatl.Spec

/-- In how many places two samples of the same size differ. -/
noncomputable def differing (xs ys : List ℝ) : ℕ :=
  (xs.zip ys).countP fun p => p.1 ≠ p.2

end Pysatl.Spec
