import Verif.Spec.Decision
import Mathlib.MeasureTheory.Integral.IntervalIntegral.Basic

/-!
# Specification: the Anderson-Darling distance

Independent of the model.
-/

namespace Pysatl.Spec

/-- The Anderson-Darling distance of a sample of values in `(0,1)`: `n` times the integral of the
squared difference between the fraction of values at or below `u` and `u`, weighted by the inverse of
its variance `u (1 - u)`. -/
noncomputable def andersonDarling (L : List ℝ) : ℝ :=
  L.length * ∫ u in (0 : ℝ)..1, (fracLe L u - u) ^ 2 / (u * (1 - u))

end Pysatl.Spec
