import Mathlib.Probability.CDF
import Mathlib.MeasureTheory.Integral.Bochner.Basic

/-!
# Specification: the L-moments of a law

Independent of the model.
-/

namespace Pysatl.Spec

open MeasureTheory ProbabilityTheory

/-- Legendre's polynomial of degree `r`, shifted to the unit interval. -/
noncomputable def shiftedLegendre (r : ℕ) (u : ℝ) : ℝ :=
  ∑ k ∈ Finset.range (r + 1), (-1 : ℝ) ^ (r - k) * r.choose k * (r + k).choose k * u ^ k

/-- The L-moment of order `r` of a continuous law: the mean of `P (F x) x` with Legendre's shifted polynomial `P` of degree
`r - 1` and the distribution function `F`. -/
noncomputable def lawLMoment (r : ℕ) (μ : Measure ℝ) : ℝ := ∫ x, shiftedLegendre (r - 1) (cdf μ x) * x ∂μ

/-- Hosking's combination of the L-skewness and the L-kurtosis of a law, with the constants for large samples. -/
noncomputable def lMomentIndex (μ : Measure ℝ) : ℝ :=
  (lawLMoment 3 μ / lawLMoment 2 μ) ^ 2 / 0.0019434 + (lawLMoment 4 μ / lawLMoment 2 μ - 0.12291) ^ 2 / 0.00095785

end Pysatl.Spec
