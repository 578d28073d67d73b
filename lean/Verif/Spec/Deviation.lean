import Verif.Spec.BetaLaw

/-! # Specification: mean differences and least mean deviations of a law -/

namespace Pysatl.Spec

open MeasureTheory

/-- The mean distance of two independent observations. -/
noncomputable def lawDifference (μ : Measure ℝ) : ℝ := ∫ y, ∫ x, |x - y| ∂μ ∂μ

/-- The least mean absolute deviation from a point; the median is such a point. -/
noncomputable def leastDeviation (μ : Measure ℝ) : ℝ := ⨅ c, ∫ x, |x - c| ∂μ

/-- The Gini index: the mean distance of two observations over twice the mean. -/
noncomputable def giniIndex (μ : Measure ℝ) : ℝ := lawDifference μ / (2 * lawMean μ)

end Pysatl.Spec
