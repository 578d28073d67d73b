import Verif.Spec.LMoments
import Mathlib.Probability.CDF
import Mathlib.MeasureTheory.Integral.Bochner.Basic

/-!
# Specification: the trimmed L-moments of a law

Independent of the model.
-/

namespace Pysatl.Spec

open MeasureTheory ProbabilityTheory

/-- The mean of the `j`-th smallest of `m` independent observations of a continuous law with distribution function `F`: the
mean of `m! / ((j - 1)! (m - j)!) F^(j - 1) (1 - F)^(m - j) x`. -/
noncomputable def meanOrderStatistic (j m : ℕ) (μ : Measure ℝ) : ℝ :=
  m.factorial / ((j - 1).factorial * (m - j).factorial) * ∫ x, cdf μ x ^ (j - 1) * (1 - cdf μ x) ^ (m - j) * x ∂μ

/-- The L-moment of order `r` of a law with `t` smallest and `t` largest conceptual observations trimmed (Elamir and
Seheult). -/
noncomputable def trimmedLMoment (t r : ℕ) (μ : Measure ℝ) : ℝ :=
  (∑ k ∈ Finset.range r, (-1 : ℝ) ^ k * (r - 1).choose k * meanOrderStatistic (r + t - k) (r + 2 * t) μ) / r

/-- Hosking's combination of the trimmed L-skewness and L-kurtosis of a law, with the constants that are used for samples
of more than fifty observations. -/
noncomputable def trimmedIndex (t : ℕ) (μ : Measure ℝ) : ℝ :=
  let c := lMomentNull t 51
  (trimmedLMoment t 3 μ / trimmedLMoment t 2 μ) ^ 2 / c.2.1 + (trimmedLMoment t 4 μ / trimmedLMoment t 2 μ - c.1) ^ 2 / c.2.2

end Pysatl.Spec
