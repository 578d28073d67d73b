import Mathlib.Probability.Distributions.Exponential
import Mathlib.MeasureTheory.Integral.Bochner.Basic
import Mathlib.MeasureTheory.Measure.Dirac

/-!
# Specification: scale-free functionals of a distribution

Independent of the model.  Every functional is defined for an arbitrary law on the real line; it is
used for the empirical law of a sample and for the exponential laws.
-/

namespace Pysatl.Spec

open MeasureTheory ProbabilityTheory

/-- The empirical law of a sample: mass `1/n` at every observation. -/
noncomputable def empiricalLaw (xs : List ℝ) : Measure ℝ :=
  (xs.length : ENNReal)⁻¹ • (xs.map fun x => Measure.dirac x).sum

/-- The mean of a law. -/
noncomputable def lawMean (μ : Measure ℝ) : ℝ := ∫ x, x ∂μ

/-- The Laplace transform of the law of `X / E X` at 1. -/
noncomputable def laplaceRatio (μ : Measure ℝ) : ℝ := ∫ x, Real.exp (-(x / lawMean μ)) ∂μ

/-- The mean logarithm of `X / E X`. -/
noncomputable def logRatio (μ : Measure ℝ) : ℝ := ∫ x, Real.log (x / lawMean μ) ∂μ

/-- The mean of `log Y * (1 - Y)` for `Y = X / E X`. -/
noncomputable def logTilt (μ : Measure ℝ) : ℝ :=
  ∫ x, Real.log (x / lawMean μ) * (1 - x / lawMean μ) ∂μ

/-- The power mean of order `p` relative to the mean. -/
noncomputable def powerMeanRatio (p : ℝ) (μ : Measure ℝ) : ℝ := (∫ x, x ^ p ∂μ) ^ (1 / p) / lawMean μ

/-- Half the mean absolute deviation relative to the mean: the largest vertical distance between the
diagonal and the Lorenz curve. -/
noncomputable def pietraIndex (μ : Measure ℝ) : ℝ := (∫ x, |x - lawMean μ| ∂μ) / (2 * lawMean μ)

/-- The squared coefficient of variation. -/
noncomputable def cvSquared (μ : Measure ℝ) : ℝ := (∫ x, (x - lawMean μ) ^ 2 ∂μ) / lawMean μ ^ 2

/-- `t` is the `k`-th smallest observation. -/
def IsOrderStat (xs : List ℝ) (k : ℕ) (t : ℝ) : Prop :=
  t ∈ xs ∧ xs.countP (fun x => x < t) < k ∧ k ≤ xs.countP (fun x => x ≤ t)

/-- Total time on test up to `t`. -/
noncomputable def totalTime (xs : List ℝ) (t : ℝ) : ℝ := (xs.map fun x => min x t).sum

/-- `r` is the integer nearest to `n / m`; a tie is resolved in favour of the even integer. -/
def IsRounded (n m r : ℕ) : Prop :=
  2 * m * r ≤ 2 * n + m ∧ 2 * n ≤ 2 * m * r + m ∧
    (2 * m * r = 2 * n + m ∨ 2 * n = 2 * m * r + m → Even r)

end Pysatl.Spec
