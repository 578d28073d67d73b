import Mathlib.Probability.Distributions.Gaussian.Real
import Verif.Spec.Functional

/-!
# Specification: statistics of plotting positions

Independent of the model.
-/

namespace Pysatl.Spec

open MeasureTheory ProbabilityTheory

/-- `o 1, …, o n` are the observations in increasing order. -/
def OrderStats (xs : List ℝ) (o : ℕ → ℝ) : Prop :=
  ∀ i, 1 ≤ i → i ≤ xs.length → IsOrderStat xs i (o i)

/-- Distribution function of the exponential law with the mean of the sample. -/
noncomputable def fittedExp (xs : List ℝ) (x : ℝ) : ℝ := cdf (expMeasure (xs.length / xs.sum)) x

/-- The normal distribution function fitted by the mean and the unbiased variance of the sample. -/
noncomputable def fittedNormal (xs : List ℝ) (x : ℝ) : ℝ :=
  cdf (gaussianReal 0 1) ((x - xs.sum / xs.length) /
    √((xs.map fun y => (y - xs.sum / xs.length) ^ 2).sum / ((xs.length : ℝ) - 1)))

/-- The transformation that stabilises the variance of a plotting position. -/
noncomputable def stabilise (u : ℝ) : ℝ := 2 / Real.pi * Real.arcsin √u

/-- Kochar's score function. -/
noncomputable def kocharJ (u : ℝ) : ℝ := 2 * (1 - u) * (1 - Real.log (1 - u)) - 1

/-- `q i` is the quantile of order `i / (n + 1)` of the law `μ`. -/
def MeanRankQuantiles (μ : Measure ℝ) (n : ℕ) (q : ℕ → ℝ) : Prop :=
  ∀ i, 1 ≤ i → i ≤ n → cdf μ (q i) = (i : ℝ) / (n + 1)

end Pysatl.Spec
