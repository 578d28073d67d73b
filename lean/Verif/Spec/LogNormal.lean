import Mathlib.Analysis.SpecialFunctions.Log.Basic

/-! # Specification for the log-normality statistics -/

namespace Pysatl.Spec

/-- The logarithms of a sample, standardised with the parameters of the log-normal distribution
with shape `s` (standard deviation of the logarithm) and scale `scale` (median). -/
noncomputable def standardLogs (s scale : ℝ) (xs : List ℝ) : List ℝ :=
  xs.map fun x => (Real.log x - Real.log scale) / s

/-- The log-normal sample belonging to a standard normal sample. -/
noncomputable def fromNormal (s scale : ℝ) (zs : List ℝ) : List ℝ :=
  zs.map fun z => scale * Real.exp (s * z)

/-- The average of a list. -/
noncomputable def average (xs : List ℝ) : ℝ := xs.sum / xs.length

/-- The divergence the Kullback-Leibler statistics are based on, for a list of logarithms:
twice the logarithm of the empirical moment generating function at `r`, minus `r` times the average,
minus `r` times the logarithmic derivative of the moment generating function. -/
noncomputable def klDivergence (L : List ℝ) (r : ℝ) : ℝ :=
  2 * Real.log (average (L.map fun l => Real.exp (r * l))) - r * average L -
    r * average (L.map fun l => l * Real.exp (r * l)) / average (L.map fun l => Real.exp (r * l))

/-- The asymptotic variance of that divergence under the hypothesis. -/
noncomputable def klVariance (r : ℝ) : ℝ :=
  Real.exp (r ^ 2) * (r ^ 4 - 3 * r ^ 2 + 4) - (4 + r ^ 2)

/-- The third central moment. -/
noncomputable def thirdMoment (L : List ℝ) : ℝ := average (L.map fun l => (l - average L) ^ 3)

end Pysatl.Spec
