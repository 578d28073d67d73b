import Mathlib.Analysis.SpecialFunctions.Gamma.Basic
import Mathlib.Analysis.SpecialFunctions.Log.Basic
import Mathlib.Analysis.SpecialFunctions.Pow.Real

/-!
# Specification: families around the exponential distribution

Independent of the model.  Both families contain the exponential distribution with rate `lam` as
the member with shape 1; the score for the shape is the derivative of the log-likelihood there.
-/

namespace Pysatl.Spec

/-- The density of the Weibull distribution with shape `k` and rate `lam` on the positive numbers. -/
noncomputable def weibullDensity (k lam x : ℝ) : ℝ :=
  k * lam * (lam * x) ^ (k - 1) * Real.exp (-(lam * x) ^ k)

/-- The density of the gamma distribution with shape `k` and rate `lam` on the positive numbers. -/
noncomputable def gammaDensity (k lam x : ℝ) : ℝ :=
  lam ^ k * x ^ (k - 1) * Real.exp (-(lam * x)) / Real.Gamma k

/-- The log-likelihood of a sample. -/
noncomputable def logLik (f : ℝ → ℝ) (xs : List ℝ) : ℝ := (xs.map fun x => Real.log (f x)).sum

end Pysatl.Spec
