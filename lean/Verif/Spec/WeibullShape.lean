import Mathlib.Analysis.Calculus.IteratedDeriv.Defs
import Mathlib.Analysis.SpecialFunctions.Log.Basic
import Mathlib.Algebra.BigOperators.Intervals

/-!
# Functionals of the logarithms of a Weibull sample

Independent of the model.  `o 1, …, o n` stand for the ordered logarithms.
-/

namespace Pysatl.Spec

/-- The first `n - 1` weights `w i = log ((n + 1) / (n + 1 - i))` of Shapiro and Brain. -/
noncomputable def brainWeight (n i : ℕ) : ℝ := Real.log (((n : ℝ) + 1) / ((n : ℝ) + 1 - i))

/-- Completes weights `v 1, …, v (n - 1)` by a last one so that they add up to `total` and applies them. -/
noncomputable def completed (n : ℕ) (v : ℕ → ℝ) (total : ℝ) (o : ℕ → ℝ) : ℝ :=
  ∑ i ∈ Finset.Ico 1 n, v i * o i + (total - ∑ i ∈ Finset.Ico 1 n, v i) * o n

/-- `n` times the linear estimate of the scale of the logarithms by Shapiro and Brain. -/
noncomputable def shapiroBrain (n : ℕ) (o : ℕ → ℝ) : ℝ :=
  0.6079 * completed n (fun i => brainWeight n i * (1 + Real.log (brainWeight n i)) - 1) (0.4228 * n) o -
    0.2570 * completed n (brainWeight n) n o

/-- Quantile function of the extreme value law `1 - exp (-exp y)` of the logarithm of an exponential variable. -/
noncomputable def extremeQuantile (p : ℝ) : ℝ := Real.log (-Real.log (1 - p))

/-- The expansion of David and Johnson for the expectation of the `i`-th of `n` ordered observations of the law with
quantile function `Q`. -/
noncomputable def davidJohnson (Q : ℝ → ℝ) (n i : ℕ) : ℝ :=
  let p : ℝ := i / ((n : ℝ) + 1)
  Q p + p * (1 - p) / (2 * ((n : ℝ) + 2)) * iteratedDeriv 2 Q p +
    p * (1 - p) / ((n : ℝ) + 2) ^ 2 *
      ((1 - p - p) / 3 * iteratedDeriv 3 Q p + p * (1 - p) / 8 * iteratedDeriv 4 Q p)

/-- The `i`-th spacing in units of its expectation. -/
noncomputable def normSpacing (e o : ℕ → ℝ) (i : ℕ) : ℝ := (o (i + 1) - o i) / (e (i + 1) - e i)

/-- The share of the first `j` normalised spacings in the sum of all `n - 1`. -/
noncomputable def spacingShare (e o : ℕ → ℝ) (n j : ℕ) : ℝ :=
  (∑ i ∈ Finset.Icc 1 j, normSpacing e o i) / ∑ i ∈ Finset.Icc 1 (n - 1), normSpacing e o i

/-- The density of the logarithm of a variable with distribution function `G`. -/
noncomputable def logDensity (G : ℝ → ℝ) (y : ℝ) : ℝ := deriv (fun t => G (Real.exp t)) y

/-- The weight of Henze and Meintanis. -/
noncomputable def laplaceWeight (a t : ℝ) : ℝ := Real.exp (-Real.exp (a * t) + a * t)

end Pysatl.Spec
