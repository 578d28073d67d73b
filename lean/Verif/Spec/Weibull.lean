import Mathlib.Analysis.SpecialFunctions.Pow.Real
import Mathlib.Analysis.SpecialFunctions.Trigonometric.Inverse

/-! # Specifications for the Weibull family, independent of the model -/

namespace Pysatl.Spec

/-- The Weibull distribution function with shape `t` and the scale fitted by maximum likelihood. -/
noncomputable def fittedWeibull (t : ℝ) (xs : List ℝ) (x : ℝ) : ℝ :=
  1 - Real.exp (-(x ^ t / ((xs.map fun y => y ^ t).sum / xs.length)))

/-- The variance stabilising transformation of a probability plot. -/
noncomputable def stabilised (p : ℝ) : ℝ := 2 / Real.pi * Real.arcsin √p

/-- `v` is the largest distance of the stabilised probability plot of `xs` from the diagonal: the
`i`-th smallest observation is plotted against the probability `(i - 1/2) / n`. -/
def IsPlotDeviation (t : ℝ) (xs : List ℝ) (v : ℝ) : Prop :=
  ∃ ys : List ℝ, ys.Perm xs ∧ ys.Pairwise (· ≤ ·) ∧
    IsGreatest {d | ∃ (i : ℕ) (h : i < ys.length),
      d = |stabilised (((i : ℝ) + 1 / 2) / xs.length) - stabilised (fittedWeibull t xs ys[i])|} v

end Pysatl.Spec
