import Verif.Spec.Sampling
import Mathlib.Probability.CDF
import Mathlib.Probability.Distributions.Gaussian.Real
import Mathlib.Analysis.SpecialFunctions.Trigonometric.Arctan
import Mathlib.Analysis.SpecialFunctions.Pow.Real

/-!
# Specification: the distribution functions of the documented laws

Textbook formulas in the parameters described by the docstrings of `core/distributions/*.py`;
independent of the model.
-/

namespace Pysatl.Spec

open ProbabilityTheory

/-- The parameters of a law that is not concentrated in a point. -/
def Sampler.Proper : Sampler → Prop
  | .beta a b => 0 < a ∧ 0 < b
  | .cauchy _ s | .laplace _ s | .logistic _ s | .gumbel _ s | .lognorm _ s => 0 < s
  | .chi2 df | .student df => 0 < df
  | .expon lam => 0 < lam
  | .gamma alfa rate => 0 < alfa ∧ 0 < rate
  | .gompertz eta b => 0 < eta ∧ 0 < b
  | .invgauss mu lam => 0 < mu ∧ 0 < lam
  | .loConNorm p _ => 0 ≤ p ∧ p ≤ 1
  | .mixConNorm p _ b | .scaleConNorm p b => (0 ≤ p ∧ p ≤ 1) ∧ 0 < b
  | .norm _ var => 0 < var
  | .rice nu sigma => 0 ≤ nu ∧ 0 < sigma
  | .truncnorm _ var a b => 0 < var ∧ a < b
  | .tukey _ => True
  | .uniform a b => a < b
  | .weibull a k => 0 < a ∧ 0 < k

/-- The standard normal distribution function. -/
noncomputable def normalCdf (x : ℝ) : ℝ := cdf (gaussianReal 0 1) x

/-- The distribution function, where there is a formula in elementary functions and the normal
distribution function. -/
noncomputable def Sampler.closedCdf : Sampler → Option (ℝ → ℝ)
  | .cauchy t s => some fun x => 1 / 2 + Real.arctan ((x - t) / s) / Real.pi
  | .expon lam => some fun x => if 0 ≤ x then 1 - Real.exp (-lam * x) else 0
  | .gompertz eta b => some fun x => if 0 ≤ x then 1 - Real.exp (-eta * (Real.exp (x / b) - 1)) else 0
  | .gumbel mu scale => some fun x => Real.exp (-Real.exp (-((x - mu) / scale)))
  | .invgauss mu scale => some fun x => if 0 < x then
      normalCdf (√(scale / x) * (x / (scale * mu) - 1)) +
        Real.exp (2 / mu) * normalCdf (-√(scale / x) * (x / (scale * mu) + 1)) else 0
  | .laplace t s => some fun x =>
      if x < t then 1 / 2 * Real.exp ((x - t) / s) else 1 - 1 / 2 * Real.exp (-(x - t) / s)
  | .logistic t s => some fun x => 1 / (1 + Real.exp (-(x - t) / s))
  | .lognorm mu s => some fun x => if 0 < x then normalCdf ((Real.log x - mu) / s) else 0
  | .norm mean var => some fun x => normalCdf ((x - mean) / √var)
  | .truncnorm mean var a b => some fun x =>
      let z (y : ℝ) : ℝ := normalCdf ((y - mean) / √var)
      if x < a then 0 else if b < x then 1 else (z x - z a) / (z b - z a)
  | .uniform a b => some fun x => if x < a then 0 else if b < x then 1 else (x - a) / (b - a)
  | .weibull a k => some fun x => if 0 < x then (1 - Real.exp (-x ^ k)) ^ a else 0
  | _ => none

/-- The quantile function of Tukey's lambda law. -/
noncomputable def tukeyQuantile (lam u : ℝ) : ℝ :=
  if lam = 0 then Real.log (u / (1 - u)) else (u ^ lam - (1 - u) ^ lam) / lam

end Pysatl.Spec
