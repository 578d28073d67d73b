import Mathlib.Probability.Distributions.Gaussian.Real
import Mathlib.Probability.Distributions.Exponential
import Mathlib.Probability.Distributions.Beta
import Mathlib.Probability.Distributions.Cauchy
import Mathlib.Probability.ConditionalProbability
import Mathlib.MeasureTheory.Measure.Prod
import Mathlib.MeasureTheory.Constructions.Pi

/-!
# Specification: the textbook laws named by the distribution descriptors

From the parameter descriptions in `distribution/distributions.py` and the docstrings of
`core/distributions/*.py`; independent of scipy's parametrisations and of the generator code.
The normal, exponential, gamma, beta and Cauchy laws are Mathlib's.
-/

namespace Pysatl.Spec

open MeasureTheory ProbabilityTheory

/-- `n` independent observations of a law. -/
noncomputable def iid (n : ℕ) (μ : Measure ℝ) : Measure (Fin n → ℝ) := Measure.pi fun _ => μ

/-- Density `f` with respect to Lebesgue measure. -/
noncomputable def density (f : ℝ → ℝ) : Measure ℝ :=
  volume.withDensity fun x => ENNReal.ofReal (f x)

/-- Uniform on `[a, b]`. -/
noncomputable def uniformLaw (a b : ℝ) : Measure ℝ := cond volume (Set.Icc a b)

/-- Log-normal: the exponential of a normal with mean `mu` and standard deviation `s`. -/
noncomputable def logNormalLaw (mu s : ℝ) : Measure ℝ :=
  (gaussianReal mu (s ^ 2).toNNReal).map Real.exp

/-- Laplace with location `t` and scale `s`. -/
noncomputable def laplaceLaw (t s : ℝ) : Measure ℝ :=
  density fun x => 1 / (2 * s) * Real.exp (-|x - t| / s)

/-- Logistic with location `t` and scale `s`. -/
noncomputable def logisticLaw (t s : ℝ) : Measure ℝ :=
  density fun x => Real.exp (-(x - t) / s) / (s * (1 + Real.exp (-(x - t) / s)) ^ 2)

/-- Gumbel (maxima) with location `mu` and scale `beta`. -/
noncomputable def gumbelLaw (mu beta : ℝ) : Measure ℝ :=
  density fun x => 1 / beta * Real.exp (-((x - mu) / beta + Real.exp (-((x - mu) / beta))))

/-- Chi-square with `k` degrees of freedom: gamma with shape `k/2` and rate `1/2`. -/
noncomputable def chiSquareLaw (k : ℝ) : Measure ℝ := gammaMeasure (k / 2) (1 / 2)

/-- Student with `k` degrees of freedom. -/
noncomputable def studentLaw (k : ℝ) : Measure ℝ :=
  density fun x => Real.Gamma ((k + 1) / 2) / (√(k * Real.pi) * Real.Gamma (k / 2)) *
    (1 + x ^ 2 / k) ^ (-((k + 1) / 2))

/-- Weibull with scale `l` and shape `k`. -/
noncomputable def weibullLaw (l k : ℝ) : Measure ℝ :=
  density fun x =>
    if 0 < x then k / l * (x / l) ^ (k - 1) * Real.exp (-(x / l) ^ k) else 0

/-- Gompertz with shape `eta` and scale `b`: survival function `exp (-eta (e^(x/b) - 1))`. -/
noncomputable def gompertzLaw (eta b : ℝ) : Measure ℝ :=
  density fun x =>
    if 0 ≤ x then eta / b * Real.exp (x / b) * Real.exp (-(eta * (Real.exp (x / b) - 1))) else 0

/-- Inverse Gaussian with mean `mu` and shape `lam`. -/
noncomputable def invGaussLaw (mu lam : ℝ) : Measure ℝ :=
  density fun x =>
    if 0 < x then √(lam / (2 * Real.pi * x ^ 3)) *
      Real.exp (-(lam * (x - mu) ^ 2) / (2 * mu ^ 2 * x)) else 0

/-- Rice: the distance from the reference point of a bivariate normal observation, independent
coordinates with standard deviation `sigma`, whose centre is at distance `nu`. -/
noncomputable def riceLaw (nu sigma : ℝ) : Measure ℝ :=
  ((gaussianReal nu (sigma ^ 2).toNNReal).prod (gaussianReal 0 (sigma ^ 2).toNNReal)).map
    fun z => √(z.1 ^ 2 + z.2 ^ 2)

/-- Normal with mean `mean` and variance `var` truncated to `[a, b]`. -/
noncomputable def truncNormalLaw (mean var a b : ℝ) : Measure ℝ :=
  cond (gaussianReal mean var.toNNReal) (Set.Icc a b)

/-- With probability `p` a normal with mean `a` and standard deviation `b`, otherwise a standard
normal. -/
noncomputable def contaminatedNormal (p a b : ℝ) : Measure ℝ :=
  ENNReal.ofReal p • gaussianReal a (b ^ 2).toNNReal +
    ENNReal.ofReal (1 - p) • gaussianReal 0 1

end Pysatl.Spec
