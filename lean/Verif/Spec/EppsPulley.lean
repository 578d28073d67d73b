import Verif.Spec.Hermite
import Mathlib.Probability.Distributions.Gaussian.Real

/-!
# Specification: the distance between characteristic functions

Independent of the model.  Epps and Pulley (1983): the squared distance between the empirical
characteristic function of the standardised sample and that of the standard normal law, integrated
with the standard normal law as weight.
-/

namespace Pysatl.Spec

open MeasureTheory ProbabilityTheory

/-- The sample with mean zero and unit (biased) sample variance. -/
noncomputable def standardisedPop (xs : List ℝ) : List ℝ :=
  xs.map fun x => (x - sampleMean xs) / √((xs.map fun y => (y - sampleMean xs) ^ 2).sum / xs.length)

/-- The characteristic function of the empirical distribution. -/
noncomputable def empiricalCharFun (z : List ℝ) (t : ℝ) : ℂ :=
  (z.map fun x : ℝ => Complex.exp (t * x * Complex.I)).sum / z.length

/-- The weighted squared distance of the characteristic functions, times the sample size. -/
noncomputable def charFunDistance (z : List ℝ) : ℝ :=
  z.length * ∫ t, ‖empiricalCharFun z t - charFun (gaussianReal 0 1) t‖ ^ 2 ∂gaussianReal 0 1

end Pysatl.Spec
