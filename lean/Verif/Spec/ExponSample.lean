import Verif.Spec.Uniform
import Mathlib.Probability.Distributions.Exponential

/-!
# Specification: exponential samples

Independent of the model.
-/

namespace Pysatl.Spec

open MeasureTheory ProbabilityTheory

variable {Ω : Type} [MeasurableSpace Ω]

/-- `X 0, …, X (n - 1)` are independent exponential random variables with rate `r`. -/
structure ExponentialSample (P : Measure Ω) (r : ℝ) {n : ℕ} (X : Fin n → Ω → ℝ) : Prop where
  probability : IsProbabilityMeasure P
  rate : 0 < r
  measurable : ∀ i, Measurable (X i)
  indep : iIndepFun X P
  law : ∀ i, P.map (X i) = expMeasure r

end Pysatl.Spec
