import Verif.Spec.Uniform

/-!
# Specification: samples from a continuous distribution

Independent of the model.
-/

namespace Pysatl.Spec

open MeasureTheory ProbabilityTheory

variable {Ω : Type} [MeasurableSpace Ω]

/-- `X 0, …, X (n - 1)` are independent random variables with the continuous distribution function
`F`. -/
structure ContinuousSample (P : Measure Ω) (F : ℝ → ℝ) {n : ℕ} (X : Fin n → Ω → ℝ) : Prop where
  probability : IsProbabilityMeasure P
  measurable : ∀ i, Measurable (X i)
  indep : iIndepFun X P
  continuous : Continuous F
  law : ∀ i x, P.real {ω | X i ω ≤ x} = F x

end Pysatl.Spec
