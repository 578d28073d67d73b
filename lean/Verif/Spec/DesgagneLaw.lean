import Verif.Spec.NormalShape
import Verif.Spec.BetaLaw

/-!
# Specification: the scores of Desgagné and Lafaye de Micheaux for a law

Independent of the model.
-/

namespace Pysatl.Spec

open MeasureTheory

/-- The mean of a function of the standardised observation. -/
noncomputable def standardMean (f : ℝ → ℝ) (μ : Measure ℝ) : ℝ := ∫ x, f ((x - lawMean μ) / √(lawVariance μ)) ∂μ

/-- The three scores of a law: the published normal values less the means under the law. -/
noncomputable def desgagneScores (μ : Measure ℝ) : Fin 3 → ℝ :=
  ![0.18240929 - standardMean (fun t => t ^ 2 * Real.log |t|) μ / 2,
    0.5348223 - standardMean (fun t => Real.log (1 + |t|)) μ,
    0.20981558 - standardMean (fun t => Real.log (Real.log (2.71828182846 + |t|))) μ]

/-- The squared length of the scores in the published inverse covariance matrix. -/
noncomputable def desgagneIndex (μ : Measure ℝ) : ℝ :=
  ∑ i, ∑ j, desgagneMatrix i j * desgagneScores μ i * desgagneScores μ j

end Pysatl.Spec
