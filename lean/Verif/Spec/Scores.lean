import Mathlib.Probability.CDF
import Verif.Spec.Functional

/-! # What the criteria of Kochar, Lorenz, Gnedenko and Harris measure -/

namespace Pysatl.Spec

open MeasureTheory ProbabilityTheory

/-- Kochar's weight of the observation at the quantile `u`. -/
noncomputable def kocharWeight (u : ℝ) : ℝ := 2 * (1 - u) * (1 - Real.log (1 - u)) - 1

/-- The mean of the observations with Kochar's weights, relative to their mean. -/
noncomputable def kocharIndex (Q : Measure ℝ) : ℝ := (∫ x, kocharWeight (cdf Q x) * x ∂Q) / lawMean Q

/-- The share in the total of the lowest part `p` of the population: the Lorenz curve at `p`. -/
noncomputable def lorenzShare (Q : Measure ℝ) (p : ℝ) : ℝ := (∫ x in {x | cdf Q x ≤ p}, x ∂Q) / lawMean Q

/-- `m` is the only quantile of the law at the level `p`. -/
def IsQuantile (Q : Measure ℝ) (p m : ℝ) : Prop := (∀ x < m, cdf Q x < p) ∧ ∀ x > m, p < cdf Q x

/-- The share of the time on test up to `m` in the expected lifetime. -/
noncomputable def timeShare (Q : Measure ℝ) (m : ℝ) : ℝ := (∫ x, min x m ∂Q) / lawMean Q

end Pysatl.Spec
