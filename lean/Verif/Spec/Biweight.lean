import Verif.Spec.Scores

/-!
# Specification: the biweight scale of a law

Independent of the model.  `IsQuantile` is in `Verif.Spec.Scores`.
-/

namespace Pysatl.Spec

open MeasureTheory

/-- `c` is the only median of the law, `d` the only median of the distances from `c`, and it is positive. -/
structure MedianSpread (μ : Measure ℝ) (c d : ℝ) : Prop where
  median : IsQuantile μ (1 / 2) c
  deviation : IsQuantile (μ.map fun x => |x - c|) (1 / 2) d
  pos : 0 < d

/-- The ratio of the mean square of the distances from `c` to the square of the biweight scale around `c` with the cut-off
`9 d`, computed without leaving out the observations beyond the cut-off. -/
noncomputable def biweightIndex (μ : Measure ℝ) (c d : ℝ) : ℝ :=
  (∫ x, (x - c) ^ 2 ∂μ) * (∫ x, (1 - ((x - c) / (9 * d)) ^ 2) * (1 - 5 * ((x - c) / (9 * d)) ^ 2) ∂μ) ^ 2 /
    ∫ x, (x - c) ^ 2 * (1 - ((x - c) / (9 * d)) ^ 2) ^ 4 ∂μ

end Pysatl.Spec
