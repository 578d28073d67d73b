import Mathlib.MeasureTheory.Measure.MeasureSpace
import Mathlib.MeasureTheory.Constructions.BorelSpace.Real

/-!
# Specification: the width of a law

Independent of the model.
-/

namespace Pysatl.Spec

open MeasureTheory

/-- The reciprocal of the width of the law: the width is the supremum of the lengths of the intervals that have mass
at or to the left of their left end and at or to the right of their right end.  It is zero for laws of unbounded support. -/
noncomputable def inverseWidth (μ : Measure ℝ) : ℝ :=
  sInf {y | ∃ a b : ℝ, a < b ∧ 0 < μ (Set.Iic a) ∧ 0 < μ (Set.Ici b) ∧ y = 1 / (b - a)}

end Pysatl.Spec
