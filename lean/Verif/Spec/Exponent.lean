import Mathlib.Data.Real.Basic
import Mathlib.Algebra.BigOperators.Group.List.Basic

/-!
# Specification: dispersion of a sample

Textbook notions, written without reference to the model.
-/

namespace Pysatl.Spec

/-- Gini's mean difference relative to twice the mean: the mean of `|x - y|` over the `n (n - 1)`
ordered pairs of distinct observations, divided by `2 * mean`. -/
noncomputable def giniCoefficient (l : List ℝ) : ℝ :=
  ((l.map fun x => (l.map fun y => |x - y|).sum).sum / (l.length * (l.length - 1))) /
    (2 * (l.sum / l.length))

/-- All observations are equal. -/
def Constant (l : List ℝ) : Prop := ∀ x ∈ l, ∀ y ∈ l, x = y

end Pysatl.Spec
