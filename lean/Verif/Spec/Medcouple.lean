import Mathlib.Algebra.Order.Field.Basic
import Mathlib.Algebra.Order.Group.Abs

/-! # Specifications for the Brys-Hubert-Struyf statistic, independent of the model -/

namespace Pysatl.Spec

variable {K : Type} [Field K] [LinearOrder K]

/-- The observations are pairwise distinct beyond rounding: they differ by more than `10⁻¹⁵` relative to
a bound of their absolute values (a bound of at least `1`). -/
def Separated (z : List K) : Prop :=
  ∃ B : K, 1 ≤ B ∧ (∀ v ∈ z, |v| ≤ B) ∧ z.Pairwise fun a b => B / 10 ^ 15 < |a - b|

end Pysatl.Spec
