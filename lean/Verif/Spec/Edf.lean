import Verif.Spec.Decision
import Mathlib.MeasureTheory.Integral.IntervalIntegral.Basic

/-!
# Specification: Watson's statistic

Textbook notions, written without reference to the model.
-/

namespace Pysatl.Spec

/-- Watson's statistic of a sample of values in `[0,1]`: `n` times the variance over `u ∈ [0,1]`
of the difference between the fraction of values at or below `u` and `u`. -/
noncomputable def watsonU2 (L : List ℝ) : ℝ :=
  L.length * ((∫ u in (0 : ℝ)..1, (fracLe L u - u) ^ 2) - (∫ u in (0 : ℝ)..1, (fracLe L u - u)) ^ 2)

/-- The equally spaced sample of size `n` in `[a,b]`: `a + (b - a) i / (n + 1)`, `i = 1, ..., n`. -/
def equallySpaced {K : Type} [Field K] (a b : K) (n : ℕ) : List K :=
  (List.range n).map fun i : ℕ => a + (b - a) * ((i : K) + 1) / ((n : K) + 1)

end Pysatl.Spec
