import Mathlib.Data.Real.Basic
import Mathlib.Algebra.BigOperators.Group.Finset.Basic
import Mathlib.Algebra.BigOperators.Ring.Finset

/-! # Pearson's statistic, independent of the model -/

namespace Pysatl.Spec

open Classical in
/-- The number of observations in a cell. -/
noncomputable def count (B : Set ℝ) (xs : List ℝ) : ℕ := xs.countP fun x => decide (x ∈ B)

/-- Pearson's statistic of the sample `xs` for `k` cells with hypothetical probabilities `prob`: the sum
of `(observed - expected)² / expected`, the expected number being sample size times probability. -/
noncomputable def pearsonStatistic (k : ℕ) (cell : ℕ → Set ℝ) (prob : ℕ → ℝ) (xs : List ℝ) : ℝ :=
  ∑ j ∈ Finset.range k, ((count (cell j) xs : ℝ) - xs.length * prob j) ^ 2 / (xs.length * prob j)

/-- The `j`-th of `k` neighbouring intervals `[e j, e (j + 1))`; the last one is closed. -/
def intervalCell (e : ℕ → ℝ) (k j : ℕ) : Set ℝ :=
  {x | e j ≤ x ∧ if j + 1 = k then x ≤ e (j + 1) else x < e (j + 1)}

/-- The `j`-th of `k` cells between the quantiles of the orders `1/k, ..., (k-1)/k`; the outer cells are
unbounded. -/
def quantileCell (q : ℝ → ℝ) (k j : ℕ) : Set ℝ :=
  {x | (j = 0 ∨ q ((j : ℝ) / k) ≤ x) ∧ (j + 1 = k ∨ x < q (((j : ℝ) + 1) / k))}

end Pysatl.Spec
