import Verif.Spec.Plotting
import Mathlib.Probability.Distributions.Gaussian.Real

/-!
# Specification: correlation in the normal probability plot

Independent of the model.
-/

namespace Pysatl.Spec

open MeasureTheory ProbabilityTheory

/-- The average of `z 1, …, z n`. -/
noncomputable def plotMean (n : ℕ) (z : ℕ → ℝ) : ℝ := (∑ i ∈ Finset.Icc 1 n, z i) / n

/-- Sum of the products of the deviations from the averages. -/
noncomputable def coDeviation (n : ℕ) (z o : ℕ → ℝ) : ℝ :=
  ∑ i ∈ Finset.Icc 1 n, (z i - plotMean n z) * (o i - plotMean n o)

/-- Coefficient of correlation of the points `(z i, o i)`, `i = 1, …, n`. -/
noncomputable def correlation (n : ℕ) (z o : ℕ → ℝ) : ℝ :=
  coDeviation n z o / √(coDeviation n z z * coDeviation n o o)

/-- `z i` is the quantile of order `p i` of the standard normal law. -/
def NormalScores (n : ℕ) (p z : ℕ → ℝ) : Prop :=
  ∀ i, 1 ≤ i → i ≤ n → cdf (gaussianReal 0 1) (z i) = p i

/-- Filliben's positions: the first and the last are the exact medians of the smallest and of the
largest of `n` independent uniform variables, which exceed `p` with probability `(1 - p) ^ n` and
`1 - p ^ n`. -/
structure FillibenPositions (n : ℕ) (p : ℕ → ℝ) : Prop where
  first : 0 ≤ p 1 ∧ p 1 ≤ 1 ∧ (1 - p 1) ^ n = 1 / 2
  last : 0 ≤ p n ∧ p n ^ n = 1 / 2
  inner : ∀ i, 1 < i → i < n → p i = (i - 0.3175) / (n + 0.365)

/-- The plotting position `(i - α) / (n + 1 - 2 α)`. -/
noncomputable def position (α : ℝ) (n i : ℕ) : ℝ := (i - α) / (n + 1 - 2 * α)

/-- The average of `p j` over the places `j` that hold the same observation as `i`. -/
noncomputable def tiedAverage (n : ℕ) (o p : ℕ → ℝ) (i : ℕ) : ℝ :=
  (∑ j ∈ (Finset.Icc 1 n).filter fun j => o j = o i, p j) /
    ((Finset.Icc 1 n).filter fun j => o j = o i).card

/-- Weights of Rahman and Govindarajulu for the scores `m 1, …, m n`: second differences of the values
`m i φ(m i)`, with zero at both ends. -/
noncomputable def rgWeight (n : ℕ) (m : ℕ → ℝ) (i : ℕ) : ℝ :=
  let φ := gaussianPDFReal 0 1
  let g : ℕ → ℝ := fun j => if 1 ≤ j ∧ j ≤ n then m j * φ (m j) else 0
  (n + 1) * (n + 2) * φ (m i) * (2 * g i - g (i - 1) - g (i + 1))

/-- Royston's weights of the Shapiro-Wilk statistic for `n > 3` observations with the normal scores
`m 1, …, m n`: antisymmetric, of length one, proportional to the scores except for the largest one
(`n ≤ 5`) or two (`n > 5`), which are the normalised scores with a correction in `1 / √n`. -/
structure RoystonWeights (n : ℕ) (m a : ℕ → ℝ) : Prop where
  antisymmetric : ∀ i, 1 ≤ i → i ≤ n → a (n + 1 - i) = -a i
  unit : ∑ i ∈ Finset.Icc 1 n, a i ^ 2 = 1
  last : ∀ u : ℝ, u = 1 / √n → a n = m n / √(∑ i ∈ Finset.Icc 1 n, m i ^ 2) +
    0.221157 * u - 0.147981 * u ^ 2 - 2.071190 * u ^ 3 + 4.434685 * u ^ 4 - 2.706056 * u ^ 5
  second : 5 < n → ∀ u : ℝ, u = 1 / √n → a (n - 1) = m (n - 1) / √(∑ i ∈ Finset.Icc 1 n, m i ^ 2) +
    0.042981 * u - 0.293762 * u ^ 2 - 1.752461 * u ^ 3 + 5.682633 * u ^ 4 - 3.582633 * u ^ 5
  inner : ∃ s, 0 < s ∧ ∀ i, (if n ≤ 5 then 1 < i ∧ i < n else 2 < i ∧ i < n - 1) → a i = m i / s

end Pysatl.Spec
