import Verif.Spec.NormalPlot
import Mathlib.Analysis.SpecialFunctions.Arsinh
import Mathlib.Analysis.SpecialFunctions.Pow.Real
import Mathlib.RingTheory.Polynomial.Hermite.Basic
import Mathlib.Data.Fin.VecNotation

/-!
# Specification: measures of spread and shape

Independent of the model.  Samples are lists; `n` is the number of observations.
-/

namespace Pysatl.Spec

/-- The average of `f` over the sample. -/
noncomputable def meanOf (f : ℝ → ℝ) (xs : List ℝ) : ℝ := (xs.map f).sum / xs.length

/-- The central moment of order `k`. -/
noncomputable def centralMoment (k : ℕ) (xs : List ℝ) : ℝ := meanOf (fun x => (x - meanOf id xs) ^ k) xs

/-- The standard deviation with divisor `n`. -/
noncomputable def stdDev (xs : List ℝ) : ℝ := √(centralMoment 2 xs)

/-- The standard deviation with divisor `n - 1`. -/
noncomputable def stdDev1 (xs : List ℝ) : ℝ :=
  √((xs.map fun x => (x - meanOf id xs) ^ 2).sum / ((xs.length : ℝ) - 1))

/-- The third standardised moment. -/
noncomputable def skewness (xs : List ℝ) : ℝ := centralMoment 3 xs / stdDev xs ^ 3

/-- The fourth standardised moment. -/
noncomputable def kurtosis (xs : List ℝ) : ℝ := centralMoment 4 xs / stdDev xs ^ 4

/-- Gini's mean difference: the average of `|x - y|` over the `n (n - 1)` ordered pairs of different
observations. -/
noncomputable def meanDifference (xs : List ℝ) : ℝ :=
  (xs.map fun x => (xs.map fun y => |x - y|).sum).sum / (xs.length * ((xs.length : ℝ) - 1))

/-- The mean absolute deviation from `c`. -/
noncomputable def absDeviation (c : ℝ) (xs : List ℝ) : ℝ := meanOf (fun x => |x - c|) xs

/-- The median of `n` observations with order statistics `o`. -/
noncomputable def medianOf (n : ℕ) (o : ℕ → ℝ) : ℝ := (o ((n + 1) / 2) + o (n / 2 + 1)) / 2

/-- `b₁`, `b₃` are least squares coefficients of the cubic `b₁ a + b₃ a³` through the points
`(a i, z i)`, `i = 1, …, n`. -/
def IsCubicFit (n : ℕ) (a z : ℕ → ℝ) (b₁ b₃ : ℝ) : Prop :=
  ∀ c₁ c₃, ∑ i ∈ Finset.Icc 1 n, (z i - b₁ * a i - b₃ * a i ^ 3) ^ 2 ≤
    ∑ i ∈ Finset.Icc 1 n, (z i - c₁ * a i - c₃ * a i ^ 3) ^ 2

/-- The slope between the places `i` and `j` of the plot of the order statistics `o` against the
scores `u`. -/
noncomputable def plotSlope (u o : ℕ → ℝ) (i j : ℕ) : ℝ := (o j - o i) / (u j - u i)

/-- Tukey's biweight `1 - z²` inside `|z| < 1`, zero outside. -/
noncomputable def biweight (z : ℝ) : ℝ := if |z| < 1 then 1 - z ^ 2 else 0

/-- The biweight estimate of the variance around `m` with the scale `s`. -/
noncomputable def biweightVariance (m s : ℝ) (xs : List ℝ) : ℝ :=
  xs.length * (xs.map fun x => (x - m) ^ 2 * biweight ((x - m) / s) ^ 4).sum /
    (xs.map fun x => biweight ((x - m) / s) * (1 - 5 * ((x - m) / s) ^ 2)).sum ^ 2

/-- Average of the `k`-th Hermite polynomial over the standardised sample. -/
noncomputable def hermiteMean (k : ℕ) (xs : List ℝ) : ℝ :=
  meanOf (fun x => Polynomial.aeval ((x - meanOf id xs) / stdDev1 xs) (Polynomial.hermite k)) xs

/-- Spiegelhalter's combination of the range and of the mean deviation of `n` observations; `f` stands
for `n!`. -/
noncomputable def spiegelhalterStat (n : ℕ) (f range deviation sd : ℝ) : ℝ :=
  let m : ℝ := (n : ℝ) - 1
  ((f ^ (1 / m) / (2 * n) * (range / sd)) ^ (-m) + (√n / √m * (deviation / sd)) ^ (-m)) ^ (1 / m)

/-- Stirling's formula for `n!`. -/
noncomputable def stirling (n : ℕ) : ℝ := √(2 * Real.pi * n) * (n / Real.exp 1) ^ n

/-- D'Agostino's transform of the skewness `b` of `n` observations to a normal deviate. -/
noncomputable def dagostinoSkew (n b : ℝ) : ℝ :=
  let β := 3 * (n ^ 2 + 27 * n - 70) * (n + 1) * (n + 3) / ((n - 2) * (n + 5) * (n + 7) * (n + 9))
  let W := √(√(2 * (β - 1)) - 1)
  Real.arsinh (b / √(6 * (n - 2) / ((n + 1) * (n + 3))) / √(2 / (W ^ 2 - 1))) / √(Real.log W)

/-- The Wilson-Hilferty transform of a chi-square variable with `ν` degrees of freedom to a normal
deviate. -/
noncomputable def wilsonHilferty (ν χ : ℝ) : ℝ :=
  ((χ / ν) ^ (1 / 3 : ℝ) - (1 - 2 / (9 * ν))) / √(2 / (9 * ν))

/-- Mean and variance of the kurtosis of `n` normal observations, and the parameter of Anscombe and
Glynn, from the skewness `√β₁` of the kurtosis. -/
structure AnscombeGlynn (n E V A : ℝ) : Prop where
  mean : E = 3 * (n - 1) / (n + 1)
  var : V = 24 * n * (n - 2) * (n - 3) / ((n + 1) ^ 2 * (n + 3) * (n + 5))
  param : ∃ s, 0 < s ∧ s ^ 2 = (6 * (n ^ 2 - 5 * n + 2) / ((n + 7) * (n + 9))) ^ 2 *
    (6 * (n + 3) * (n + 5) / (n * (n - 2) * (n - 3))) ∧ A = 6 + 8 / s * (2 / s + √(1 + 4 / s ^ 2))

/-- The inverse covariance matrix, under normality, of the scores of Desgagné and Lafaye de Micheaux, as
published. -/
def desgagneMatrix : Fin 3 → Fin 3 → ℝ :=
  ![![1259.04213344, -32040.69569026, 85065.77739473],
    ![-32040.6956903, 918649.9005906, -2425883.3443201],
    ![85065.7773947, -2425883.3443201, 6407749.8211208]]

end Pysatl.Spec
