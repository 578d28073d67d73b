import Verif.Spec.NormalShape
import Verif.Spec.Uniform
import Mathlib.Probability.Distributions.Beta
import Mathlib.Analysis.SpecialFunctions.Gamma.Deriv

/-!
# Specification: constants of a law and their sample counterparts

Independent of the model.  `lawMean` is in `Verif.Spec.Functional`.
-/

namespace Pysatl.Spec

open MeasureTheory ProbabilityTheory

/-- Variance of a law. -/
noncomputable def lawVariance (μ : Measure ℝ) : ℝ := ∫ x, (x - lawMean μ) ^ 2 ∂μ

/-- The standardised moment of order `k` of a law: skewness for `k = 3`, kurtosis for `k = 4`. -/
noncomputable def lawStandardised (μ : Measure ℝ) (k : ℕ) : ℝ :=
  ∫ x, ((x - lawMean μ) / √(lawVariance μ)) ^ k ∂μ

/-- The ratio of the standard deviation to the mean absolute deviation. -/
noncomputable def lawGeary (μ : Measure ℝ) : ℝ := √(lawVariance μ) / ∫ x, |x - lawMean μ| ∂μ

/-- Geometric mean of a law. -/
noncomputable def lawGeometricMean (μ : Measure ℝ) : ℝ := Real.exp (∫ x, Real.log x ∂μ)

/-- Differential entropy of the law with density `f`. -/
noncomputable def lawEntropy (f : ℝ → ℝ) : ℝ := -∫ x, f x * Real.log (f x)

/-- `m` is the only place where `f` is largest. -/
def IsMode (f : ℝ → ℝ) (m : ℝ) : Prop := ∀ x, x ≠ m → f x < f m

/-- The digamma function: the logarithmic derivative of the gamma function. -/
noncomputable def digamma (t : ℝ) : ℝ := deriv (fun s => Real.log (Real.Gamma s)) t

/-- The unbiased estimates of the second, third and fourth cumulant (k-statistics). -/
noncomputable def kStat2 (xs : List ℝ) : ℝ :=
  let n : ℝ := xs.length
  n / (n - 1) * centralMoment 2 xs

/-- See `kStat2`. -/
noncomputable def kStat3 (xs : List ℝ) : ℝ :=
  let n : ℝ := xs.length
  n ^ 2 / ((n - 1) * (n - 2)) * centralMoment 3 xs

/-- See `kStat2`. -/
noncomputable def kStat4 (xs : List ℝ) : ℝ :=
  let n : ℝ := xs.length
  n ^ 2 * ((n + 1) * centralMoment 4 xs - 3 * (n - 1) * centralMoment 2 xs ^ 2) /
    ((n - 1) * (n - 2) * (n - 3))

/-- Geometric mean of a sample. -/
noncomputable def geometricMean (xs : List ℝ) : ℝ := xs.prod ^ (1 / xs.length : ℝ)

/-- Vasicek's estimate of the entropy from `n` observations with order statistics `o 1, …, o n` and
the window `m`; places outside `1, …, n` hold the nearest observation. -/
noncomputable def vasicekEntropy (n m : ℕ) (o : ℕ → ℝ) : ℝ :=
  (∑ i ∈ Finset.Icc 1 n,
    Real.log ((n : ℝ) / (2 * m) * (o (min n (i + m)) - o (max 1 (i - m))))) / n

/-- The Gaussian kernel estimate of the density with bandwidth `h`. -/
noncomputable def kernelDensity (xs : List ℝ) (h x : ℝ) : ℝ :=
  meanOf (fun y => gaussianPDFReal y (h ^ 2).toNNReal x) xs

/-- Scott's bandwidth for one variable. -/
noncomputable def scottBandwidth (xs : List ℝ) : ℝ := (xs.length : ℝ) ^ (-1 / 5 : ℝ) * stdDev1 xs

/-- `X 0, …, X (n - 1)` are independent observations of the law `μ`. -/
structure LawSample {Ω : Type} [MeasurableSpace Ω] (P : Measure Ω) (μ : Measure ℝ) {n : ℕ}
    (X : Fin n → Ω → ℝ) : Prop where
  probability : IsProbabilityMeasure P
  measurable : ∀ i, Measurable (X i)
  indep : iIndepFun X P
  law : ∀ i, P.map (X i) = μ

end Pysatl.Spec
