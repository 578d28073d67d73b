import Mathlib.Data.Multiset.Sort
import Mathlib.Data.Multiset.Powerset
import Mathlib.Data.Real.Basic
import Mathlib.Algebra.BigOperators.Group.Finset.Basic

/-!
# Specification: sample L-moments

Independent of the model.
-/

namespace Pysatl.Spec

/-- The `k`-th smallest element, `k = 1, 2, …`. -/
noncomputable def kthSmallest (s : Multiset ℝ) (k : ℕ) : ℝ := (s.sort (· ≤ ·)).getD (k - 1) 0

/-- The sample L-moment of order `r` with `t` smallest and `t` largest conceptual observations
trimmed (Elamir and Seheult; `t = 0`: Hosking): the mean, over all subsamples of `r + 2 t`
observations, of `1/r * Σ_k (-1)^k (r - 1 choose k) X_(r + t - k)`. -/
noncomputable def sampleLMoment (t r : ℕ) (xs : List ℝ) : ℝ :=
  (((xs : Multiset ℝ).powersetCard (r + 2 * t)).map fun s =>
    (∑ k ∈ Finset.range r, (-1 : ℝ) ^ k * (r - 1).choose k * kthSmallest s (r + t - k)) / r).sum /
    xs.length.choose (r + 2 * t)

/-- Normal means of the L-kurtosis and variances of L-skewness and L-kurtosis used for `t` trimmed
observations and sample size `n`. -/
noncomputable def lMomentNull (t n : ℕ) : ℝ × ℝ × ℝ :=
  match t with
  | 0 => if n ≤ 25 then (0.12383, 0.0088038, 0.0049295)
    else if n ≤ 50 then (0.12321, 0.0040493, 0.0020802) else (0.12291, 0.0019434, 0.00095785)
  | 1 => if n ≤ 25 then (0.067077, 0.0081391, 0.0042752)
    else if n ≤ 50 then (0.064456, 0.0034657, 0.0015699) else (0.063424, 0.0016064, 0.00068100)
  | 2 => if n ≤ 25 then (0.044174, 0.0086570, 0.0042066)
    else if n ≤ 50 then (0.040389, 0.0033818, 0.0013301) else (0.039030, 0.0015120, 0.00054207)
  | _ => if n ≤ 25 then (0.033180, 0.0095765, 0.0044609)
    else if n ≤ 50 then (0.028224, 0.0033813, 0.0011823) else (0.026645, 0.0014547, 0.00045107)

/-- Hosking's statistic: squared standardised L-skewness plus squared standardised L-kurtosis. -/
noncomputable def lMomentStatistic (t : ℕ) (xs : List ℝ) : ℝ :=
  let skewness := sampleLMoment t 3 xs / sampleLMoment t 2 xs
  let kurtosis := sampleLMoment t 4 xs / sampleLMoment t 2 xs
  let c := lMomentNull t xs.length
  skewness ^ 2 / c.2.1 + (kurtosis - c.1) ^ 2 / c.2.2

end Pysatl.Spec
