import Verif.Model.Edf

/-!
# Model of distances between distribution functions with the rounding of every operation

The functions of `Verif/Model/Edf.lean` over the real numbers, with every arithmetic operation
followed by a rounding function `fl`.  Comparisons, `max`, sorting and the conversion of integers
below `2^53` are exact, as they are in IEEE-754.  `sum` is what `np.sum` returns.  The distribution
function is the computed one.
-/

namespace Pysatl.Edf.Rounded

open Pysatl.Decision Pysatl.Graph

variable (fl : ℝ → ℝ)

/-- `np.arange(1.0, n + 1) / n - cdf_vals`, `common.py` 75, `beta.py` 428, `gamma.py` 393,
`student.py` 248, `uniform.py` 411-413: a rounded division, then a rounded difference. -/
noncomputable def plusGaps (vals : List ℝ) : List ℝ :=
  vals.mapIdx fun i v => fl (fl (((i : ℝ) + 1) / vals.length) - v)

/-- `cdf_vals - np.arange(0.0, n) / n`, `common.py` 83, `beta.py` 431, `gamma.py` 394,
`student.py` 249, `uniform.py` 414. -/
noncomputable def minusGaps (vals : List ℝ) : List ℝ :=
  vals.mapIdx fun i v => fl (v - fl ((i : ℝ) / vals.length))

/-- `KSStatistic.do_execute_statistic`, `common.py` 27-69, on `cdf_vals`. -/
noncomputable def ks (t : AlternativeType) (vals : List ℝ) : Except PyErr ℝ := do
  let _ ← npMax (minusGaps fl vals)
  if t = .right then npMax (plusGaps fl vals)
  else if t = .left then npMax (minusGaps fl vals)
  else
    let p ← npMax (plusGaps fl vals)
    let m ← npMax (minusGaps fl vals)
    return if p > m then p else m

/-- Sort, transform by the computed distribution function, compare: see `Edf.ksOf`. -/
noncomputable def ksOf (t : AlternativeType) (cdf : ℝ → ℝ) (rvs : List ℝ) : Except PyErr ℝ :=
  ks fl t ((sort rvs).map cdf)

/-- The Kuiper statistics, `uniform.py` 410-417, `beta.py` 424-434, `student.py` 245-251,
`gamma.py` 386-395. -/
noncomputable def kuiperOf (cdf : ℝ → ℝ) (rvs : List ℝ) : Except PyErr ℝ := do
  let p ← npMax (plusGaps fl ((sort rvs).map cdf))
  let m ← npMax (minusGaps fl ((sort rvs).map cdf))
  return fl (p + m)

/-- The terms `(u - cdf_vals) ** 2` with `u = (2 * np.arange(1, n + 1) - 1) / (2 * n)`,
`common.py` 142-143; the integers are exact, the square is one rounded product. -/
noncomputable def cvmTerms (vals : List ℝ) : List ℝ :=
  vals.mapIdx fun i v => fl (fl (fl ((2 * ((i : ℝ) + 1) - 1) / (2 * vals.length)) - v) ^ 2)

/-- `CrammerVonMisesStatistic.do_execute_statistic`, `common.py` 139-145, after sorting and
transforming. -/
noncomputable def cvmOf (sum : List ℝ → ℝ) (cdf : ℝ → ℝ) (rvs : List ℝ) : ℝ :=
  fl (fl (1 / (12 * rvs.length)) + sum (cvmTerms fl ((sort rvs).map cdf)))

end Pysatl.Edf.Rounded
