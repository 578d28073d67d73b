import Verif.Model.Decision
import Verif.Model.Graph
import Mathlib.Analysis.SpecialFunctions.Log.Basic
import Mathlib.Analysis.SpecialFunctions.Pow.Real

/-!
# Model of the statistics based on the empirical distribution function

`/repo/src/pysatl_criterion/statistics/goodness_of_fit/common.py`, the Watson, Kuiper and
spacing statistics of `uniform.py`, `beta.py`, `gamma.py`, `student.py`, `weibull.py`,
`log_normal.py`, and how the families call them.

Numbers are elements of a linear ordered field `K` (real numbers where logarithms or roots
occur): no rounding, infinities or NaN.  Distribution functions of `scipy.stats` are parameters.
`vals` is always the array `cdf_vals` of the code.
-/

namespace Pysatl.Edf

open Pysatl.Decision Pysatl.Graph

variable {K : Type} [Field K] [LinearOrder K]

/-- `np.max(l)` and `l[l.argmax()]`; both raise `ValueError` on an empty array. -/
def npMax (l : List K) : Except PyErr K :=
  match l.max? with
  | some m => .ok m
  | none => .error .valueError

/-! ### `common.py` -/

/-- The array `np.arange(1.0, n + 1) / n - cdf_vals`, `common.py` 75 and 189, `beta.py` 428,
`gamma.py` 393, `student.py` 248, `uniform.py` 411-413. -/
def plusGaps (vals : List K) : List K :=
  vals.mapIdx fun i v => ((i : K) + 1) / vals.length - v

/-- The array `cdf_vals - np.arange(0.0, n) / n`, `common.py` 83 and 190, `beta.py` 431,
`gamma.py` 394, `student.py` 249, `uniform.py` 414. -/
def minusGaps (vals : List K) : List K :=
  vals.mapIdx fun i v => v - (i : K) / vals.length

/-- `KSStatistic.__compute_dplus` (first component), `common.py` 72-78. -/
def dPlus (vals : List K) : Except PyErr K := npMax (plusGaps vals)

/-- `KSStatistic.__compute_dminus` (first component), `common.py` 80-86. -/
def dMinus (vals : List K) : Except PyErr K := npMax (minusGaps vals)

/-- `KSStatistic.do_execute_statistic`, `common.py` 27-69.  `LillieforsTest` (117-126) calls it
with `TWO_TAILED`. -/
def ks (t : AlternativeType) (vals : List K) : Except PyErr K := do
  let _ ← dMinus vals
  if t = .right then dPlus vals
  else if t = .left then dMinus vals
  else
    let p ← dPlus vals
    let m ← dMinus vals
    return if p > m then p else m

/-- `CrammerVonMisesStatistic.do_execute_statistic`, `common.py` 139-145. -/
def cvm (vals : List K) : K :=
  1 / (12 * vals.length) +
    (vals.mapIdx fun i v => ((2 * ((i : K) + 1) - 1) / (2 * vals.length) - v) ^ 2).sum

/-- `ADStatistic.do_execute_statistic`, `common.py` 100-114, on the arrays `log_cdf`, `log_sf`. -/
def ad (logcdf logsf : List K) : K :=
  -(logcdf.length : K) -
    (((logcdf.zip logsf.reverse).mapIdx fun i p =>
      (2 * ((i : K) + 1) - 1) / logcdf.length * (p.1 + p.2))).sum

/-- `Chi2Statistic.do_execute_statistic` with `lambda_ == 1`, `common.py` 165-167. -/
def pearson (obs exp : List K) : K := (List.zipWith (fun o e => (o - e) ^ 2 / e) obs exp).sum

/-- `scipy.special.xlogy`: `0` when `x = 0` (also for `y = 0`), else `x * log y`. -/
noncomputable def xlogy (x y : ℝ) : ℝ := if x = 0 then 0 else x * Real.log y

/-- `Chi2Statistic.do_execute_statistic`, `common.py` 160-179.  Powers of a zero cell with a
negative exponent (`inf` in numpy) are those of `Real.rpow`. -/
noncomputable def powerDivergence (lam : ℝ) (obs exp : List ℝ) : ℝ :=
  if lam = 1 then pearson obs exp
  else if lam = 0 then (List.zipWith (fun o e => 2 * xlogy o (o / e)) obs exp).sum
  else if lam = -1 then (List.zipWith (fun o e => 2 * xlogy e (e / o)) obs exp).sum
  else (List.zipWith (fun o e => o * ((o / e) ^ lam - 1) / (1 / 2 * lam * (lam + 1))) obs exp).sum

/-- `MinToshiyukiStatistic.do_execute_statistic`, `common.py` 187-196. -/
noncomputable def minToshiyuki (vals : List ℝ) : ℝ :=
  (List.zipWith (fun d v => d * Real.sqrt (1 / (v * (1 - v))))
    (List.zipWith max (plusGaps vals) (minusGaps vals)) vals).sum / Real.sqrt vals.length

/-! ### Watson and Kuiper statistics of the families -/

/-- `WatsonBetaGofStatistic.execute_statistic`, `beta.py` 367-377; also
`WatsonStudentGofStatistic`, `student.py` 298-308. -/
def watsonBeta (vals : List K) : K := cvm vals - vals.length * (mean vals - 1 / 2) ^ 2

/-- `WatsonGammaGofStatistic.execute_statistic`, `gamma.py` 325-337. -/
def watsonGamma (vals : List K) : Except PyErr K :=
  if vals.length = 0 then .error .valueError
  else .ok ((1 / (12 * vals.length) +
    (vals.mapIdx fun i v => (v - (2 * ((i : K) + 1) - 1) / (2 * vals.length)) ^ 2).sum) -
    (vals.sum - vals.length / 2) ^ 2 / vals.length)

/-- `WatsonWeibullGofStatistic.execute_statistic`, `weibull.py` 1129-1145. -/
def watsonWeibull (vals : List K) : K := cvm vals - vals.length * (mean vals - 1 / 2) ^ 2

/-- `WatsonUniformGofStatistic.execute_statistic` on the standardised sample, `uniform.py`
352-357. -/
def watsonUniform (vals : List K) : K :=
  (vals.mapIdx fun i v =>
    (v - ((i : K) + 1) / vals.length + 1 / 2 / vals.length - mean vals) ^ 2).sum / vals.length +
    1 / (12 * (vals.length : K) ^ 2)

/-- The Kuiper statistics, `uniform.py` 410-417, `beta.py` 424-434, `student.py` 245-251,
`gamma.py` 386-395. -/
def kuiper (vals : List K) : Except PyErr K := do
  let p ← dPlus vals
  let m ← dMinus vals
  return p + m

/-! ### Spacings -/

/-- `np.diff`. -/
def npDiff : List K → List K
  | x :: y :: l => (y - x) :: npDiff (y :: l)
  | _ => []

/-- `np.diff(np.concatenate([[lo], sorted, [hi]]))`, `uniform.py` 462-463, 910-912, 962-964,
`gamma.py` 444, `log_normal.py` 199-201. -/
def spacings (lo hi : K) (sorted : List K) : List K := npDiff (lo :: (sorted ++ [hi]))

/-- `np.sum(spacings ** 2)`, `uniform.py` 465, `gamma.py` 447. -/
def sumSquares (l : List K) : K := (l.map (· ^ 2)).sum

/-- `AbstractUniformGofStatistic._validate_input`, `uniform.py` 55-68. -/
def validateUniform (a b : K) (rvs : List K) : Except PyErr (List K) :=
  if rvs.any (fun x => decide (x < a) || decide (b < x)) then .error .valueError else .ok rvs

/-- `np.sort` and standardisation, `uniform.py` 349-350, 404-408, 460-461.  (Kuiper skips the
division when `a = 0` and `b = 1`, which changes nothing.) -/
def uniformVals (a b : K) (rvs : List K) : List K := (sort rvs).map fun x => (x - a) / (b - a)

/-- `GreenwoodTestUniformGofStatistic.execute_statistic`, `uniform.py` 458-467. -/
def greenwoodUniform (a b : K) (rvs : List K) : Except PyErr K := do
  let rvs ← validateUniform a b rvs
  return sumSquares (spacings 0 1 (uniformVals a b rvs))

/-- `GreenwoodGammaGofStatistic.execute_statistic`, `gamma.py` 442-447. -/
def greenwoodGamma (vals : List K) : Except PyErr K :=
  let s := spacings 0 1 vals
  if s.any (fun x => decide (x < 0)) then .error .valueError else .ok (sumSquares s)

/-- `MoranGammaGofStatistic.execute_statistic`, `gamma.py` 493-504. -/
noncomputable def moranGamma (vals : List ℝ) : Except PyErr ℝ :=
  if vals.length = 0 then .error .valueError
  else
    let s := spacings 0 1 vals
    if s.any (fun x => decide (x ≤ 0)) then .error .valueError
    else .ok (-(s.map fun x => Real.log (vals.length * x)).sum)

/-- `ShermanUniformGofStatistic.execute_statistic`, `uniform.py` 905-917. -/
def shermanUniform (a b : K) (rvs : List K) : Except PyErr K := do
  let rvs ← validateUniform a b rvs
  let e := (b - a) / ((rvs.length : K) + 1)
  return 1 / 2 * ((spacings a b (sort rvs)).map fun s => |s - e|).sum

/-- `sum_squares + sum_consecutive_products`, `uniform.py` 966-972, `log_normal.py` 203-209. -/
def quesenberryMiller (s : List K) : K := sumSquares s + (List.zipWith (· * ·) s s.tail).sum

/-- `QuesenberryMillerUniformGofStatistic.execute_statistic`, `uniform.py` 958-972. -/
def quesenberryMillerUniform (a b : K) (rvs : List K) : Except PyErr K := do
  let rvs ← validateUniform a b rvs
  return quesenberryMiller (spacings a b (sort rvs))

/-- `QuesenberryMillerLogNormalGofStatistic.execute_statistic`, `log_normal.py` 191-209 (the
sample is transformed first and sorted afterwards). -/
def quesenberryMillerLogNormal (cdf : K → K) (rvs : List K) : K :=
  quesenberryMiller (spacings 0 1 (sort (rvs.map cdf)))

/-! ### How the families call them -/

/-- Kolmogorov-Smirnov: sort, transform, compare (`exponent.py` 157-159, `normal.py` 90-92,
`gamma.py` 132-134, `student.py` 113-117, `log_normal.py` 109-111, ...).  Validation of the
support is separate. -/
def ksOf (t : AlternativeType) (cdf : K → K) (rvs : List K) : Except PyErr K :=
  ks t ((sort rvs).map cdf)

/-- Cramer-von Mises, as above (`normal.py` 222-225, `gamma.py` 277-279, ...). -/
def cvmOf (cdf : K → K) (rvs : List K) : K := cvm ((sort rvs).map cdf)

/-- Kuiper, as above (`uniform.py` 401-417, `beta.py` 421-434, `student.py` 241-251, `gamma.py`
383-395). -/
def kuiperOf (cdf : K → K) (rvs : List K) : Except PyErr K := kuiper ((sort rvs).map cdf)

/-- Anderson-Darling: the logarithms of the distribution and survival functions at the sorted
sample (`gamma.py` 233-236, `student.py` 151-156, `normal.py` 131-137 after standardising). -/
def adOf (logcdf logsf : K → K) (rvs : List K) : K :=
  ad ((sort rvs).map logcdf) ((sort rvs).map logsf)

end Pysatl.Edf
