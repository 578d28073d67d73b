import Verif.Model.Uniform
import Mathlib.Data.List.MinMax

/-!
# Model of the statistics for the beta distribution

`/repo/src/pysatl_criterion/statistics/goodness_of_fit/beta.py`.  Numbers are real: no rounding,
infinities or NaN.  The functions of `scipy.stats.beta` and `scipy.special` are parameters, collected
in `BetaLib`.
-/

namespace Pysatl.Beta

open Pysatl.Decision Pysatl.Graph Pysatl.Edf Pysatl.Exponent Pysatl.Normal Pysatl.Uniform

/-- The functions of scipy that `beta.py` uses, parameters first: `beta.cdf`, `beta.logcdf`,
`beta.logsf`, `special.psi`, `special.betaln`. -/
structure BetaLib where
  cdf : ℝ → ℝ → ℝ → ℝ
  logcdf : ℝ → ℝ → ℝ → ℝ
  logsf : ℝ → ℝ → ℝ → ℝ
  psi : ℝ → ℝ
  betaln : ℝ → ℝ → ℝ

/-- The attributes `alpha`, `beta` of an instance. -/
structure Params where
  alpha : ℝ
  beta : ℝ

/-- `AbstractBetaGofStatistic.__init__`, 28-34. -/
noncomputable def init (alpha beta : ℝ) : Except PyErr Params :=
  if alpha ≤ 0 then .error .valueError
  else if beta ≤ 0 then .error .valueError
  else .ok ⟨alpha, beta⟩

/-- `ModeBetaGofStatistic.__init__`, 736-741. -/
noncomputable def initMode (alpha beta : ℝ) : Except PyErr Params :=
  if alpha ≤ 1 then .error .valueError
  else if beta ≤ 1 then .error .valueError
  else init alpha beta

/-- `AbstractBetaGofStatistic.hypothesis`, 36-38. -/
def hypothesis (p : Params) : List (String × ℝ) := [("alpha", p.alpha), ("beta", p.beta)]

/-- `AbstractBetaGofStatistic._validate_rvs`, 41-46. -/
noncomputable def validate (rvs : List ℝ) : Except PyErr (List ℝ) :=
  if rvs.any (fun x => decide (x < 0) || decide (1 < x)) then .error .valueError else .ok rvs

/-- `scipy_stats.beta.cdf(np.sort(rvs), alpha, beta)`. -/
noncomputable def vals (lib : BetaLib) (p : Params) (rvs : List ℝ) : List ℝ :=
  (sort rvs).map (lib.cdf p.alpha p.beta)

/-- `Chi2PearsonBetaGofStatistic.execute_statistic`, 304-319; an empty sample asks `np.histogram` for
`0` bins, which raises `ValueError`. -/
noncomputable def chi2 (lib : BetaLib) (p : Params) (lam : ℝ) (rvs : List ℝ) : Except PyErr ℝ :=
  if rvs.length = 0 then .error .valueError
  else
    let edges := equalEdges 0 1 ⌈√(rvs.length : ℝ)⌉₊
    .ok (powerDivergence lam ((histogram edges rvs).map Nat.cast)
      ((npDiff (edges.map (lib.cdf p.alpha p.beta))).map (· * rvs.length)))

/-- The variance of the beta distribution as 485-487 computes it. -/
noncomputable def theoreticalVar (p : Params) : ℝ :=
  p.alpha * p.beta / ((p.alpha + p.beta) ^ 2 * (p.alpha + p.beta + 1))

/-- `MomentBasedBetaGofStatistic.execute_statistic`, 478-498. -/
noncomputable def momentBased (p : Params) (rvs : List ℝ) : ℝ :=
  let n : ℝ := rvs.length
  let tv := theoreticalVar p
  (√n * (mean rvs - p.alpha / (p.alpha + p.beta)) / √tv) ^ 2 + (√n * (var1 rvs - tv) / √tv) ^ 2

/-- `scipy.stats.skew(x, bias=False)`: the correction applies from three observations on. -/
noncomputable def skewUnbiased (xs : List ℝ) : ℝ :=
  let n : ℝ := xs.length
  if 2 < xs.length then √(n * (n - 1)) / (n - 2) * skew xs else skew xs

/-- `scipy.stats.kurtosis(x, bias=False)`: the correction applies from four observations on. -/
noncomputable def kurtUnbiased (xs : List ℝ) : ℝ :=
  let n : ℝ := xs.length
  if 3 < xs.length then
    1 / (n - 2) / (n - 3) * ((n ^ 2 - 1) * kurt xs - 3 * (n - 1) ^ 2)
  else kurt xs - 3

/-- `theoretical_skewness`, 553-559. -/
noncomputable def theoreticalSkew (p : Params) : ℝ :=
  2 * (p.beta - p.alpha) * √(p.alpha + p.beta + 1) /
    ((p.alpha + p.beta + 2) * √(p.alpha * p.beta))

/-- `theoretical_kurtosis`, 561-566. -/
noncomputable def theoreticalKurt (p : Params) : ℝ :=
  6 * ((p.alpha - p.beta) ^ 2 * (p.alpha + p.beta + 1) - p.alpha * p.beta * (p.alpha + p.beta + 2)) /
    (p.alpha * p.beta * (p.alpha + p.beta + 2) * (p.alpha + p.beta + 3))

/-- `SkewnessKurtosisBetaGofStatistic.execute_statistic`, 542-574. -/
noncomputable def skewnessKurtosis (p : Params) (rvs : List ℝ) : ℝ :=
  (rvs.length : ℝ) / 6 * (skewUnbiased rvs - theoreticalSkew p) ^ 2 +
    (rvs.length : ℝ) / 24 * (kurtUnbiased rvs - theoreticalKurt p) ^ 2

/-- `np.exp(np.mean(np.log(rvs)))`, 625: `0` if an observation is `0`. -/
noncomputable def geometricMean (rvs : List ℝ) : ℝ :=
  if rvs.any (fun x => decide (x = 0)) then 0 else Real.exp (mean (rvs.map Real.log))

/-- `RatioBetaGofStatistic.execute_statistic`, 619-645. -/
noncomputable def ratio (lib : BetaLib) (p : Params) (rvs : List ℝ) : Except PyErr ℝ :=
  if mean rvs = 0 then .error .valueError
  else .ok (√(rvs.length : ℝ) * |geometricMean rvs / mean rvs -
    Real.exp (lib.psi p.alpha - lib.psi (p.alpha + p.beta)) / (p.alpha / (p.alpha + p.beta))|)

/-- Vasicek's entropy estimator as 689-704 computes it, window `m` (windows without spread are left
out). -/
noncomputable def vasicek (m : ℕ) (rvs : List ℝ) : ℝ :=
  let sorted := sort rvs
  let n := rvs.length
  ((List.range n).map fun i : ℕ =>
    let w := at_ sorted (min (n - 1) (i + m)) - at_ sorted (i - m)
    if 0 < w then Real.log (w * n / (2 * m)) else 0).sum / n

/-- `theoretical_entropy`, 709-714. -/
noncomputable def theoreticalEntropy (lib : BetaLib) (p : Params) : ℝ :=
  lib.betaln p.alpha p.beta - (p.alpha - 1) * lib.psi p.alpha - (p.beta - 1) * lib.psi p.beta +
    (p.alpha + p.beta - 2) * lib.psi (p.alpha + p.beta)

/-- `EntropyBetaGofStatistic.execute_statistic`, 689-721; `m` is the keyword argument, by default
`n // 4`.  `sample_entropy /= n` fails for an empty sample. -/
noncomputable def entropy (lib : BetaLib) (p : Params) (m : Option ℕ) (rvs : List ℝ) :
    Except PyErr ℝ :=
  if rvs.length = 0 then .error .zeroDivisionError
  else .ok (√(rvs.length : ℝ) *
    |vasicek (m.getD (rvs.length / 4)) rvs - theoreticalEntropy lib p|)

/-- `np.linspace(0.01, 0.99, 200)`, 776. -/
noncomputable def modeGrid : List ℝ :=
  (List.range 200).map fun i : ℕ => 1 / 100 + i * (98 / 100 / 199)

/-- `gaussian_kde(rvs)` at `x` up to a positive factor: Scott's rule, bandwidth
`n ** (-1 / 5) * std(ddof=1)`. -/
noncomputable def kde (rvs : List ℝ) (x : ℝ) : ℝ :=
  (rvs.map fun r =>
    Real.exp (-(x - r) ^ 2 / (2 * (var1 rvs * ((rvs.length : ℝ) ^ (-1 / 5 : ℝ)) ^ 2)))).sum

/-- `ModeBetaGofStatistic.execute_statistic`, 767-790.  `gaussian_kde` refuses fewer than two
observations (`ValueError`) and a sample without spread (`LinAlgError`, which is a `ValueError`). -/
noncomputable def mode (p : Params) (rvs : List ℝ) : Except PyErr ℝ :=
  if rvs.length < 2 ∨ var1 rvs = 0 then .error .valueError
  else .ok (√(rvs.length : ℝ) * |(modeGrid.argmax (kde rvs)).getD 0 -
    (p.alpha - 1) / (p.alpha + p.beta - 2)|)

/-- The classes of `beta.py`. -/
inductive BetaStat where
  | ks (t : AlternativeType) | andersonDarling | cvm | lilliefors | chi2 (lam : ℝ) | watson | kuiper
  | momentBased | skewnessKurtosis | ratio | entropy (m : Option ℕ) | mode

/-- `execute_statistic` of each class: 113-124, 152-171, 204-215, 248-259, 297-319, 356-377, 414-434,
471-498, 535-574, 611-645, 682-721, 760-790; the first call of each is `_validate_rvs`. -/
noncomputable def BetaStat.value (lib : BetaLib) (p : Params) (s : BetaStat) (rvs : List ℝ) :
    Except PyErr ℝ := do
  let rvs ← validate rvs
  match s with
  | .ks t => Edf.ks t (vals lib p rvs)
  | .andersonDarling => return adOf (lib.logcdf p.alpha p.beta) (lib.logsf p.alpha p.beta) rvs
  | .cvm => return Edf.cvm (vals lib p rvs)
  | .lilliefors => Edf.ks .twoTailed (vals lib p rvs)
  | .chi2 lam => Beta.chi2 lib p lam rvs
  | .watson => return watsonBeta (vals lib p rvs)
  | .kuiper => Edf.kuiper (vals lib p rvs)
  | .momentBased => return Beta.momentBased p rvs
  | .skewnessKurtosis => return Beta.skewnessKurtosis p rvs
  | .ratio => Beta.ratio lib p rvs
  | .entropy m => Beta.entropy lib p m rvs
  | .mode => Beta.mode p rvs

/-- `alternative()`: `common.py` 92-93, 122-123, 131-132, 150-151, `beta.py` 87-89, 331, 389, 446, 510, 586, 657, 733. -/
def BetaStat.alternative : BetaStat → AlternativeType
  | .ks t => t
  | .lilliefors => .twoTailed
  | _ => .right

/-- The instance as the test procedures see it: `hypothesis`, 36-38, `distribution`, 48-56. -/
noncomputable def BetaStat.statistic (lib : BetaLib) (p : Params) (s : BetaStat) (code : String) : Statistic ℝ :=
  { code := code, params := some (hypothesis p), distribution := "beta", alternative := s.alternative,
    execute := s.value lib p }

end Pysatl.Beta
