import Verif.Model.Student
import Verif.Model.Codes

/-!
# Model of the statistics for the gamma distribution

`/repo/src/pysatl_criterion/statistics/goodness_of_fit/gamma.py`; the graph statistics are in
`Verif.Model.Graph`.  Numbers are real: no rounding, infinities or NaN.  The functions of
`scipy.stats.gamma` are parameters, collected in `GammaLib`.
-/

namespace Pysatl.Gamma

open Pysatl.Decision Pysatl.Graph Pysatl.Edf Pysatl.Exponent Pysatl.Normal Pysatl.Student

/-- The functions of `scipy.stats.gamma` that `gamma.py` uses, with `a` and `scale` first:
`gamma.cdf`, `gamma.logcdf`, `gamma.logsf`, `gamma.ppf`. -/
structure GammaLib where
  cdf : ℝ → ℝ → ℝ → ℝ
  logcdf : ℝ → ℝ → ℝ → ℝ
  logsf : ℝ → ℝ → ℝ → ℝ
  ppf : ℝ → ℝ → ℝ → ℝ

/-- The attributes `alpha`, `beta` of an instance. -/
structure Params where
  alpha : ℝ
  beta : ℝ

/-- `AbstractGammaGofStatistic.__init__`, 43-56. -/
noncomputable def init (alpha beta : ℝ) : Except PyErr Params :=
  if alpha ≤ 0 then .error .valueError
  else if beta ≤ 0 then .error .valueError
  else .ok ⟨alpha, beta⟩

/-- `AbstractBinnedGammaGofStatistic.__init__`, 561-566. -/
noncomputable def initBinned (bins : ℤ) (alpha beta : ℝ) : Except PyErr (ℤ × Params) :=
  if bins < 2 then .error .valueError else (init alpha beta).map (bins, ·)

/-- `AbstractGammaGofStatistic.hypothesis`, 58-60. -/
def hypothesis (p : Params) : List (String × ℝ) := [("alpha", p.alpha), ("beta", p.beta)]

/-- `scipy_stats.gamma.cdf(np.sort(rvs), a=alpha, scale=1 / beta)`, 132-133, 277-278, 325-331,
383-384, 442-443, 493-498, 546-547. -/
noncomputable def vals (lib : GammaLib) (p : Params) (rvs : List ℝ) : List ℝ :=
  (sort rvs).map (lib.cdf p.alpha (1 / p.beta))

/-- `LillieforsGammaGofStatistic.execute_statistic`, 176-192.  For one observation the variance with
`ddof=1` is NaN and so is the statistic; here the variance is `0` and the result `ValueError`. -/
noncomputable def lilliefors (lib : GammaLib) (rvs : List ℝ) : Except PyErr ℝ :=
  if rvs.length = 0 then .error .valueError
  else if mean rvs ≤ 0 ∨ var1 rvs ≤ 0 then .error .valueError
  else ks .twoTailed ((sort rvs).map (lib.cdf (mean rvs ^ 2 / var1 rvs) (var1 rvs / mean rvs)))

/-- `AbstractBinnedGammaGofStatistic._counts_and_expected` and `execute_statistic`, 568-594, with
the `lambda_value` of the three classes (605, 648, 698), for a monotone `ppf`. -/
noncomputable def binned (lib : GammaLib) (p : Params) (bins : ℕ) (lam : ℝ) (rvs : List ℝ) :
    Except PyErr ℝ :=
  if rvs.length = 0 then .error .valueError
  else .ok (powerDivergence lam
    ((histogramInf (quantileEdges (lib.ppf p.alpha (1 / p.beta)) bins) rvs).map Nat.cast)
    (equalExpected rvs.length bins))

/-- `ProbabilityPlotCorrelationGammaGofStatistic.execute_statistic`, 777-794. -/
noncomputable def ppcc (lib : GammaLib) (p : Params) (rvs : List ℝ) : Except PyErr ℝ :=
  if rvs.length < 2 then .error .valueError
  else
    let sample := sort rvs
    let expected := (List.range rvs.length).map fun i : ℕ =>
      lib.ppf p.alpha (1 / p.beta) (blom rvs.length i)
    let denominator := √((sample.map fun x => (x - mean sample) ^ 2).sum *
      (expected.map fun x => (x - mean expected) ^ 2).sum)
    if denominator = 0 then .error .valueError
    else .ok (1 - (List.zipWith (fun x e => (x - mean sample) * (e - mean expected))
      sample expected).sum / denominator)

/-- The three binned classes; `lambda_value` is 605, 648, and `power`, 698, for Cressie-Read. -/
inductive Divergence where
  | pearson | gTest | cressieRead (power : ℝ)

/-- 605, 648, 698. -/
noncomputable def Divergence.lam : Divergence → ℝ
  | .pearson => 1
  | .gTest => 0
  | .cressieRead power => power

/-- The classes of `gamma.py` other than the graph statistics. -/
inductive GammaStat where
  | ks (t : AlternativeType) | lilliefors | andersonDarling | cvm | watson | kuiper | greenwood
  | moran | minToshiyuki | binned (d : Divergence) (bins : ℕ) | ppcc

/-- `execute_statistic` of each class: 124-134, 167-192, 225-236, 269-279, 316-337, 374-395, 432-447,
484-504, 537-548, 582-594, 768-794. -/
noncomputable def GammaStat.value (lib : GammaLib) (p : Params) (s : GammaStat)
    (rvs : List ℝ) : Except PyErr ℝ :=
  match s with
  | .ks t => Edf.ks t (vals lib p rvs)
  | .lilliefors => Gamma.lilliefors lib rvs
  | .andersonDarling =>
    .ok (adOf (lib.logcdf p.alpha (1 / p.beta)) (lib.logsf p.alpha (1 / p.beta)) rvs)
  | .cvm => .ok (Edf.cvm (vals lib p rvs))
  | .watson => watsonGamma (vals lib p rvs)
  | .kuiper => Edf.kuiper (vals lib p rvs)
  | .greenwood => greenwoodGamma (vals lib p rvs)
  | .moran => moranGamma (vals lib p rvs)
  | .minToshiyuki => .ok (Edf.minToshiyuki (vals lib p rvs))
  | .binned d bins => Gamma.binned lib p bins d.lam rvs
  | .ppcc => Gamma.ppcc lib p rvs

/-- `alternative()`: `common.py` 24-25, 93, 123, 132, 151, 185, `gamma.py` 292, 350, 408, 460, 743-744. -/
def GammaStat.alternative : GammaStat → AlternativeType
  | .ks t => t
  | .lilliefors => .twoTailed
  | .minToshiyuki => .twoTailed
  | .ppcc => .left
  | _ => .right

/-- `short_code()` of each class. -/
def GammaStat.short : GammaStat → String
  | .ks _ => "KS"
  | .lilliefors => "LILLIE"
  | .andersonDarling => "AD"
  | .cvm => "CVM"
  | .watson => "WAT"
  | .kuiper => "KUI"
  | .greenwood => "GRW"
  | .moran => "MOR"
  | .minToshiyuki => "MT"
  | .binned .pearson _ => "CHI2_PEARSON"
  | .binned .gTest _ => "G_TEST"
  | .binned (.cressieRead _) _ => "CRESSIE_READ"
  | .ppcc => "PPCC"

/-- `code()` of each class: `f"{short_code}_{AbstractGammaGofStatistic.code()}"`, e.g. 120-121. -/
def GammaStat.code (s : GammaStat) : String := s.short ++ "_" ++ Codes.Family.gamma.code

/-- The instance as the test procedures see it. -/
noncomputable def GammaStat.statistic (lib : GammaLib) (p : Params) (s : GammaStat) : Statistic ℝ :=
  { code := s.code, params := some (hypothesis p), distribution := "gamma",
    alternative := s.alternative, execute := s.value lib p }

end Pysatl.Gamma
