import Verif.Model.Normal

/-!
# Model of the log-normality statistics

`/repo/src/pysatl_criterion/statistics/goodness_of_fit/log_normal.py`.  Numbers are real, as in
`Verif.Model.Normal`; the one infinity of the file, `float("inf")`, is `⊤`.  The
Quesenberry-Miller statistic is `Edf.quesenberryMillerLogNormal`.
-/

namespace Pysatl.LogNormal

open Pysatl.Decision Pysatl.Graph Pysatl.Edf Pysatl.Exponent Pysatl.Normal

/-- What `execute_statistic` returns: a number, `float("inf")` (`some ⊤`), `None`, or an
exception. -/
abbrev Value := Except PyErr (Option (WithTop ℝ))

/-- What a normality statistic returns, as a `Value`. -/
def embed (v : Except PyErr (Option ℝ)) : Value :=
  v.map (Option.map (fun r : ℝ => (r : WithTop ℝ)))

/-- `AbstractLogNormalGofStatistic.__init__`, 25-32: the pair `(s, scale)`. -/
noncomputable def init (s scale : ℝ) : Except PyErr (ℝ × ℝ) :=
  if s ≤ 0 then .error .valueError
  else if scale ≤ 0 then .error .valueError
  else .ok (s, scale)

/-- `scipy.stats.lognorm.cdf(x, s=s, scale=scale)`: zero off the support, else the standard normal
distribution function of `log(x / scale) / s`. -/
noncomputable def lognormCdf (lib : NormLib) (s scale x : ℝ) : ℝ :=
  if x ≤ 0 then 0 else lib.cdf (Real.log (x / scale) / s)

/-- `KolmogorovSmirnovLogNormalGofStatistic.execute_statistic`, 109-111. -/
noncomputable def ksLogNormal (lib : NormLib) (t : AlternativeType) (s scale : ℝ) (rvs : List ℝ) :
    Except PyErr ℝ :=
  ks t ((sort rvs).map (lognormCdf lib s scale))

/-- `CramerVonMiseLogNormalGofStatistic.execute_statistic`, 148-150 (the common function only uses
the length of its first argument). -/
noncomputable def cvmLogNormal (lib : NormLib) (s scale : ℝ) (rvs : List ℝ) : ℝ :=
  cvm ((sort rvs).map (lognormCdf lib s scale))

/-! ### Classes made from normality classes -/

/-- `alternative()` of the normality classes; line numbers in `normal.py` and, for
Kolmogorov-Smirnov 25, Anderson-Darling 93, Lilliefors 123 and Cramer-von Mises 132, in
`common.py`. -/
def alternative : NormStat → AlternativeType
  | .ks t => t
  | .andersonDarling => .right
  | .shapiroWilk => .left -- 143
  | .cvm => .right
  | .lilliefors => .twoTailed
  | .jarqueBera => .right -- 276
  | .skew => .right -- 310
  | .kurtosis => .right -- 358
  | .dap => .right -- inherited, 310
  | .filli => .left -- 447
  | .looneyGulledge => .left -- 492
  | .ryanJoiner _ _ => .left -- 563
  | .shapiroFrancia => .left -- 634
  | .eppsPulley => .right -- 665
  | .hosking1 => .twoTailed -- 760
  | .hosking2 => .twoTailed -- 697
  | .hosking3 => .twoTailed -- 821
  | .hosking4 => .twoTailed -- 889
  | .zhangWuC => .right -- 957
  | .zhangWuA => .right -- 991
  | .glenLeemisBarr => .right -- 1029
  | .doornikHansen => .right -- 1068
  | .robustJarqueBera => .right -- 1132
  | .bontempsMeddahi1 => .right -- 1161
  | .bontempsMeddahi2 => .right -- 1208
  | .bonettSeier => .twoTailed -- 1247
  | .martinezIglewicz => .right -- 1292
  | .cabanaCabana1 => .right -- 1343
  | .cabanaCabana2 => .right -- 1399
  | .chenShapiro => .right -- 1508
  | .zhangQ => .right -- 1542
  | .coin => .right -- 1592
  | .dagostino => .twoTailed -- 1731
  | .zhangQStar => .right -- 1761
  | .swrg => .right -- 1858
  | .gmg => .right -- 1898
  | .spiegelhalter => .twoTailed -- 2312
  | .desgagneLafaye => .right -- 2370

/-- The instances `normal_cls()` for which the module creates a class, 531-563: every normality
class with its default arguments (`RyanJoiner`: `weighted=False, cte_alpha="3/8"`, `normal.py` 556)
except Kolmogorov-Smirnov, Cramer-von Mises, Brys-Hubert-Struyf and the graph statistics. -/
def Wrapped : NormStat → Prop
  | .ks _ => False
  | .cvm => False
  | .ryanJoiner weighted α => weighted = false ∧ α = .other
  | _ => True

/-- `LogNormalClass.alternative`, 484-486. -/
def wrappedAlternative (cls : NormStat) : AlternativeType := alternative cls

/-- `LogNormalClass.execute_statistic`, 488-504. -/
noncomputable def wrapped (lib : NormLib) (cls : NormStat) (s scale : ℝ) (rvs : List ℝ) : Value :=
  if rvs.any (fun x => decide (x ≤ 0)) then .ok (some ⊤)
  else
    let logRvs := rvs.map Real.log
    let standardizedLogRvs := logRvs.map fun l => (l - Real.log scale) / s
    embed (cls.value lib standardizedLogRvs)

/-- The object of a class made from `cls`, as the test procedures see it.  Simplified: `float("inf")`, returned
for samples with a non-positive observation, is not a number of the model and becomes an exception, as `None`
does. -/
noncomputable def wrappedStatistic (lib : NormLib) (cls : NormStat) (s scale : ℝ) (code : String)
    (params : Option (List (String × ℝ))) : Statistic ℝ :=
  { code := code, params := params, distribution := "log-normal", alternative := wrappedAlternative cls,
    execute := fun xs => do
      match ← wrapped lib cls s scale xs with
      | some (some v) => return v
      | some none => .error .valueError
      | none => .error .typeError }

/-! ### Tests based on Kullback-Leibler divergences -/

/-- `Y` of 258-262 and 379-382: `rvs ** (1 / sigma_hat)` with `sigma_hat = np.std(log_rvs)`. -/
noncomputable def klY (rvs : List ℝ) : List ℝ :=
  let sigmaHat := √(moment 2 (rvs.map Real.log))
  rvs.map fun x => x ^ (1 / sigmaHat)

/-- `C` of 272 and 393: `logY` is the logarithm of `Y`. -/
noncomputable def klC (Y : List ℝ) : ℝ :=
  let logY := Y.map Real.log
  let m1 := mean logY
  let m2 := mean (logY.map (· ^ 2))
  let m3 := mean (logY.map (· ^ 3))
  0 - m3 + 3 * m2 * m1 - 2 * m1 ^ 3

/-- `D_n_r`, 270-279 and 391-400. -/
noncomputable def klD (Y : List ℝ) (r : ℝ) : ℝ :=
  if |r| < 1 / 10 ^ 8 then √6 / 6 * klC Y * r ^ 3
  else
    let meanYr := mean (Y.map fun y => y ^ r)
    let meanYrLogY := mean (Y.map fun y => y ^ r * Real.log y)
    2 * Real.log meanYr - r * mean (Y.map Real.log) - r * meanYrLogY / meanYr

/-- `sigma_r`, 282-290 and 403-411. -/
noncomputable def klSigma (r : ℝ) : ℝ :=
  if |r| < 1 / 10 ^ 8 then |r| ^ 3 / √6
  else
    let e := Real.exp (r ^ 2) * (r ^ 4 - 3 * r ^ 2 + 4) - (4 + r ^ 2)
    if e < 1 / 10 ^ 16 then 1 / 10 ^ 8 else √e

/-- `np.linspace(-5, 5, 1000)`, 293. -/
noncomputable def klGrid : List ℝ := (List.range 1000).map fun i : ℕ => -5 + 10 * (i : ℝ) / 999

/-- `KLSupremumLogNormalGoFStatistic.execute_statistic`, 250-305. -/
noncomputable def klSupremum (rvs : List ℝ) : WithTop ℝ :=
  if rvs.any (fun x => decide (x ≤ 0)) then ⊤
  else
    let Y := klY rvs
    let values := (klGrid.filter fun r => decide (1 / 10 ^ 10 < klSigma r)).map fun r =>
      |klD Y r / klSigma r|
    match values.max? with
    | none => ⊤
    | some m => ((√(rvs.length : ℝ) * m : ℝ) : WithTop ℝ)

/-- `integrand`, 414-423. -/
noncomputable def klIntegrand (Y : List ℝ) (r : ℝ) : ℝ :=
  if |r| < 1 / 10 ^ 8 then (klC Y / 6) ^ 2
  else (klD Y r / klSigma r) * (klD Y r / klSigma r)

/-- `KLIntegralLogNormalGoFStatistic.execute_statistic`, 371-432; `quad` is
`scipy.integrate.quad(·, -5, 5, limit=100)[0]`, any functional of the integrand. -/
noncomputable def klIntegral (quad : (ℝ → ℝ) → ℝ) (rvs : List ℝ) : WithTop ℝ :=
  if rvs.any (fun x => decide (x ≤ 0)) then ⊤
  else (((rvs.length : ℝ) * quad (klIntegrand (klY rvs)) : ℝ) : WithTop ℝ)

/-- `KLSupremumLogNormalGoFStatistic.calculate_critical_value`, 307-338. -/
noncomputable def klSupremumCritical (n : ℕ) (alpha : ℝ) : Except PyErr ℝ :=
  if alpha = 0.05 then .ok (2.67076 - 3.90704 / √n + 1.07162 / n)
  else if alpha = 0.01 then .ok (4.10183 - 7.48001 / √n + 0.638394 * Real.log n / √n)
  else if alpha < 0.001 ∨ 0.1 < alpha then .error .valueError
  else .ok (0.48632 - 0.00148063 / alpha - 0.0000699 * n + 0.217752 / √alpha - 2.39217 * √(n / alpha)
    - 0.532872 / (√alpha * n) + 0.179786 * Real.log (n / alpha) - 0.13083 * Real.log (alpha * n))

/-- `KLIntegralLogNormalGoFStatistic.calculate_critical_value`, 439-471. -/
noncomputable def klIntegralCritical (n : ℕ) (alpha : ℝ) : Except PyErr ℝ :=
  if alpha = 0.05 then .ok (-2.88971 - 0.130082 * Real.log n ^ 2 + 2.71403 * Real.log n)
  else if alpha = 0.01 then .ok (24.9099 - 31.9302 / √n - 13.2562 * Real.log n / √n)
  else if alpha < 0.001 ∨ 0.1 < alpha then .error .valueError
  else .ok (0.880415 + 0.00680135 / alpha - 35.179 * alpha - 0.18045 / (alpha * n) - 0.107479 * n +
    1.67972 * √(alpha * n) + 0.0119889 * n * Real.log n + 0.372023 * √(n / alpha) -
    0.0213414 * √(n / alpha) * Real.log (n / alpha))

end Pysatl.LogNormal
