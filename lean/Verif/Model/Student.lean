import Verif.Model.Uniform
import Verif.Model.Codes

/-!
# Model of the statistics for Student's distribution

`/repo/src/pysatl_criterion/statistics/goodness_of_fit/student.py`.  Numbers are real: no rounding,
infinities or NaN.  The functions of `scipy.stats.t` are parameters, collected in `StudentLib`.
-/

namespace Pysatl.Student

open Pysatl.Decision Pysatl.Graph Pysatl.Edf Pysatl.Exponent Pysatl.Normal

/-- The functions of `scipy.stats.t` that `student.py` uses, with the degrees of freedom first:
`t.cdf`, `t.logcdf`, `t.logsf`, `t.ppf`. -/
structure StudentLib where
  cdf : ℝ → ℝ → ℝ
  logcdf : ℝ → ℝ → ℝ
  logsf : ℝ → ℝ → ℝ
  ppf : ℝ → ℝ → ℝ

/-- The attributes `df`, `loc`, `scale` of an instance. -/
structure Params where
  df : ℝ
  loc : ℝ
  scale : ℝ

/-- `AbstractStudentGofStatistic.__init__`, 24-31. -/
noncomputable def init (df loc scale : ℝ) : Except PyErr Params :=
  if df ≤ 0 then .error .valueError
  else if scale ≤ 0 then .error .valueError
  else .ok ⟨df, loc, scale⟩

/-- `AbstractStudentGofStatistic.hypothesis`, 33-35. -/
def hypothesis (p : Params) : List (String × ℝ) := [("df", p.df)]

/-- `(np.sort(rvs) - loc) / scale`, 113-115, 154-156, 196-198, 242-244, 293-295, 350-352, 405-407. -/
noncomputable def standardized (p : Params) (rvs : List ℝ) : List ℝ :=
  (sort rvs).map fun x => (x - p.loc) / p.scale

/-- The value `1e-10` of 57 and 360. -/
noncomputable def eps : ℝ := 1 / 10 ^ 10

/-- `AbstractStudentGofStatistic._cdf_clipped`, 57-66. -/
noncomputable def clip (v : ℝ) : ℝ := min (max v eps) (1 - eps)

/-- `ZhangZcStudentGofStatistic.execute_statistic`, 349-363, from `cdf_vals` on. -/
noncomputable def zhangZc (vals : List ℝ) : ℝ :=
  (vals.mapIdx fun i v =>
    let term2 := ((vals.length : ℝ) - 1 / 2) / ((i : ℝ) + 1) - 1
    Real.log ((1 / v - 1) / (if term2 ≤ 0 then eps else term2)) ^ 2).sum

/-- `ZhangZaStudentGofStatistic.execute_statistic`, 404-414, from `cdf_vals` on. -/
noncomputable def zhangZa (vals : List ℝ) : ℝ :=
  -(vals.mapIdx fun i v => Real.log v / ((vals.length : ℝ) - ((i : ℝ) + 1) + 1 / 2)).sum -
    (vals.mapIdx fun i v => Real.log (1 - v) / ((i : ℝ) + 1 - 1 / 2)).sum

/-- `np.histogram(x, bins=edges)` with `edges[0] = -inf` and `edges[-1] = inf`; the argument is the
list of the finite edges in between.  A bin contains its lower edge and not its upper one. -/
noncomputable def histogramInf : List ℝ → List ℝ → List ℕ
  | [], xs => [xs.length]
  | e :: es, xs =>
    xs.countP (fun x => decide (x < e)) :: histogramInf es (xs.filter fun x => decide (e ≤ x))

/-- The finite edges `ppf(np.linspace(0, 1, k + 1))[1:-1]`, 515-517 and `gamma.py` 574-577. -/
noncomputable def quantileEdges (ppf : ℝ → ℝ) (k : ℕ) : List ℝ :=
  (List.range (k - 1)).map fun i : ℕ => ppf (((i : ℝ) + 1) / k)

/-- `np.ones(k) * n / k`, 523 and `gamma.py` 579. -/
noncomputable def equalExpected (n k : ℕ) : List ℝ := List.replicate k ((n : ℝ) / k)

/-- `ChiSquareStudentGofStatistic.execute_statistic`, 510-528, for `n_bins ≥ 1` and a `ppf` that is
monotone (`np.histogram` refuses other edges). -/
noncomputable def chi2 (lib : StudentLib) (p : Params) (bins : ℕ) (rvs : List ℝ) : ℝ :=
  pearson ((histogramInf (quantileEdges (lib.ppf p.df) bins)
    (rvs.map fun x => (x - p.loc) / p.scale)).map Nat.cast) (equalExpected rvs.length bins)

/-- The classes of `student.py`. -/
inductive StudentStat where
  | ks (t : AlternativeType) | andersonDarling | cvm | kuiper | watson | zhangZc | zhangZa
  | lilliefors | chi2 (bins : ℕ)

/-- `execute_statistic` of each class: 106-117, 147-159, 189-200, 234-251, 285-308, 342-363, 397-414,
446-459, 502-528.  The Lilliefors class takes only `df` and does not look at `loc` and `scale`, which
its constructor (422-423) sets to `0` and `1`. -/
noncomputable def StudentStat.value (lib : StudentLib) (p : Params) (s : StudentStat)
    (rvs : List ℝ) : Except PyErr ℝ :=
  match s with
  | .ks t => Edf.ks t ((standardized p rvs).map (lib.cdf p.df))
  | .andersonDarling =>
    .ok (ad ((standardized p rvs).map (lib.logcdf p.df)) ((standardized p rvs).map (lib.logsf p.df)))
  | .cvm => .ok (Edf.cvm ((standardized p rvs).map (lib.cdf p.df)))
  | .kuiper => Edf.kuiper ((standardized p rvs).map (lib.cdf p.df))
  | .watson => .ok (watsonBeta ((standardized p rvs).map (lib.cdf p.df)))
  | .zhangZc => .ok (Student.zhangZc ((standardized p rvs).map fun x => clip (lib.cdf p.df x)))
  | .zhangZa => .ok (Student.zhangZa ((standardized p rvs).map fun x => clip (lib.cdf p.df x)))
  | .lilliefors => Edf.ks .twoTailed ((sort rvs).map (lib.cdf p.df))
  | .chi2 bins => .ok (Student.chi2 lib p bins rvs)

/-- `alternative()`: `common.py` 24-25, 93, 123, 132, `student.py` 208-210, 259-261, 316-318, 371-373,
467-469. -/
def StudentStat.alternative : StudentStat → AlternativeType
  | .ks t => t
  | .lilliefors => .twoTailed
  | _ => .right

/-- `short_code()` of each class. -/
def StudentStat.short : StudentStat → String
  | .ks _ => "KS"
  | .andersonDarling => "AD"
  | .cvm => "CVM"
  | .kuiper => "KUIPER"
  | .watson => "WATSON"
  | .zhangZc => "ZHANG_ZC"
  | .zhangZa => "ZHANG_ZA"
  | .lilliefors => "LILLIE"
  | .chi2 _ => "CHI2"

/-- `code()` of each class: `f"{short_code}_{AbstractStudentGofStatistic.code()}"`, e.g. 102-103. -/
def StudentStat.code (s : StudentStat) : String := s.short ++ "_" ++ Codes.Family.student.code

/-- The instance as the test procedures see it. -/
noncomputable def StudentStat.statistic (lib : StudentLib) (p : Params) (s : StudentStat) :
    Statistic ℝ :=
  { code := s.code, params := some (hypothesis p), distribution := "student",
    alternative := s.alternative, execute := s.value lib p }

end Pysatl.Student
