import Mathlib.Analysis.SpecialFunctions.Gamma.Basic
import Mathlib.Analysis.SpecialFunctions.Trigonometric.Inverse
import Verif.Model.Uniform
import Verif.Model.Codes

/-!
# Model of the statistics for the Weibull distribution

`/repo/src/pysatl_criterion/statistics/goodness_of_fit/weibull.py`.  Numbers are real: no rounding,
infinities or NaN; where numpy divides by an array element or a `float64` that is zero, or takes the
logarithm of zero, and returns `inf` or NaN, the model returns the value of Lean's total functions.
Where Python divides one `int` by another that is zero, the model raises `ZeroDivisionError`.
Samples have at least one observation.
-/

namespace Pysatl.Weibull

open Pysatl.Decision Pysatl.Graph Pysatl.Edf Pysatl.Exponent Pysatl.Normal Pysatl.Uniform

/-- The attributes `a`, `k` of an instance, 35-37 and 274-281 (nothing is validated). -/
structure Params where
  a : ℝ
  k : ℝ

/-- `AbstractWeibullGofStatistic.__init__`, 35-37. -/
def init (a k : ℝ) : Except PyErr Params := .ok ⟨a, k⟩

/-- `AbstractWeibullGofStatistic.hypothesis`, 39-41. -/
def hypothesis (p : Params) : List (String × ℝ) := [("a", p.a), ("k", p.k)]

/-- `generate_weibull_cdf`, `core/distributions/weibull.py` 40-63: `exponweib.cdf(x, a=a, c=k)`, which
is `(1 - exp (-x^k))^a` on its support. -/
noncomputable def cdf (a k x : ℝ) : ℝ := if x ≤ 0 then 0 else (1 - Real.exp (-x ^ k)) ^ a

/-- `generate_weibull_cdf(np.sort(rvs), a=self.a, k=self.k)`, 99-100, 181-182, 219-220, 312-313, 1081-1085,
1136-1137, 1190-1193. -/
noncomputable def vals (p : Params) (rvs : List ℝ) : List ℝ := (sort rvs).map (cdf p.a p.k)

/-- The edges of `np.histogram(x, bins=k)`: equal parts of the range of the sample, or of the interval of
length one around it if all observations are equal. -/
noncomputable def rangeEdges (k : ℕ) (rvs : List ℝ) : List ℝ :=
  let lo := (sort rvs).headD 0
  let hi := (sort rvs).getLastD 0
  if lo = hi then equalEdges (lo - 1 / 2) (hi + 1 / 2) k else equalEdges lo hi k

/-- `Chi2PearsonWeibullGofStatistic.execute_statistic`, 131-144. -/
noncomputable def chi2 (p : Params) (rvs : List ℝ) : ℝ :=
  let edges := rangeEdges ⌈√(rvs.length : ℝ)⌉.toNat rvs
  pearson ((histogram edges rvs).map fun c : ℕ => (c : ℝ) / rvs.length) (npDiff (edges.map (cdf p.a p.k)))

/-- `np.sort(np.log(rvs))`, 356-357, 413-414, 466-467, 584, 793-794. -/
noncomputable def logs (rvs : List ℝ) : List ℝ := sort (rvs.map Real.log)

/-- `w`, 362-363 and 799-801. -/
noncomputable def sbW (n : ℕ) : List ℝ :=
  (List.range (n - 1)).map fun i : ℕ => Real.log (((n : ℝ) + 1) / ((n : ℝ) - ((i : ℝ) + 1) + 1))

/-- `Wi`, 364, 802, 817. -/
noncomputable def sbWi (n : ℕ) : List ℝ := sbW n ++ [(n : ℝ) - (sbW n).sum]

/-- `Wn`, 365-367, 803-805, 818-820. -/
noncomputable def sbWn (n : ℕ) : List ℝ :=
  let wn := (sbW n).map fun w => w * (1 + Real.log w) - 1
  wn ++ [4228 / 10000 * n - wn.sum]

/-- `0.6079 * np.sum(Wn * y) - 0.2570 * np.sum(Wi * y)`, 368, 806, 821. -/
noncomputable def sbB (y : List ℝ) : ℝ :=
  6079 / 10000 * (List.zipWith (· * ·) (sbWn y.length) y).sum -
    2570 / 10000 * (List.zipWith (· * ·) (sbWi y.length) y).sum

/-- `np.sum((x - np.mean(x)) ** 2)`. -/
noncomputable def sumSq (x : List ℝ) : ℝ := (x.map fun v => (v - mean x) ^ 2).sum

/-- `SbWeibullGofStatistic.execute_statistic`, 348-371, and the branch `SB`, 812-822. -/
noncomputable def sb (rvs : List ℝ) : ℝ :=
  (rvs.length : ℝ) * (sbB (logs rvs) / rvs.length) ^ 2 / sumSq (logs rvs)

/-- `b1`, 415-418, 468-471. -/
noncomputable def stMoment (k : ℕ) (rvs : List ℝ) : ℝ :=
  let x := sort ((logs rvs).map fun y => -y)
  let s := sumSq x / rvs.length
  (x.map fun v => ((v - mean x) / √s) ^ k).sum / rvs.length

/-- `ST2WeibullGofStatistic.execute_statistic`, 405-423. -/
noncomputable def st2 (rvs : List ℝ) : ℝ :=
  ((stMoment 4 rvs - 755 / 100 * stMoment 3 rvs + 321 / 100) / √(21972 / 100 / rvs.length)) ^ 2

/-- `ST1WeibullGofStatistic.execute_statistic`, 458-475. -/
noncomputable def st1 (rvs : List ℝ) : ℝ :=
  ((stMoment 3 rvs - 1139547 / 1000000) / √(20 / rvs.length)) ^ 2

/-- `m`, 518-521: the scores of the probability plot. -/
noncomputable def rsbScores (n : ℕ) : List ℝ :=
  (List.range n).map fun i : ℕ => Real.log (-Real.log (1 - ((i : ℝ) + 1) / ((n : ℝ) + 1)))

/-- `RSBWeibullGofStatistic.execute_statistic`, 510-529.  The sample is not sorted. -/
noncomputable def rsb (rvs : List ℝ) : ℝ :=
  let m := rsbScores rvs.length
  let x := rvs.map Real.log
  let r := (List.zipWith (fun v u => (v - mean x) * (u - mean m)) x m).sum ^ 2
  (rvs.length : ℝ) * (1 - r / sumSq x / sumSq m)

/-- `GoFNS(1, n, n)`, 542-568. -/
noncomputable def goFNS (n : ℕ) : List ℝ :=
  (List.range n).map fun i : ℕ =>
    let p := (1 + (i : ℝ)) / ((n : ℝ) + 1)
    let q := 1 - p
    let Q := Real.log (-Real.log (1 - p))
    let d1 := -1 / ((1 - p) * Real.log (1 - p))
    let d2 := d1 / q - d1 * d1
    let d3 := d2 / q + d1 / (q * q) - 2 * (d1 * d2)
    let d4 := d3 / q + 2 * d2 / (q * q) + (2 * d1 / (q * q * q) - 2 * (d2 * d2 + d1 * d3))
    Q + (p * q / (2 * ((n : ℝ) + 2))) * d2 +
      q * p / (((n : ℝ) + 2) * ((n : ℝ) + 2)) * (1 / 3 * (q - p) * d3 + 1 / 8 * p * q * d4)

/-- `G2`, 586-593: the normalised spacings; `G1` is `G2` without its last element. -/
noncomputable def spacingsG (rvs : List ℝ) : List ℝ :=
  List.zipWith (· / ·) (npDiff (logs rvs)) (npDiff (goFNS rvs.length))

/-- The codes of the classes, e.g. 646-647. -/
def code (short : String) : String := short ++ "_" ++ Codes.Family.weibull.code

/-- `NormalizeSpaceWeibullGofStatistic.execute_statistic`, 571-620, with `s = r = 0`. -/
noncomputable def normalizeSpace (type_ : String) (rvs : List ℝ) : Except PyErr ℝ :=
  let m := rvs.length
  let G2 := spacingsG rvs
  let G1 := G2.take (m - 2)
  if type_ = code "TS" then
    let w1 := 2 * (G1.mapIdx fun i g => ((m : ℝ) - 1 - ((i : ℝ) + 1)) * g).sum
    let w2 := ((m : ℝ) - 2) * G2.sum
    .ok (w1 / w2)
  else if type_ = code "LOS" then
    if m = 2 then .error .zeroDivisionError
    else
      let z := sort ((List.range (m - 2)).map fun i => (G2.take (i + 1)).sum / G2.sum)
      let z1 := z.reverse
      .ok (-((m : ℝ) - 2) - 1 / ((m : ℝ) - 2) *
        ((z.zip z1).mapIdx fun i p =>
          (2 * ((i : ℝ) + 1) - 1) * (Real.log p.1 + Real.log (1 - p.2))).sum)
  else if type_ = code "MSF" then
    .ok ((G2.drop (m / 2)).sum / G2.sum)
  else .ok 0

/-- `scipy.optimize.minimize_scalar(f1, bounds=(0.0001, 50), args=(y,), method="bounded").x`, 764-773, as a function
of `y`. -/
abbrev Minimizer := List ℝ → ℝ

/-- `WPPWeibullGofStatistic.MLEst`, 750-778: `beta` and `y`. -/
noncomputable def mlEst (min : Minimizer) (rvs : List ℝ) : Except PyErr (ℝ × List ℝ) :=
  if (sort rvs).headD 0 ≤ 0 then .error .valueError
  else
    let y := sort (rvs.map fun x => -Real.log x)
    let t := min y
    let aux := (y.map fun v => Real.exp (-v * t)).sum / rvs.length
    let ksi := -(1 / t) * Real.log aux
    .ok (t, y.map fun v => -(v - ksi) * t)

/-- The branch `OK`, 798-810. -/
noncomputable def ok (rvs : List ℝ) : ℝ :=
  let n : ℝ := rvs.length
  let y := logs rvs
  let sig := (y.mapIdx fun i v => (2 * ((i : ℝ) + 1) - 1 - n) * v).sum / (Real.log 2 * (n - 1))
  let stat := sbB y / sig
  (stat - 1 - 13 / 100 / √n + 118 / 100 / n) / (49 / 100 / √n - 36 / 100 / n)

/-- The branch `REJG`, 834-840. -/
noncomputable def rejg (min : Minimizer) (rvs : List ℝ) : Except PyErr ℝ := do
  let (beta, _) ← mlEst min rvs
  let n : ℝ := rvs.length
  let y := logs rvs
  let m := (List.range rvs.length).map fun i : ℕ =>
    Real.log (-(Real.log (1 - ((i : ℝ) + 1 - 3175 / 10000) / (n + 365 / 1000)))) / beta
  let s := (List.zipWith (fun v u => (v - mean y) * u) y m).sum ^ 2 / (sumSq y * sumSq m)
  return s ^ 2

/-- The branch `SPP`, 842-846. -/
noncomputable def spp (min : Minimizer) (rvs : List ℝ) : Except PyErr ℝ := do
  let (_, y) ← mlEst min rvs
  let n : ℝ := rvs.length
  npMax (y.mapIdx fun i v =>
    |2 / Real.pi * Real.arcsin √(((i : ℝ) + 1 - 1 / 2) / n) -
      2 / Real.pi * Real.arcsin √(1 - Real.exp (-Real.exp v))|)

/-- `WPPWeibullGofStatistic.execute_statistic`, 784-863, without the branches `RSB`, `ST1`, `ST2`, which
no class reaches. -/
noncomputable def wpp (min : Minimizer) (type_ : String) (rvs : List ℝ) : Except PyErr ℝ :=
  if type_ = code "OK" then .ok (ok rvs)
  else if type_ = code "SB" then .ok (sb rvs)
  else if type_ = code "REJG" then rejg min rvs
  else if type_ = code "SPP" then spp min rvs
  else .ok 0

/-- `MahdiDoostparastWeibullGofStatistic.execute_statistic`, 1074-1095, from `F_0` on. -/
noncomputable def mahdiDoostparast (F : List ℝ) : ℝ :=
  let n : ℝ := F.length
  let term1 := ((npDiff (F.map Real.log)).mapIdx fun i d => (((i : ℝ) + 1) / n - 1) ^ 2 * d).sum
  let term2 := ((npDiff F).mapIdx fun i d => (((i : ℝ) + 1) / n - 1) * d).sum
  n * (term1 + 2 * term2 + 1 / 2)

/-- `LiaoShimokawaWeibullGofStatistic.execute_statistic`, 1182-1203, from `theoretical_cdf` on. -/
noncomputable def liaoShimokawa (F : List ℝ) : ℝ :=
  let n : ℝ := F.length
  (F.mapIdx fun i v => max (((i : ℝ) + 1) / n - v) (v - (i : ℝ) / n) /
    √(v * (1 - v + 1 / 10 ^ 10))).sum / √n

/-- `KullbackLeiblerWeibullGofStatistic.execute_statistic`, 1237-1263.  An index of a list is in range:
`min(n - 1, i + m)` and `max(0, i - m)` for `m ≥ 0`. -/
noncomputable def kl (m : Option ℕ) (rvs : List ℝ) : Except PyErr ℝ :=
  let n := rvs.length
  let m := m.getD (n / 2)
  if m = 0 ∧ n ≠ 0 then .error .zeroDivisionError
  else
    let l := (sort rvs).map Real.log
    let H := mean ((List.range n).map fun i =>
      Real.log ((n : ℝ) / (2 * m) * (l.getD (Nat.min (n - 1) (i + m)) 0 - l.getD (i - m) 0)))
    .ok (-H - mean l + mean (l.map Real.exp))

/-- `LaplaceTransformWeibullGofStatistic.execute_statistic`, 1276-1308, with `m` grid points and weight
parameter `a`. -/
noncomputable def laplaceTransform (type_ : String) (m : ℕ) (a : ℝ) (rvs : List ℝ) : Except PyErr ℝ :=
  let n : ℝ := rvs.length
  let stat (ts : List ℝ) : ℝ := n * (ts.map fun t =>
    Real.exp (-Real.exp (a * t) + a * t) *
      (Real.Gamma (1 - t) - (rvs.map fun x => Real.exp (-(x * t))).sum / n) ^ 2).sum
  if type_ = "LT2_WEIBULL" then
    .ok (stat ((List.range m).map fun i : ℕ => (-(m : ℝ) + i) / m))
  else if type_ = "LT3_WEIBULL" then
    .ok (stat ((List.range m).map fun i : ℕ => -25 / 10 + i * ((49 / 100 + 25 / 10) / ((m : ℝ) - 1))))
  else .error .valueError

/-- `CabanaQuirozWeibullGofStatistic.execute_statistic`, 1429-1456.  The unary minus of a Python list
raises `TypeError`. -/
noncomputable def cabanaQuiroz (rvs : Sample ℝ) : Except PyErr ℝ :=
  match rvs with
  | .list _ => .error .typeError
  | .ndarray x =>
    let s1 : ℝ := -1 / 10
    let s2 : ℝ := 2 / 100
    let v1 : ℝ := 159 / 100
    let v2 : ℝ := 53 / 100
    let v12 : ℝ := 91 / 100
    let vn1 := √(x.length : ℝ) * (mean (x.map fun v => Real.exp (-v * s1)) - Real.Gamma (1 - s1))
    let vn2 := √(x.length : ℝ) * (mean (x.map fun v => Real.exp (-v * s2)) - Real.Gamma (1 - s2))
    .ok (1 / (v1 * v2 - v12 ^ 2) * (v2 * vn1 ^ 2 - 2 * vn1 * vn2 * v12 + v1 * vn2 ^ 2))

/-- The concrete classes of `weibull.py`. -/
inductive WeibullStat where
  | minToshiyuki | chi2 | lilliefors | cvm | andersonDarling | ks (t : AlternativeType) | sbSmall | st2 | st1
  | rsb | tikuSingh | los | msf | ok | sb | rejg | spp | mahdiDoostparast | watson | liaoShimokawa
  | kl (m : Option ℕ) | lt2 (m : ℕ) (a : ℝ) | lt3 (m : ℕ) (a : ℝ) | cabanaQuiroz

/-- `execute_statistic` of each class: 92-101, 131-144, 174-183, 212-221, 251-265, 305-314, 348-371, 405-423,
458-475, 510-529, 651-658, 690-697, 730-737, 900-907, 944-951, 986-993, 1028-1035, 1074-1095, 1129-1145,
1182-1203, 1237-1263, 1342-1351, 1384-1393, 1429-1456.  `AndersonDarlingWeibullGofStatistic` passes the keyword
`w`, which `ADStatistic.do_execute_statistic` (`common.py` 100) does not have. -/
noncomputable def WeibullStat.value (min : Minimizer) (p : Params) (s : WeibullStat) (rvs : Sample ℝ) :
    Except PyErr ℝ :=
  let x := rvs.values
  match s with
  | .minToshiyuki => .ok (Edf.minToshiyuki (vals p x))
  | .chi2 => .ok (Weibull.chi2 p x)
  | .lilliefors => Edf.ks .twoTailed (vals p x)
  | .cvm => .ok (Edf.cvm (vals p x))
  | .andersonDarling => .error .typeError
  | .ks t => Edf.ks t (vals p x)
  | .sbSmall => .ok (Weibull.sb x)
  | .st2 => .ok (Weibull.st2 x)
  | .st1 => .ok (Weibull.st1 x)
  | .rsb => .ok (Weibull.rsb x)
  | .tikuSingh => normalizeSpace (code "TS") x
  | .los => normalizeSpace (code "LOS") x
  | .msf => normalizeSpace (code "MSF") x
  | .ok => wpp min (code "OK") x
  | .sb => wpp min (code "SB") x
  | .rejg => wpp min (code "REJG") x
  | .spp => wpp min (code "SPP") x
  | .mahdiDoostparast => .ok (Weibull.mahdiDoostparast (vals p x))
  | .watson => .ok (watsonBeta (vals p x))
  | .liaoShimokawa => .ok (Weibull.liaoShimokawa (vals p x))
  | .kl m => Weibull.kl m x
  | .lt2 m a => laplaceTransform (code "LT2") m a x
  | .lt3 m a => laplaceTransform (code "LT3") m a x
  | .cabanaQuiroz => Weibull.cabanaQuiroz rvs

/-- `alternative()`: `common.py` 24-25, 93, 123, 132, 151, 185, `weibull.py` 324, 381, 433, 485, 539, 875, 919, 961,
1003, 1050, 1105, 1158, 1213, 1318, 1361, 1404. -/
def WeibullStat.alternative : WeibullStat → AlternativeType
  | .ks t => t
  | .lilliefors | .minToshiyuki => .twoTailed
  | .sbSmall | .sb | .rejg | .spp => .left
  | _ => .right

/-- The instance as the test procedures see it: `hypothesis`, 39-41, `distribution`, 43-51; the sample is an array. -/
noncomputable def WeibullStat.statistic (min : Minimizer) (p : Params) (s : WeibullStat) (code : String) :
    Statistic ℝ :=
  { code := code, params := some [("a", p.a), ("k", p.k)], distribution := "weibull", alternative := s.alternative,
    execute := fun x => s.value min p (.ndarray x) }

end Pysatl.Weibull
