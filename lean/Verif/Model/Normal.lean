import Verif.Model.Exponent
import Mathlib.Data.Real.Sign
import Mathlib.Data.Nat.Choose.Basic

/-!
# Model of the normality statistics

`/repo/src/pysatl_criterion/statistics/goodness_of_fit/normal.py`, except the graph statistics
(`Verif.Model.Graph`) and Brys-Hubert-Struyf (`Verif.Model.Medcouple`).

Numbers are real: no rounding, infinities or NaN; a quotient by zero, which is NaN or infinite in
numpy and an exception for Python's own floats, has the value `0` here, so the theorems exclude
samples without spread.  `scipy.stats.skew` and `kurtosis` are the ratios of central moments (they
return NaN for a spread below floating point resolution).  The distribution functions of
`scipy.stats` are parameters, collected in `NormLib`.

The result is `none` where the code falls off the end of `if n > 3:` and returns `None`.
-/

namespace Pysatl.Normal

open Pysatl.Decision Pysatl.Graph Pysatl.Edf Pysatl.Exponent

/-- The functions of `scipy.stats` that `normal.py` uses: `norm.cdf`, `norm.pdf`, `norm.ppf`,
`norm.logcdf`, `norm.logsf`, `beta.cdf`. -/
structure NormLib where
  cdf : ℝ → ℝ
  pdf : ℝ → ℝ
  ppf : ℝ → ℝ
  logcdf : ℝ → ℝ
  logsf : ℝ → ℝ
  betaCdf : ℝ → ℕ → ℕ → ℝ

/-- `np.var(x, ddof=1)`. -/
noncomputable def var1 (xs : List ℝ) : ℝ :=
  (xs.map fun x => (x - mean xs) ^ 2).sum / ((xs.length : ℝ) - 1)

/-- `np.std(x, ddof=1)`. -/
noncomputable def sd1 (xs : List ℝ) : ℝ := √(var1 xs)

/-- `(x - np.mean(x)) / np.std(x, ddof=1)`: 131-134, 243, 976-980, 1010-1014, 1048-1052, 1231-1235,
1365. -/
noncomputable def standardised (xs : List ℝ) : List ℝ := xs.map fun x => (x - mean xs) / sd1 xs

/-- The variance of Bontemps-Meddahi 1 and Coin, 1185-1191 and 1625-1631. -/
noncomputable def var1' (xs : List ℝ) : ℝ :=
  xs.length * ((xs.map (· ^ 2)).sum / xs.length - mean xs ^ 2) / ((xs.length : ℝ) - 1)

/-- `scipy_stats.moment(x, moment=k)`: the central moment. -/
noncomputable def moment (k : ℕ) (xs : List ℝ) : ℝ := mean (xs.map fun x => (x - mean xs) ^ k)

/-- `scipy_stats.skew(x)`. -/
noncomputable def skew (xs : List ℝ) : ℝ := moment 3 xs / moment 2 xs ^ (3 / 2 : ℝ)

/-- `scipy_stats.kurtosis(x, fisher=False)`. -/
noncomputable def kurt (xs : List ℝ) : ℝ := moment 4 xs / moment 2 xs ^ 2

/-- `np.median` of a sorted list, and 1316-1319, 1324-1327, 1945-1948. -/
noncomputable def median (sorted : List ℝ) : ℝ :=
  if sorted.length % 2 = 0 then
    (at_ sorted (sorted.length / 2) + at_ sorted (sorted.length / 2 - 1)) / 2
  else at_ sorted (sorted.length / 2)

/-- `np.dot(c, x)`. -/
noncomputable def dot (c : ℕ → ℝ) (xs : List ℝ) : ℝ := (xs.mapIdx fun i x => c i * x).sum

/-- `np.polyval`. -/
noncomputable def polyval (p : List ℝ) (u : ℝ) : ℝ := p.foldl (fun acc c => acc * u + c) 0

/-- `scipy_stats.pearsonr(x, y)[0]`, for at least two points. -/
noncomputable def pearsonr (z xs : List ℝ) : Except PyErr ℝ :=
  if xs.length < 2 then .error .valueError
  else .ok ((List.zipWith (fun a b => (a - mean z) * (b - mean xs)) z xs).sum /
    (√(z.map fun a => (a - mean z) ^ 2).sum * √(xs.map fun b => (b - mean xs) ^ 2).sum))

/-- Plotting position `(i - 3/8) / (n + 1/4)`, zero-based: 175, 547-550, 653-654, 1533, 1564, 1781. -/
noncomputable def blom (n i : ℕ) : ℝ := ((i : ℝ) + 1 - 3 / 8) / (n + 1 / 4)

/-! ### Tests based on the empirical distribution function -/

/-- `AndersonDarlingNormalityGofStatistic.execute_statistic`, 130-137. -/
noncomputable def andersonDarling (lib : NormLib) (xs : List ℝ) : ℝ :=
  let w := (sort xs).map fun y => (y - mean xs) / sd1 xs
  ad (w.map lib.logcdf) (w.map lib.logsf)

/-- `LillieforsNormalityGofStatistic.execute_statistic`, 241-245. -/
noncomputable def lilliefors (lib : NormLib) (xs : List ℝ) : Except PyErr ℝ :=
  ks .twoTailed ((sort (standardised xs)).map lib.cdf)

/-! ### Regression tests -/

/-- `ShapiroWilkNormalityGofStatistic.ordered_statistic`, 170-204, for `n ≥ 3` (zero-based). -/
noncomputable def swCoef (lib : NormLib) (n i : ℕ) : ℝ :=
  if n = 3 then (if i = 0 then √(1 / 2) else if i = 1 then 0 else -√(1 / 2))
  else
    let m : ℕ → ℝ := fun k => lib.ppf (blom n k)
    let m2 : ℝ := ∑ k ∈ Finset.range n, m k ^ 2
    let cn := m (n - 1) / √m2
    let cn1 := m (n - 2) / √m2
    let u : ℝ := 1 / √n
    let wn := polyval [-2.706056, 4.434685, -2.071190, -0.147981, 0.221157, cn] u
    if n ≤ 5 then
      let phi := (m2 - 2 * m (n - 1) ^ 2) / (1 - 2 * wn ^ 2)
      if i = 0 then -wn else if i = n - 1 then wn else m i / √phi
    else
      let wn1 := polyval [-3.582633, 5.682633, -1.752461, -0.293762, 0.042981, cn1] u
      let phi := (m2 - 2 * m (n - 1) ^ 2 - 2 * m (n - 2) ^ 2) / (1 - 2 * wn ^ 2 - 2 * wn1 ^ 2)
      if i = 0 then -wn else if i = 1 then -wn1 else if i = n - 2 then wn1
      else if i = n - 1 then wn else m i / √phi

/-- `ShapiroWilkNormalityGofStatistic.execute_statistic`, 157-167.  For fewer than three
observations `ordered_statistic` fails (`m[-2]`, 180) or returns `None` (166). -/
noncomputable def shapiroWilk (lib : NormLib) (xs : List ℝ) : Except PyErr ℝ :=
  if xs.length < 2 then .error .indexError
  else if xs.length = 2 then .error .typeError
  else .ok (dot (swCoef lib xs.length) (sort xs) ^ 2 / (xs.map fun x => (x - mean xs) ^ 2).sum)

/-- `FilliNormalityGofStatistic._uniform_order_medians`, 469-475. -/
noncomputable def filliMedian (n i : ℕ) : ℝ :=
  if i = n - 1 then (1 / 2 : ℝ) ^ (1 / (n : ℝ))
  else if i = 0 then 1 - (1 / 2 : ℝ) ^ (1 / (n : ℝ))
  else ((i : ℝ) + 1 - 0.3175) / (n + 0.365)

/-- `FilliNormalityGofStatistic.execute_statistic`, 461-485; `1 / sample_size` (472) fails for an
empty sample. -/
noncomputable def filli (lib : NormLib) (xs : List ℝ) : Except PyErr ℝ :=
  if xs.length = 0 then .error .zeroDivisionError
  else pearsonr ((List.range xs.length).map fun i : ℕ => lib.ppf (filliMedian xs.length i)) (sort xs)

/-- `LooneyGulledgeNormalityGofStatistic.execute_statistic`, 506-550. -/
noncomputable def looneyGulledge (lib : NormLib) (xs : List ℝ) : Except PyErr ℝ :=
  pearsonr ((List.range xs.length).map fun i : ℕ => lib.ppf (blom xs.length i)) (sort xs)

/-- `cte_alpha` of `RyanJoinerNormalityGofStatistic`, 621-626. -/
inductive RjAlpha where
  | half | zero | other

/-- 621-626. -/
noncomputable def RjAlpha.val : RjAlpha → ℝ
  | .half => 1 / 2
  | .zero => 0
  | .other => 3 / 8

/-- `RyanJoinerNormalityGofStatistic._order_statistic`, 619-628. -/
noncomputable def rjOrder (α : RjAlpha) (n i : ℕ) : ℝ := ((i : ℝ) + 1 - α.val) / (n - 2 * α.val + 1)

/-- `df.groupby(["x_data"])["Ui"].transform("mean")`, 596-603: the mean of `u` over the positions
that hold the same value as position `i`. -/
noncomputable def groupMean (sorted : List ℝ) (u : ℕ → ℝ) (i : ℕ) : ℝ :=
  let g := (Finset.range sorted.length).filter fun j => at_ sorted j = at_ sorted i
  (∑ j ∈ g, u j) / g.card

/-- `RyanJoinerNormalityGofStatistic.execute_statistic`, 577-628. -/
noncomputable def ryanJoiner (lib : NormLib) (weighted : Bool) (α : RjAlpha) (xs : List ℝ) :
    Except PyErr ℝ :=
  let x := sort xs
  let u := rjOrder α xs.length
  pearsonr ((List.range xs.length).map fun i : ℕ =>
    lib.ppf (if weighted then groupMean x u i else u i)) x

/-- `SFNormalityGofStatistic.execute_statistic`, 648-658. -/
noncomputable def shapiroFrancia (lib : NormLib) (xs : List ℝ) : ℝ :=
  let e : ℕ → ℝ := fun i => -lib.ppf (blom xs.length i)
  let x := sort xs
  dot e x ^ 2 / ((x.map fun v => (v - mean x) ^ 2).sum * ∑ i ∈ Finset.range xs.length, e i ^ 2)

/-- `ChenShapiroNormalityGofStatistic.stat26`, 1526-1536. -/
noncomputable def chenShapiro (lib : NormLib) (xs : List ℝ) : ℝ :=
  let n : ℝ := xs.length
  let m : ℕ → ℝ := fun i => lib.ppf (blom xs.length i)
  let d := ((npDiff (sort xs)).mapIdx fun i d => d / (m (i + 1) - m i)).sum / ((n - 1) * √(var1 xs))
  √n * (1 - d)

/-- `a` of `ZhangQNormalityGofStatistic` and `ZhangQStarNormalityGofStatistic`, 1569-1572 and
1783-1785. -/
noncomputable def zqA (u : ℕ → ℝ) (n i : ℕ) : ℝ :=
  if i = 0 then -∑ k ∈ Finset.range (n - 1), 1 / (((n : ℝ) - 1) * (u (k + 1) - u 0))
  else 1 / (((n : ℝ) - 1) * (u i - u 0))

/-- `b` of the same, 1573-1582 and 1787-1797, for `n ≥ 8`. -/
noncomputable def zqB (u : ℕ → ℝ) (n i : ℕ) : ℝ :=
  if i < 4 then 1 / (((n : ℝ) - 4) * (u i - u (i + 4)))
  else if n ≤ i + 4 then -(1 / (((n : ℝ) - 4) * (u (n - 1 - i) - u (n - 1 - i + 4))))
  else (1 / (u i - u (i + 4)) - 1 / (u (i - 4) - u i)) / ((n : ℝ) - 4)

/-- `ZhangQNormalityGofStatistic.stat27`, 1560-1586; `u[7]` fails for fewer than eight
observations. -/
noncomputable def zhangQ (lib : NormLib) (xs : List ℝ) : Except PyErr ℝ :=
  let u : ℕ → ℝ := fun i => lib.ppf (blom xs.length i)
  if xs.length < 8 then .error .indexError
  else .ok (Real.log (dot (zqA u xs.length) (sort xs) / dot (zqB u xs.length) (sort xs)))

/-- `ZhangQStarNormalityGofStatistic.execute_statistic`, 1775-1803. -/
noncomputable def zhangQStar (lib : NormLib) (xs : List ℝ) : Except PyErr ℝ :=
  let u : ℕ → ℝ := fun i => lib.ppf (blom xs.length i)
  if xs.length < 8 then .error .indexError
  else .ok (Real.log (-dot (zqA u xs.length) (sort xs).reverse /
    -dot (zqB u xs.length) (sort xs).reverse))

/-- `ai_star` of `SWRGNormalityGofStatistic`, 1877-1883. -/
noncomputable def swrgStar (lib : NormLib) (n i : ℕ) : ℝ :=
  let mi : ℕ → ℝ := fun i => lib.ppf (((i : ℝ) + 1) / (n + 1))
  let g : ℕ → ℝ := fun i => mi i * lib.pdf (mi i)
  let aux4 := (if i = 0 then 0 else g (i - 1)) - 2 * g i + (if i = n - 1 then 0 else g (i + 1))
  let c : ℝ := -(((n : ℝ) + 1) * (n + 2))
  c * lib.pdf (mi i) * aux4

/-- `SWRGNormalityGofStatistic.execute_statistic`, 1872-1892. -/
noncomputable def swrg (lib : NormLib) (xs : List ℝ) : ℝ :=
  let a := swrgStar lib xs.length
  let norm2 := ∑ i ∈ Finset.range xs.length, a i ^ 2
  let x := sort xs
  dot (fun i => a i / √norm2) x ^ 2 / (x.map fun v => (v - mean x) ^ 2).sum

/-- `CoinNormalityGofStatistic.correct`, 1663-1681 (one-based `i`). -/
noncomputable def coinCorrect (i n : ℕ) : ℝ :=
  if i * n = 4 then 1.9e-5
  else if i < 1 ∨ i > 7 then 0
  else if i ≠ 4 ∧ n > 20 then 0
  else if i = 4 ∧ n > 40 then 0
  else
    let an : ℝ := 1 / (n * n)
    let c1 := at_ [9.5, 28.7, 1.9, 0.0, -7.0, -6.2, -1.6] (i - 1)
    let c2 := at_ [-6195.0, -9569.0, -6728.0, -17614.0, -8278.0, -3570.0, 1075.0] (i - 1)
    let c3 := at_ [93380.0, 175160.0, 410400.0, 2157600.0, 2.376e6, 2.065e6, 2.065e6] (i - 1)
    (c1 + an * (c2 + an * c3)) * 1e-6

/-- `CoinNormalityGofStatistic.nscor2`, 1683-1725, entry `i` (zero-based) for `n > 3` observations
and `n / 2` entries. -/
noncomputable def nscor2 (lib : NormLib) (n i : ℕ) : ℝ :=
  let k := min 3 (n / 2)
  let j := if i < k then i else 3
  let eps := at_ [0.419885, 0.450536, 0.456936, 0.468488] j
  let dl1 := at_ [0.112063, 0.12177, 0.239299, 0.215159] j
  let dl2 := at_ [0.080122, 0.111348, -0.211867, -0.115049] j
  let gam := at_ [0.474798, 0.469051, 0.208597, 0.259784] j
  let lam := at_ [0.282765, 0.304856, 0.407708, 0.414093] j
  let ai : ℝ := (i : ℝ) + 1
  let e1 := (ai - eps) / (n + gam)
  let e2 := if i < k then e1 ^ lam else e1 ^ (lam + -0.283833 / (ai + -0.106136))
  let m := lib.ppf (e1 + e2 * (dl1 + e2 * dl2) / n - coinCorrect (i + 1) n)
  0 - m

/-- `a` of `CoinNormalityGofStatistic`, 1640-1650. -/
noncomputable def coinA (lib : NormLib) (n i : ℕ) : ℝ :=
  if i < n / 2 then -nscor2 lib n i
  else if n % 2 = 1 ∧ i = n / 2 then 0
  else nscor2 lib n (n - i - 1)

/-- `CoinNormalityGofStatistic.stat30`, 1609-1660. -/
noncomputable def coin (lib : NormLib) (xs : List ℝ) : ℝ :=
  let z := sort (xs.map fun x => (x - mean xs) / √(var1' xs))
  let a := coinA lib xs.length
  let s : ℕ → ℝ := fun k => ∑ i ∈ Finset.range xs.length, a i ^ k
  let t2 := dot a z
  let t4 := dot (fun i => a i ^ 3) z
  ((s 4 * t2 - s 2 * t4) / (s 4 * s 4 - s 2 * s 6)) ^ 2

/-- `DagostinoNormalityGofStatistic.execute_statistic`, 1745-1755. -/
noncomputable def dagostino (xs : List ℝ) : ℝ :=
  let n : ℝ := xs.length
  let x := sort xs
  let v := (x.map (· ^ 2)).sum / n - mean x ^ 2
  let t := dot (fun i => (i : ℝ) + 1 - 0.5 * (n + 1)) x
  let d := t / (n ^ 2 * √v)
  √n * (d - 0.28209479) / 0.02998598

/-! ### Moment tests -/

/-- `JBNormalityGofStatistic.execute_statistic`, 290-304; the moments are those of the centred
sample. -/
noncomputable def jarqueBera (xs : List ℝ) : Except PyErr ℝ :=
  if xs.length = 0 then .error .valueError
  else
    let d := xs.map fun x => x - mean xs
    .ok ((xs.length : ℝ) / 6 * (skew d ^ 2 + (kurt d - 3) ^ 2 / 4))

/-- `SkewNormalityGofStatistic.skew_test`, 331-352, as a function of the skewness. -/
noncomputable def skewZ (n : ℝ) (b2 : ℝ) : ℝ :=
  let y := b2 * √(((n + 1) * (n + 3)) / (6 * (n - 2)))
  let beta2 := 3 * (n ^ 2 + 27 * n - 70) * (n + 1) * (n + 3) / ((n - 2) * (n + 5) * (n + 7) * (n + 9))
  let w2 := -1 + √(2 * (beta2 - 1))
  let delta := 1 / √(0.5 * Real.log w2)
  let alpha := √(2 / (w2 - 1))
  let y := if y = 0 then 1 else y
  delta * Real.log (y / alpha + √((y / alpha) ^ 2 + 1))

/-- `SkewNormalityGofStatistic.execute_statistic`, 324-352. -/
noncomputable def skewTest (xs : List ℝ) : Except PyErr ℝ :=
  if xs.length < 8 then .error .valueError else .ok (skewZ xs.length (skew (sort xs)))

/-- `KurtosisNormalityGofStatistic.kurtosis_test`, 379-417, as a function of the kurtosis. -/
noncomputable def kurtosisZ (n : ℝ) (b2 : ℝ) : ℝ :=
  let e := 3 * (n - 1) / (n + 1)
  let varB2 := 24 * n * (n - 2) * (n - 3) / ((n + 1) * (n + 1) * (n + 3) * (n + 5))
  let x := (b2 - e) / √varB2
  let sb1 := 6 * (n * n - 5 * n + 2) / ((n + 7) * (n + 9)) *
    √((6 * (n + 3) * (n + 5)) / (n * (n - 2) * (n - 3)))
  let a := 6 + 8 / sb1 * (2 / sb1 + √(1 + 4 / sb1 ^ 2))
  let term1 := 1 - 2 / (9 * a)
  let denom := 1 + x * √(2 / (a - 4))
  let term2 := Real.sign denom * ((1 - 2 / a) / |denom|) ^ (1 / 3 : ℝ)
  (term1 - term2) / √(2 / (9 * a))

/-- `KurtosisNormalityGofStatistic.execute_statistic`, 372-417. -/
noncomputable def kurtosisTest (xs : List ℝ) : Except PyErr ℝ :=
  if xs.length < 5 then .error .valueError else .ok (kurtosisZ xs.length (kurt (sort xs)))

/-- `DAPNormalityGofStatistic.execute_statistic`, 433-440. -/
noncomputable def dap (xs : List ℝ) : Except PyErr ℝ := do
  let s ← skewTest xs
  let k ← kurtosisTest xs
  return s * s + k * k

/-- `DoornikHansenNormalityGofStatistic.skewness_to_z1`, 1101-1108. -/
noncomputable def dhZ1 (s n : ℝ) : ℝ :=
  let b := 3 * (n ^ 2 + 27 * n - 70) * (n + 1) * (n + 3) / ((n - 2) * (n + 5) * (n + 7) * (n + 9))
  let w2 := -1 + √(2 * (b - 1))
  let d := 1 / √(Real.log (√w2))
  let y := s * √((n + 1) * (n + 3) / (6 * (n - 2)))
  let a := √(2 / (w2 - 1))
  d * Real.log (y / a + √((y / a) ^ 2 + 1))

/-- `DoornikHansenNormalityGofStatistic.kurtosis_to_z2`, 1111-1126. -/
noncomputable def dhZ2 (s k n : ℝ) : ℝ :=
  let p1 := n ^ 2 + 15 * n - 4
  let p2 := n ^ 2 + 27 * n - 70
  let p3 := n ^ 2 + 2 * n - 5
  let p4 := n ^ 3 + 37 * n ^ 2 + 11 * n - 313
  let d := (n - 3) * (n + 1) * p1
  let a := (n - 2) * (n + 5) * (n + 7) * p2 / (6 * d)
  let c := (n - 7) * (n + 5) * (n + 7) * p3 / (6 * d)
  let kk := (n + 5) * (n + 7) * p4 / (12 * d)
  let alpha := a + s ^ 2 * c
  let q := 2 * (k - 1 - s ^ 2) * kk
  ((0.5 * q / alpha) ^ (1 / 3 : ℝ) - 1 + 1 / (9 * alpha)) * √(9 * alpha)

/-- `DoornikHansenNormalityGofStatistic.doornik_hansen`, 1085-1098. -/
noncomputable def doornikHansen (xs : List ℝ) : ℝ :=
  let b1 := moment 3 xs / moment 2 xs ^ (1.5 : ℝ)
  let b2 := moment 4 xs / moment 2 xs ^ 2
  dhZ1 b1 xs.length ^ 2 + dhZ2 b1 b2 xs.length ^ 2

/-- `RobustJarqueBeraNormalityGofStatistic.execute_statistic`, 1146-1155. -/
noncomputable def robustJarqueBera (xs : List ℝ) : ℝ :=
  let n : ℝ := xs.length
  let y := sort xs
  let m := median y
  let j := √(Real.pi / 2) / n * (xs.map fun x => |x - m|).sum
  n / 6 * (moment 3 y / j ^ 3) ^ 2 + n / 64 * (moment 4 y / j ^ 4 - 3) ^ 2

/-- Third to eighth Hermite polynomials, 1198-1199, 1236-1239, 1366-1379, 1447-1472. -/
def he3 (z : ℝ) : ℝ := z ^ 3 - 3 * z
/-- 1199. -/
def he4 (z : ℝ) : ℝ := z ^ 4 - 6 * z ^ 2 + 3
/-- 1238. -/
def he5 (z : ℝ) : ℝ := z ^ 5 - 10 * z ^ 3 + 15 * z
/-- 1239. -/
def he6 (z : ℝ) : ℝ := z ^ 6 - 15 * z ^ 4 + 45 * z ^ 2 - 15
/-- 1374. -/
def he7 (z : ℝ) : ℝ := z ^ 7 - 21 * z ^ 5 + 105 * z ^ 3 - 105 * z
/-- 1378. -/
def he8 (z : ℝ) : ℝ := z ^ 8 - 28 * z ^ 6 + 210 * z ^ 4 - 420 * z ^ 2 + 105

/-- `BontempsMeddahi1NormalityGofStatistic.execute_statistic`, 1175-1202. -/
noncomputable def bontempsMeddahi1 (xs : List ℝ) : ℝ :=
  let z := xs.map fun x => (x - mean xs) / √(var1' xs)
  ((z.map fun v => he3 v / √6).sum ^ 2 + (z.map fun v => he4 v / (2 * √6)).sum ^ 2) / xs.length

/-- `BontempsMeddahi2NormalityGofStatistic.stat15`, 1226-1241. -/
noncomputable def bontempsMeddahi2 (xs : List ℝ) : ℝ :=
  let z := standardised xs
  ((z.map fun v => he3 v / √6).sum ^ 2 + (z.map fun v => he4 v / (2 * √6)).sum ^ 2 +
    (z.map fun v => he5 v / (2 * √30)).sum ^ 2 + (z.map fun v => he6 v / (12 * √5)).sum ^ 2) /
    xs.length

/-- `CabanaCabana1NormalityGofStatistic.stat19`, 1361-1393, as a function of the standardised
sample. -/
noncomputable def cc1 (lib : NormLib) (z : List ℝ) : Except PyErr ℝ :=
  let rn : ℝ := √(z.length : ℝ)
  let h3 := (z.map he3).sum / (√6 * rn)
  let h4 := (z.map he4).sum / (2 * √6 * rn)
  let h5 := (z.map he5).sum / (2 * √30 * rn)
  let h6 := (z.map he6).sum / (12 * √5 * rn)
  let h7 := (z.map he7).sum / (12 * √35 * rn)
  let h8 := (z.map he8).sum / (24 * √70 * rn)
  npMax (z.map fun v => |lib.cdf v * h3 - lib.pdf v * (h4 + h5 * v / √2 + h6 * (v ^ 2 - 1) / √6 +
    h7 * (v ^ 3 - 3 * v) / (2 * √6) + h8 * (v ^ 4 - 6 * v ^ 2 + 3) / (2 * √30))|)

/-- `CabanaCabana2NormalityGofStatistic.stat20`, 1417-1502, as a function of the standardised
sample. -/
noncomputable def cc2 (lib : NormLib) (z : List ℝ) : Except PyErr ℝ :=
  let rn : ℝ := √(z.length : ℝ)
  let H2 : ℝ → ℝ := fun v => (v ^ 2 - 1) / √2
  let H3 : ℝ → ℝ := fun v => he3 v / √6
  let H4 : ℝ → ℝ := fun v => he4 v / (2 * √6)
  let H5 : ℝ → ℝ := fun v => he5 v / (2 * √30)
  let t3 := (z.map H3).sum / rn
  let t4 := (z.map H4).sum / rn
  let t5 := (z.map H5).sum / rn
  let t6 := (z.map fun v => he6 v / (12 * √5)).sum / rn
  let t7 := (z.map fun v => he7 v / (12 * √35)).sum / rn
  let t8 := (z.map fun v => he8 v / (24 * √70)).sum / rn
  let aux : ℝ → ℝ := fun v => (√2 * 1 + H2 v) * t5 + (√(3 / 2) * v + H3 v) * t6 +
    (√(4 / 3) * H2 v + H4 v) * t7 + (√(5 / 4) * H3 v + H5 v) * t8 + (√(5 / 4) * H3 v + H5 v) * t8
  npMax (z.map fun v => |-lib.pdf v * t3 + (lib.cdf v - v * lib.pdf v) * t4 - lib.pdf v * aux v|)

/-- The standardisation of `CabanaCabana2NormalityGofStatistic`, 1423-1425. -/
noncomputable def cc2Standardised (xs : List ℝ) : List ℝ :=
  let sd := √(xs.length * variance xs / ((xs.length : ℝ) - 1))
  xs.map fun x => (x - mean xs) / sd

/-- `BonettSeierNormalityGofStatistic.stat17`, 1265-1286. -/
noncomputable def bonettSeier (xs : List ℝ) : ℝ :=
  let n : ℝ := xs.length
  let m2 := (xs.map fun x => (x - mean xs) ^ 2).sum / n
  let term := (xs.map fun x => |x - mean xs|).sum / n
  let omega := 13.29 * (Real.log (√m2) - Real.log term)
  √(n + 2) * (omega - 3) / 3.54

/-- `MartinezIglewiczNormalityGofStatistic.stat32`, 1310-1337. -/
noncomputable def martinezIglewicz (xs : List ℝ) : ℝ :=
  let n : ℝ := xs.length
  let m := median (sort xs)
  let aux := xs.map fun x => x - m
  let a := 9 * median (sort (aux.map fun v => |v|))
  let term1 := (aux.map fun v => v ^ 2 * (1 - (v / a) ^ 2) ^ 4).sum
  let term2 := (aux.map fun v => (1 - (v / a) ^ 2) * (1 - 5 * (v / a) ^ 2)).sum
  let term3 := (aux.map fun v => v ^ 2).sum
  let sb2 := n * term1 / term2 ^ 2
  term3 / (n - 1) / sb2

/-- `GMGNormalityGofStatistic.stat33`, 1916-1957. -/
noncomputable def gmg (xs : List ℝ) : ℝ :=
  let n : ℝ := xs.length
  let sd := √((xs.map fun x => (x - mean xs) ^ 2).sum / n)
  let m := median (sort xs)
  sd / (√(Real.pi / 2) * (xs.map fun x => |x - m|).sum / n)

/-- `SpiegelhalterNormalityGofStatistic.stat41`, 2330-2364. -/
noncomputable def spiegelhalter (xs : List ℝ) : Except PyErr ℝ := do
  let n : ℝ := xs.length
  let mx ← npMax xs
  let mn ← pyMin xs
  let sd := √(var1 xs)
  let u := (mx - mn) / sd
  let g := (xs.map fun x => |x - mean xs|).sum / (sd * √n * √(n - 1))
  let cn := if xs.length < 150 then 0.5 * Real.Gamma (n + 1) ^ (1 / (n - 1)) / n
    else (2 * Real.pi) ^ (1 / (2 * (n - 1))) * ((n * √n) / Real.exp 1) ^ (1 / (n - 1)) /
      (2 * Real.exp 1)
  return ((cn * u) ^ (-(n - 1)) + g ^ (-(n - 1))) ^ (1 / (n - 1))

/-- `DesgagneLafayeNormalityGofStatistic.stat35`, 2388-2423. -/
noncomputable def desgagneLafaye (xs : List ℝ) : ℝ :=
  let n : ℝ := xs.length
  let v := (xs.map (· ^ 2)).sum / n - mean xs ^ 2
  let y := xs.map fun x => (x - mean xs) / √v
  let r1 := 0.18240929 - 0.5 * (y.map fun t => t ^ 2 * Real.log |t|).sum / n
  let r2 := 0.5348223 - (y.map fun t => Real.log (1 + |t|)).sum / n
  let r3 := 0.20981558 - (y.map fun t => Real.log (Real.log (2.71828182846 + |t|))).sum / n
  n * ((r1 * 1259.04213344 - r2 * 32040.69569026 + r3 * 85065.77739473) * r1 +
    (-r1 * 32040.6956903 + r2 * 918649.9005906 - r3 * 2425883.3443201) * r2 +
    (r1 * 85065.7773947 - r2 * 2425883.3443201 + r3 * 6407749.8211208) * r3)

/-! ### Other tests -/

/-- `EppsPulleyNormalityGofStatistic.execute_statistic`, 679-691. -/
noncomputable def eppsPulley (xs : List ℝ) : ℝ :=
  let n : ℝ := xs.length
  let x := sort xs
  let m2 := variance x
  let a := √2 * (x.map fun v => Real.exp (-(v - mean x) ^ 2 / (4 * m2))).sum
  let b := ∑ k ∈ Finset.range xs.length, ∑ j ∈ Finset.range k,
    Real.exp (-(at_ x j - at_ x k) ^ 2 / (2 * m2))
  1 + n / √3 + 2 / n * b - a

/-- `mu` and the two `v` of the Hosking statistics by sample size: 801-812, 730-741, 857-868,
925-936. -/
noncomputable def hoskingConst (t n : ℕ) : ℝ × ℝ × ℝ :=
  match t with
  | 0 => if n ≤ 25 then (0.12383, 0.0088038, 0.0049295)
    else if n ≤ 50 then (0.12321, 0.0040493, 0.0020802) else (0.12291, 0.0019434, 0.00095785)
  | 1 => if n ≤ 25 then (0.067077, 0.0081391, 0.0042752)
    else if n ≤ 50 then (0.064456, 0.0034657, 0.0015699) else (0.063424, 0.0016064, 0.00068100)
  | 2 => if n ≤ 25 then (0.044174, 0.0086570, 0.0042066)
    else if n ≤ 50 then (0.040389, 0.0033818, 0.0013301) else (0.039030, 0.0015120, 0.00054207)
  | _ => if n ≤ 25 then (0.033180, 0.0095765, 0.0044609)
    else if n ≤ 50 then (0.028224, 0.0033813, 0.0011823) else (0.026645, 0.0014547, 0.00045107)

/-- 742, 814, 870, 938. -/
noncomputable def hoskingStat (t n : ℕ) (l2 l3 l4 : ℝ) : ℝ :=
  let c := hoskingConst t n
  (l3 / l2) ^ 2 / c.2.1 + (l4 / l2 - c.1) ^ 2 / c.2.2

/-- `Hosking1NormalityGofStatistic.stat10`, 778-815 (the split of the sums at index 3 is dropped;
for four observations or more it changes nothing). -/
noncomputable def hosking1 (xs : List ℝ) : ℝ :=
  let n : ℝ := xs.length
  let x := sort xs
  let b0 := x.sum / n
  let b1 := dot (fun i => (i : ℝ)) x / (n * (n - 1))
  let b2 := dot (fun i => (i : ℝ) * (i - 1)) x / (n * (n - 1) * (n - 2))
  let b3 := dot (fun i => (i : ℝ) * (i - 1) * (i - 2)) x / (n * (n - 1) * (n - 2) * (n - 3))
  hoskingStat 0 xs.length (2 * b1 - b0) (6 * b2 - 6 * b1 + b0)
    (20 * b3 - 30 * b2 + 12 * b1 - b0)

/-- `pstarmod1`, `pstarmod2`, `pstarmod3` (trimming `t = 1, 2, 3`), 747-754, 874-883, 942-951. -/
noncomputable def pstarmod (t r n i : ℕ) : ℝ :=
  ∑ k ∈ Finset.range r, (-1 : ℝ) ^ k * (r - 1).choose k * (i - 1).choose (r + t - 1 - k) *
    (n - i).choose (t + k)

/-- The trimmed L-moments: `l21, l31, l41`, 721-727; 847-853; 915-921.  The loop `range(2, n)` uses
the values at positions `1, ..., n - 2`. -/
noncomputable def trimmedMoment (t r : ℕ) (xs : List ℝ) : ℝ :=
  (∑ i ∈ Finset.Ico 2 xs.length, at_ (sort xs) (i - 1) * pstarmod t r xs.length i) /
    (r * (xs.length.choose (r + 2 * t) : ℝ))

/-- `Hosking2NormalityGofStatistic` (`t = 1`), `Hosking3NormalityGofStatistic` (`t = 2`),
`Hosking4NormalityGofStatistic` (`t = 3`): 711-744, 838-871, 906-939. -/
noncomputable def hoskingTrimmed (t : ℕ) (xs : List ℝ) : ℝ :=
  hoskingStat t xs.length (trimmedMoment t 2 xs) (trimmedMoment t 3 xs) (trimmedMoment t 4 xs)

/-- `phiz`, 975-981, 1009-1015, 1047-1053. -/
noncomputable def phiz (lib : NormLib) (xs : List ℝ) : List ℝ :=
  sort ((standardised xs).map lib.cdf)

/-- `ZhangWuCNormalityGofStatistic.execute_statistic`, 971-985. -/
noncomputable def zhangWuC (lib : NormLib) (xs : List ℝ) : ℝ :=
  let n : ℝ := xs.length
  ((phiz lib xs).mapIdx fun i p =>
    Real.log ((1 / p - 1) / ((n - 0.5) / ((i : ℝ) + 1 - 0.75) - 1)) ^ 2).sum

/-- `ZhangWuANormalityGofStatistic.execute_statistic`, 1005-1023. -/
noncomputable def zhangWuA (lib : NormLib) (xs : List ℝ) : ℝ :=
  let n : ℝ := xs.length
  10 * -((phiz lib xs).mapIdx fun i p =>
    Real.log p / (n - ((i : ℝ) + 1) + 0.5) + Real.log (1 - p) / ((i : ℝ) + 1 - 0.5)).sum - 32

/-- `GlenLeemisBarrNormalityGofStatistic.execute_statistic`, 1043-1062. -/
noncomputable def glenLeemisBarr (lib : NormLib) (xs : List ℝ) : ℝ :=
  let n : ℝ := xs.length
  let p := sort ((phiz lib xs).mapIdx fun i p => lib.betaCdf p (i + 1) (xs.length - (i + 1) + 1))
  let t := (p.mapIdx fun i p => (2 * n + 1 - 2 * ((i : ℝ) + 1)) * Real.log p +
    (2 * ((i : ℝ) + 1) - 1) * Real.log (1 - p)).sum
  0 - n - t / n

/-! ### The classes -/

/-- The classes of `normal.py` without the graph statistics and Brys-Hubert-Struyf. -/
inductive NormStat where
  | ks (t : AlternativeType) | andersonDarling | shapiroWilk | cvm | lilliefors | jarqueBera
  | skew | kurtosis | dap | filli | looneyGulledge | ryanJoiner (weighted : Bool) (α : RjAlpha)
  | shapiroFrancia | eppsPulley | hosking1 | hosking2 | hosking3 | hosking4 | zhangWuC | zhangWuA
  | glenLeemisBarr | doornikHansen | robustJarqueBera | bontempsMeddahi1 | bontempsMeddahi2
  | bonettSeier | martinezIglewicz | cabanaCabana1 | cabanaCabana2 | chenShapiro | zhangQ | coin
  | dagostino | zhangQStar | swrg | gmg | spiegelhalter | desgagneLafaye

/-- `if n > 3:` around the whole body; otherwise the method returns `None`. -/
noncomputable def guarded (xs : List ℝ) (v : Except PyErr ℝ) : Except PyErr (Option ℝ) :=
  if 3 < xs.length then v.map some else .ok none

/-- `execute_statistic` of each class. -/
noncomputable def NormStat.value (lib : NormLib) (s : NormStat) (xs : List ℝ) :
    Except PyErr (Option ℝ) :=
  match s with
  | .ks t => (ksOf t lib.cdf xs).map some
  | .andersonDarling => .ok (some (Normal.andersonDarling lib xs))
  | .shapiroWilk => (Normal.shapiroWilk lib xs).map some
  | .cvm => .ok (some (cvmOf lib.cdf xs))
  | .lilliefors => (Normal.lilliefors lib xs).map some
  | .jarqueBera => (Normal.jarqueBera xs).map some
  | .skew => (skewTest xs).map some
  | .kurtosis => (kurtosisTest xs).map some
  | .dap => (Normal.dap xs).map some
  | .filli => (Normal.filli lib xs).map some
  | .looneyGulledge => (Normal.looneyGulledge lib xs).map some
  | .ryanJoiner w α => (Normal.ryanJoiner lib w α xs).map some
  | .shapiroFrancia => .ok (some (Normal.shapiroFrancia lib xs))
  | .eppsPulley => .ok (some (Normal.eppsPulley xs))
  | .hosking1 => guarded xs (.ok (Normal.hosking1 xs))
  | .hosking2 => .ok (some (if 3 < xs.length then hoskingTrimmed 1 xs else 0))
  | .hosking3 => guarded xs (.ok (hoskingTrimmed 2 xs))
  | .hosking4 => guarded xs (.ok (hoskingTrimmed 3 xs))
  | .zhangWuC => guarded xs (.ok (Normal.zhangWuC lib xs))
  | .zhangWuA => guarded xs (.ok (Normal.zhangWuA lib xs))
  | .glenLeemisBarr => guarded xs (.ok (Normal.glenLeemisBarr lib xs))
  | .doornikHansen => .ok (some (Normal.doornikHansen xs))
  | .robustJarqueBera => .ok (some (Normal.robustJarqueBera xs))
  | .bontempsMeddahi1 => guarded xs (.ok (Normal.bontempsMeddahi1 xs))
  | .bontempsMeddahi2 => guarded xs (.ok (Normal.bontempsMeddahi2 xs))
  | .bonettSeier => guarded xs (.ok (Normal.bonettSeier xs))
  | .martinezIglewicz => guarded xs (.ok (Normal.martinezIglewicz xs))
  | .cabanaCabana1 => guarded xs (cc1 lib (standardised xs))
  | .cabanaCabana2 => guarded xs (cc2 lib (cc2Standardised xs))
  | .chenShapiro => guarded xs (.ok (Normal.chenShapiro lib xs))
  | .zhangQ => guarded xs (Normal.zhangQ lib xs)
  | .coin => guarded xs (.ok (Normal.coin lib xs))
  | .dagostino => guarded xs (.ok (Normal.dagostino xs))
  | .zhangQStar => guarded xs (Normal.zhangQStar lib xs)
  | .swrg => guarded xs (.ok (Normal.swrg lib xs))
  | .gmg => guarded xs (.ok (Normal.gmg xs))
  | .spiegelhalter => guarded xs (Normal.spiegelhalter xs)
  | .desgagneLafaye => guarded xs (.ok (Normal.desgagneLafaye xs))

end Pysatl.Normal
