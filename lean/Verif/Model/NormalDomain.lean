import Verif.Model.Normal

/-!
# Model of the normality statistics with partial arithmetic

`/repo/src/pysatl_criterion/statistics/goodness_of_fit/normal.py`.  `Verif.Model.Normal` gives a
quotient by zero, a logarithm or root of a number outside the domain an arbitrary value.  Here the
classes are modelled with operations that fail outside their domain; `norm.ppf` fails outside the open
unit interval.  Python's own floats raise the exception; numpy's scalars give NaN or an infinity
instead.  Only Kolmogorov-Smirnov and Cramér-von Mises, which divide by the sample size alone, are
taken as they are.
-/

namespace Pysatl.Normal

open Pysatl.Graph Pysatl.Edf Pysatl.Exponent

/-- `a / b`. -/
noncomputable def pdiv (a b : ℝ) : Except PyErr ℝ :=
  if b = 0 then .error .zeroDivisionError else .ok (a / b)

/-- `math.log(a)`, `np.log(a)`. -/
noncomputable def plog (a : ℝ) : Except PyErr ℝ :=
  if a ≤ 0 then .error .valueError else .ok (Real.log a)

/-- `math.sqrt(a)`, `np.sqrt(a)`. -/
noncomputable def psqrt (a : ℝ) : Except PyErr ℝ :=
  if a < 0 then .error .valueError else .ok √a

/-- `a ** p` for a positive fraction `p`; a negative base gives a complex number or NaN. -/
noncomputable def ppow (a p : ℝ) : Except PyErr ℝ :=
  if a < 0 then .error .valueError else .ok (a ^ p)

/-- `scipy_stats.skew(x)`. -/
noncomputable def skewC (xs : List ℝ) : Except PyErr ℝ := do
  let d ← ppow (moment 2 xs) (3 / 2)
  pdiv (moment 3 xs) d

/-- `scipy_stats.kurtosis(x, fisher=False)`. -/
noncomputable def kurtC (xs : List ℝ) : Except PyErr ℝ := pdiv (moment 4 xs) (moment 2 xs ^ 2)

/-- `JBNormalityGofStatistic.execute_statistic`, 290-304. -/
noncomputable def jarqueBeraC (xs : List ℝ) : Except PyErr ℝ :=
  if xs.length = 0 then .error .valueError
  else do
    let d := xs.map fun x => x - mean xs
    let s ← skewC d
    let k ← kurtC d
    return (xs.length : ℝ) / 6 * (s ^ 2 + (k - 3) ^ 2 / 4)

/-- `SkewNormalityGofStatistic.skew_test`, 331-352, as a function of the skewness. -/
noncomputable def skewZC (n : ℝ) (b2 : ℝ) : Except PyErr ℝ := do
  let q ← pdiv ((n + 1) * (n + 3)) (6 * (n - 2))
  let r ← psqrt q
  let y := b2 * r
  let beta2 ← pdiv (3 * (n ^ 2 + 27 * n - 70) * (n + 1) * (n + 3)) ((n - 2) * (n + 5) * (n + 7) * (n + 9))
  let s ← psqrt (2 * (beta2 - 1))
  let w2 := -1 + s
  let l ← plog w2
  let sl ← psqrt (0.5 * l)
  let delta ← pdiv 1 sl
  let t ← pdiv 2 (w2 - 1)
  let alpha ← psqrt t
  let y := if y = 0 then 1 else y
  let ya ← pdiv y alpha
  let u ← psqrt (ya ^ 2 + 1)
  let z ← plog (ya + u)
  return delta * z

/-- `SkewNormalityGofStatistic.execute_statistic`, 324-352. -/
noncomputable def skewTestC (xs : List ℝ) : Except PyErr ℝ :=
  if xs.length < 8 then .error .valueError
  else do
    let b ← skewC (sort xs)
    skewZC xs.length b

/-- `DoornikHansenNormalityGofStatistic.skewness_to_z1`, 1101-1108. -/
noncomputable def dhZ1C (s n : ℝ) : Except PyErr ℝ := do
  let b ← pdiv (3 * (n ^ 2 + 27 * n - 70) * (n + 1) * (n + 3)) ((n - 2) * (n + 5) * (n + 7) * (n + 9))
  let r ← psqrt (2 * (b - 1))
  let w2 := -1 + r
  let w ← psqrt w2
  let l ← plog w
  let sl ← psqrt l
  let d ← pdiv 1 sl
  let q ← pdiv ((n + 1) * (n + 3)) (6 * (n - 2))
  let sq ← psqrt q
  let y := s * sq
  let t ← pdiv 2 (w2 - 1)
  let a ← psqrt t
  let ya ← pdiv y a
  let u ← psqrt (ya ^ 2 + 1)
  let z ← plog (ya + u)
  return d * z

/-- `DoornikHansenNormalityGofStatistic.kurtosis_to_z2`, 1111-1126. -/
noncomputable def dhZ2C (s k n : ℝ) : Except PyErr ℝ := do
  let p1 := n ^ 2 + 15 * n - 4
  let p2 := n ^ 2 + 27 * n - 70
  let p3 := n ^ 2 + 2 * n - 5
  let p4 := n ^ 3 + 37 * n ^ 2 + 11 * n - 313
  let d := (n - 3) * (n + 1) * p1
  let a ← pdiv ((n - 2) * (n + 5) * (n + 7) * p2) (6 * d)
  let c ← pdiv ((n - 7) * (n + 5) * (n + 7) * p3) (6 * d)
  let kk ← pdiv ((n + 5) * (n + 7) * p4) (12 * d)
  let alpha := a + s ^ 2 * c
  let q := 2 * (k - 1 - s ^ 2) * kk
  let b ← pdiv (0.5 * q) alpha
  let z ← ppow b (1 / 3)
  let w ← pdiv 1 (9 * alpha)
  let r ← psqrt (9 * alpha)
  return (z - 1 + w) * r

/-- `DoornikHansenNormalityGofStatistic.doornik_hansen`, 1085-1098. -/
noncomputable def doornikHansenC (xs : List ℝ) : Except PyErr ℝ := do
  let p ← ppow (moment 2 xs) 1.5
  let b1 ← pdiv (moment 3 xs) p
  let b2 ← pdiv (moment 4 xs) (moment 2 xs ^ 2)
  let z1 ← dhZ1C b1 xs.length
  let z2 ← dhZ2C b1 b2 xs.length
  return z1 ^ 2 + z2 ^ 2

/-- `RobustJarqueBeraNormalityGofStatistic.execute_statistic`, 1146-1155. -/
noncomputable def robustJarqueBeraC (xs : List ℝ) : Except PyErr ℝ := do
  let n : ℝ := xs.length
  let y := sort xs
  let m := median y
  let c ← pdiv √(Real.pi / 2) n
  let j := c * (xs.map fun x => |x - m|).sum
  let a ← pdiv (moment 3 y) (j ^ 3)
  let b ← pdiv (moment 4 y) (j ^ 4)
  return n / 6 * a ^ 2 + n / 64 * (b - 3) ^ 2

/-- `BontempsMeddahi1NormalityGofStatistic.execute_statistic`, 1175-1202. -/
noncomputable def bontempsMeddahi1C (xs : List ℝ) : Except PyErr ℝ := do
  let sd ← psqrt (var1' xs)
  let z ← xs.mapM fun x => pdiv (x - mean xs) sd
  return ((z.map fun v => he3 v / √6).sum ^ 2 + (z.map fun v => he4 v / (2 * √6)).sum ^ 2) / xs.length

/-- `BontempsMeddahi2NormalityGofStatistic.stat15`, 1226-1241. -/
noncomputable def bontempsMeddahi2C (xs : List ℝ) : Except PyErr ℝ := do
  let sd ← psqrt (var1 xs)
  let z ← xs.mapM fun x => pdiv (x - mean xs) sd
  return ((z.map fun v => he3 v / √6).sum ^ 2 + (z.map fun v => he4 v / (2 * √6)).sum ^ 2 +
    (z.map fun v => he5 v / (2 * √30)).sum ^ 2 + (z.map fun v => he6 v / (12 * √5)).sum ^ 2) /
    xs.length

/-- `BonettSeierNormalityGofStatistic.stat17`, 1265-1286. -/
noncomputable def bonettSeierC (xs : List ℝ) : Except PyErr ℝ := do
  let n : ℝ := xs.length
  let m2 := (xs.map fun x => (x - mean xs) ^ 2).sum / n
  let term := (xs.map fun x => |x - mean xs|).sum / n
  let s ← psqrt m2
  let l1 ← plog s
  let l2 ← plog term
  let omega := 13.29 * (l1 - l2)
  return √(n + 2) * (omega - 3) / 3.54

/-- `MartinezIglewiczNormalityGofStatistic.stat32`, 1310-1337. -/
noncomputable def martinezIglewiczC (xs : List ℝ) : Except PyErr ℝ := do
  let n : ℝ := xs.length
  let m := median (sort xs)
  let aux := xs.map fun x => x - m
  let a := 9 * median (sort (aux.map fun v => |v|))
  let z ← aux.mapM fun v => pdiv v a
  let term1 := (List.zipWith (fun v z => v ^ 2 * (1 - z ^ 2) ^ 4) aux z).sum
  let term2 := (z.map fun z => (1 - z ^ 2) * (1 - 5 * z ^ 2)).sum
  let term3 := (aux.map fun v => v ^ 2).sum
  let sb2 ← pdiv (n * term1) (term2 ^ 2)
  pdiv (term3 / (n - 1)) sb2

/-- `DagostinoNormalityGofStatistic.execute_statistic`, 1745-1755. -/
noncomputable def dagostinoC (xs : List ℝ) : Except PyErr ℝ := do
  let n : ℝ := xs.length
  let x := sort xs
  let v := (x.map (· ^ 2)).sum / n - mean x ^ 2
  let t := dot (fun i => (i : ℝ) + 1 - 0.5 * (n + 1)) x
  let s ← psqrt v
  let d ← pdiv t (n ^ 2 * s)
  return √n * (d - 0.28209479) / 0.02998598

/-- `GMGNormalityGofStatistic.stat33`, 1916-1957. -/
noncomputable def gmgC (xs : List ℝ) : Except PyErr ℝ := do
  let n : ℝ := xs.length
  let sd ← psqrt ((xs.map fun x => (x - mean xs) ^ 2).sum / n)
  let m := median (sort xs)
  pdiv sd (√(Real.pi / 2) * (xs.map fun x => |x - m|).sum / n)

/-- `DesgagneLafayeNormalityGofStatistic.stat35`, 2388-2423. -/
noncomputable def desgagneLafayeC (xs : List ℝ) : Except PyErr ℝ := do
  let n : ℝ := xs.length
  let sd ← psqrt ((xs.map (· ^ 2)).sum / n - mean xs ^ 2)
  let y ← xs.mapM fun x => pdiv (x - mean xs) sd
  let t1 ← y.mapM fun t => do
    let l ← plog |t|
    return t ^ 2 * l
  let r1 := 0.18240929 - 0.5 * t1.sum / n
  let r2 := 0.5348223 - (y.map fun t => Real.log (1 + |t|)).sum / n
  let r3 := 0.20981558 - (y.map fun t => Real.log (Real.log (2.71828182846 + |t|))).sum / n
  return n * ((r1 * 1259.04213344 - r2 * 32040.69569026 + r3 * 85065.77739473) * r1 +
    (-r1 * 32040.6956903 + r2 * 918649.9005906 - r3 * 2425883.3443201) * r2 +
    (r1 * 85065.7773947 - r2 * 2425883.3443201 + r3 * 6407749.8211208) * r3)

/-- `a ** (-p)`: a base of zero raises, a negative one gives a complex number for a fraction. -/
noncomputable def ppowNeg (a p : ℝ) : Except PyErr ℝ :=
  if a ≤ 0 then .error .zeroDivisionError else .ok (a ^ (-p))

/-- `SpiegelhalterNormalityGofStatistic.stat41`, 2330-2364. -/
noncomputable def spiegelhalterC (xs : List ℝ) : Except PyErr ℝ := do
  let n : ℝ := xs.length
  let mx ← npMax xs
  let mn ← pyMin xs
  let sd ← psqrt (var1 xs)
  let u ← pdiv (mx - mn) sd
  let g ← pdiv ((xs.map fun x => |x - mean xs|).sum) (sd * √n * √(n - 1))
  let cn := if xs.length < 150 then 0.5 * Real.Gamma (n + 1) ^ (1 / (n - 1)) / n
    else (2 * Real.pi) ^ (1 / (2 * (n - 1))) * ((n * √n) / Real.exp 1) ^ (1 / (n - 1)) /
      (2 * Real.exp 1)
  let p ← ppowNeg (cn * u) (n - 1)
  let q ← ppowNeg g (n - 1)
  ppow (p + q) (1 / (n - 1))

/-- `EppsPulleyNormalityGofStatistic.execute_statistic`, 679-691. -/
noncomputable def eppsPulleyC (xs : List ℝ) : Except PyErr ℝ := do
  let n : ℝ := xs.length
  let x := sort xs
  let m2 := variance x
  let ea ← x.mapM fun v => pdiv (-(v - mean x) ^ 2) (4 * m2)
  let a := √2 * (ea.map Real.exp).sum
  let eb ← ((List.range xs.length).flatMap fun k => (List.range k).map fun j => (j, k)).mapM
    fun p => pdiv (-(at_ x p.1 - at_ x p.2) ^ 2) (2 * m2)
  let c ← pdiv 2 n
  return 1 + n / √3 + c * (eb.map Real.exp).sum - a

/-- `tau3`, `tau4` and the statistic: 742, 814, 870, 938. -/
noncomputable def hoskingStatC (t n : ℕ) (l2 l3 l4 : ℝ) : Except PyErr ℝ := do
  let c := hoskingConst t n
  let t3 ← pdiv l3 l2
  let t4 ← pdiv l4 l2
  return t3 ^ 2 / c.2.1 + (t4 - c.1) ^ 2 / c.2.2

/-- `Hosking1NormalityGofStatistic.stat10`, 778-815. -/
noncomputable def hosking1C (xs : List ℝ) : Except PyErr ℝ :=
  let n : ℝ := xs.length
  let x := sort xs
  let b0 := x.sum / n
  let b1 := dot (fun i => (i : ℝ)) x / (n * (n - 1))
  let b2 := dot (fun i => (i : ℝ) * (i - 1)) x / (n * (n - 1) * (n - 2))
  let b3 := dot (fun i => (i : ℝ) * (i - 1) * (i - 2)) x / (n * (n - 1) * (n - 2) * (n - 3))
  hoskingStatC 0 xs.length (2 * b1 - b0) (6 * b2 - 6 * b1 + b0) (20 * b3 - 30 * b2 + 12 * b1 - b0)

/-- The trimmed L-moments: 721-727; 847-853; 915-921. -/
noncomputable def trimmedMomentC (t r : ℕ) (xs : List ℝ) : Except PyErr ℝ :=
  pdiv (∑ i ∈ Finset.Ico 2 xs.length, at_ (sort xs) (i - 1) * pstarmod t r xs.length i)
    (r * (xs.length.choose (r + 2 * t) : ℝ))

/-- `Hosking2NormalityGofStatistic` (`t = 1`), `Hosking3NormalityGofStatistic` (`t = 2`),
`Hosking4NormalityGofStatistic` (`t = 3`): 711-744, 838-871, 906-939. -/
noncomputable def hoskingTrimmedC (t : ℕ) (xs : List ℝ) : Except PyErr ℝ := do
  let l2 ← trimmedMomentC t 2 xs
  let l3 ← trimmedMomentC t 3 xs
  let l4 ← trimmedMomentC t 4 xs
  hoskingStatC t xs.length l2 l3 l4

/-! ### Classes that use the distribution functions of `scipy.stats` -/

/-- `scipy_stats.norm.ppf(p)`: infinite or NaN outside the open unit interval. -/
noncomputable def pppf (lib : NormLib) (p : ℝ) : Except PyErr ℝ :=
  if 0 < p ∧ p < 1 then .ok (lib.ppf p) else .error .valueError

/-- `norm.ppf` of an array of `n` numbers. -/
noncomputable def scoresC (lib : NormLib) (n : ℕ) (p : ℕ → ℝ) : Except PyErr (List ℝ) :=
  (List.range n).mapM fun i => pppf lib (p i)

/-- `(x - np.mean(x)) / np.std(x, ddof=1)`. -/
noncomputable def standardisedC (xs : List ℝ) : Except PyErr (List ℝ) := do
  let v ← pdiv (xs.map fun x => (x - mean xs) ^ 2).sum ((xs.length : ℝ) - 1)
  let sd ← psqrt v
  xs.mapM fun x => pdiv (x - mean xs) sd

/-- `AndersonDarlingNormalityGofStatistic.execute_statistic`, 130-137. -/
noncomputable def andersonDarlingC (lib : NormLib) (xs : List ℝ) : Except PyErr ℝ := do
  let v ← pdiv (xs.map fun x => (x - mean xs) ^ 2).sum ((xs.length : ℝ) - 1)
  let sd ← psqrt v
  let w ← (sort xs).mapM fun y => pdiv (y - mean xs) sd
  return ad (w.map lib.logcdf) (w.map lib.logsf)

/-- `LillieforsNormalityGofStatistic.execute_statistic`, 241-245. -/
noncomputable def lillieforsC (lib : NormLib) (xs : List ℝ) : Except PyErr ℝ := do
  let z ← standardisedC xs
  ks .twoTailed ((sort z).map lib.cdf)

/-- `ShapiroWilkNormalityGofStatistic.ordered_statistic`, 170-204. -/
noncomputable def swWeightsC (lib : NormLib) (n : ℕ) : Except PyErr (List ℝ) :=
  if n = 3 then return [√(1 / 2), 0, -√(1 / 2)]
  else do
    let ms ← scoresC lib n (blom n)
    let m := at_ ms
    let m2 : ℝ := (ms.map (· ^ 2)).sum
    let term ← psqrt m2
    let cn ← pdiv (m (n - 1)) term
    let cn1 ← pdiv (m (n - 2)) term
    let u ← pdiv 1 √n
    let wn := polyval [-2.706056, 4.434685, -2.071190, -0.147981, 0.221157, cn] u
    if n ≤ 5 then
      let phi ← pdiv (m2 - 2 * m (n - 1) ^ 2) (1 - 2 * wn ^ 2)
      let r ← psqrt phi
      let inner ← (List.range (n - 2)).mapM fun k => pdiv (m (k + 1)) r
      return [-wn] ++ inner ++ [wn]
    else
      let wn1 := polyval [-3.582633, 5.682633, -1.752461, -0.293762, 0.042981, cn1] u
      let phi ← pdiv (m2 - 2 * m (n - 1) ^ 2 - 2 * m (n - 2) ^ 2) (1 - 2 * wn ^ 2 - 2 * wn1 ^ 2)
      let r ← psqrt phi
      let inner ← (List.range (n - 4)).mapM fun k => pdiv (m (k + 2)) r
      return [-wn, -wn1] ++ inner ++ [wn1, wn]

/-- `ShapiroWilkNormalityGofStatistic.execute_statistic`, 157-167. -/
noncomputable def shapiroWilkC (lib : NormLib) (xs : List ℝ) : Except PyErr ℝ :=
  if xs.length < 2 then .error .indexError
  else if xs.length = 2 then .error .typeError
  else do
    let a ← swWeightsC lib xs.length
    pdiv (dot (at_ a) (sort xs) ^ 2) (xs.map fun x => (x - mean xs) ^ 2).sum

/-- `scipy_stats.pearsonr(x, y)[0]`, for at least two points; NaN when one of the two is constant. -/
noncomputable def pearsonrC (z xs : List ℝ) : Except PyErr ℝ :=
  if xs.length < 2 then .error .valueError
  else pdiv (List.zipWith (fun a b => (a - mean z) * (b - mean xs)) z xs).sum
    (√(z.map fun a => (a - mean z) ^ 2).sum * √(xs.map fun b => (b - mean xs) ^ 2).sum)

/-- `FilliNormalityGofStatistic.execute_statistic`, 461-485. -/
noncomputable def filliC (lib : NormLib) (xs : List ℝ) : Except PyErr ℝ :=
  if xs.length = 0 then .error .zeroDivisionError
  else do
    let z ← scoresC lib xs.length (filliMedian xs.length)
    pearsonrC z (sort xs)

/-- `LooneyGulledgeNormalityGofStatistic.execute_statistic`, 506-550. -/
noncomputable def looneyGulledgeC (lib : NormLib) (xs : List ℝ) : Except PyErr ℝ := do
  let z ← scoresC lib xs.length (blom xs.length)
  pearsonrC z (sort xs)

/-- `RyanJoinerNormalityGofStatistic.execute_statistic`, 577-628. -/
noncomputable def ryanJoinerC (lib : NormLib) (weighted : Bool) (α : RjAlpha) (xs : List ℝ) :
    Except PyErr ℝ := do
  let x := sort xs
  let u := rjOrder α xs.length
  let z ← scoresC lib xs.length fun i => if weighted then groupMean x u i else u i
  pearsonrC z x

/-- `SFNormalityGofStatistic.execute_statistic`, 648-658. -/
noncomputable def shapiroFranciaC (lib : NormLib) (xs : List ℝ) : Except PyErr ℝ := do
  let z ← scoresC lib xs.length (blom xs.length)
  let e := z.map fun v => -v
  let x := sort xs
  pdiv (dot (at_ e) x ^ 2) ((x.map fun v => (v - mean x) ^ 2).sum * (e.map (· ^ 2)).sum)

/-- `ZhangWuCNormalityGofStatistic.execute_statistic`, 971-985. -/
noncomputable def zhangWuCC (lib : NormLib) (xs : List ℝ) : Except PyErr ℝ := do
  let n : ℝ := xs.length
  let z ← standardisedC xs
  let p := sort (z.map lib.cdf)
  let t ← (List.range xs.length).mapM fun i => do
    let r ← pdiv 1 (at_ p i)
    let d ← pdiv (n - 0.5) ((i : ℝ) + 1 - 0.75)
    let q ← pdiv (r - 1) (d - 1)
    let l ← plog q
    return l ^ 2
  return t.sum

/-- `ZhangWuANormalityGofStatistic.execute_statistic`, 1005-1023. -/
noncomputable def zhangWuAC (lib : NormLib) (xs : List ℝ) : Except PyErr ℝ := do
  let n : ℝ := xs.length
  let z ← standardisedC xs
  let p := sort (z.map lib.cdf)
  let t ← (List.range xs.length).mapM fun i => do
    let l1 ← plog (at_ p i)
    let l2 ← plog (1 - at_ p i)
    let q1 ← pdiv l1 (n - ((i : ℝ) + 1) + 0.5)
    let q2 ← pdiv l2 ((i : ℝ) + 1 - 0.5)
    return q1 + q2
  return 10 * -t.sum - 32

/-- `GlenLeemisBarrNormalityGofStatistic.execute_statistic`, 1043-1062. -/
noncomputable def glenLeemisBarrC (lib : NormLib) (xs : List ℝ) : Except PyErr ℝ := do
  let n : ℝ := xs.length
  let z ← standardisedC xs
  let p := sort ((sort (z.map lib.cdf)).mapIdx fun i p => lib.betaCdf p (i + 1) (xs.length - (i + 1) + 1))
  let t ← (List.range xs.length).mapM fun i => do
    let l1 ← plog (at_ p i)
    let l2 ← plog (1 - at_ p i)
    return (2 * n + 1 - 2 * ((i : ℝ) + 1)) * l1 + (2 * ((i : ℝ) + 1) - 1) * l2
  let q ← pdiv t.sum n
  return 0 - n - q

/-- `CabanaCabana1NormalityGofStatistic.stat19`, 1361-1393. -/
noncomputable def cabanaCabana1C (lib : NormLib) (xs : List ℝ) : Except PyErr ℝ := do
  let z ← standardisedC xs
  cc1 lib z

/-- `CabanaCabana2NormalityGofStatistic.stat20`, 1417-1502. -/
noncomputable def cabanaCabana2C (lib : NormLib) (xs : List ℝ) : Except PyErr ℝ := do
  let v ← pdiv (xs.length * variance xs) ((xs.length : ℝ) - 1)
  let sd ← psqrt v
  let z ← xs.mapM fun x => pdiv (x - mean xs) sd
  cc2 lib z

/-- `ChenShapiroNormalityGofStatistic.stat26`, 1526-1536. -/
noncomputable def chenShapiroC (lib : NormLib) (xs : List ℝ) : Except PyErr ℝ := do
  let n : ℝ := xs.length
  let m ← scoresC lib xs.length (blom xs.length)
  let t ← (List.range (xs.length - 1)).mapM fun i =>
    pdiv (at_ (npDiff (sort xs)) i) (at_ m (i + 1) - at_ m i)
  let sd ← psqrt (var1 xs)
  let d ← pdiv t.sum ((n - 1) * sd)
  return √n * (1 - d)

/-- `a` and `b` of `ZhangQNormalityGofStatistic` and `ZhangQStarNormalityGofStatistic`, 1569-1582 and
1783-1797: the quotients that occur there. -/
noncomputable def zqQuotientsC (u : ℕ → ℝ) (n : ℕ) : Except PyErr Unit := do
  let _ ← (List.range (n - 1)).mapM fun k => pdiv 1 (((n : ℝ) - 1) * (u (k + 1) - u 0))
  let _ ← (List.range (n - 4)).mapM fun k => pdiv 1 (((n : ℝ) - 4) * (u k - u (k + 4)))
  return ()

/-- `ZhangQNormalityGofStatistic.stat27`, 1560-1586. -/
noncomputable def zhangQC (lib : NormLib) (xs : List ℝ) : Except PyErr ℝ := do
  let us ← scoresC lib xs.length (blom xs.length)
  let u := at_ us
  if xs.length < 8 then .error .indexError
  else
    let _ ← zqQuotientsC u xs.length
    let q ← pdiv (dot (zqA u xs.length) (sort xs)) (dot (zqB u xs.length) (sort xs))
    plog q

/-- `ZhangQStarNormalityGofStatistic.execute_statistic`, 1775-1803. -/
noncomputable def zhangQStarC (lib : NormLib) (xs : List ℝ) : Except PyErr ℝ := do
  let us ← scoresC lib xs.length (blom xs.length)
  let u := at_ us
  if xs.length < 8 then .error .indexError
  else
    let _ ← zqQuotientsC u xs.length
    let q ← pdiv (-dot (zqA u xs.length) (sort xs).reverse) (-dot (zqB u xs.length) (sort xs).reverse)
    plog q

/-- `SWRGNormalityGofStatistic.execute_statistic`, 1872-1892. -/
noncomputable def swrgC (lib : NormLib) (xs : List ℝ) : Except PyErr ℝ := do
  let _ ← scoresC lib xs.length fun i => ((i : ℝ) + 1) / (xs.length + 1)
  let a := swrgStar lib xs.length
  let norm2 := ∑ i ∈ Finset.range xs.length, a i ^ 2
  let r ← psqrt norm2
  let ai ← (List.range xs.length).mapM fun i => pdiv (a i) r
  let x := sort xs
  pdiv (dot (at_ ai) x ^ 2) (x.map fun v => (v - mean x) ^ 2).sum

/-- `CoinNormalityGofStatistic.nscor2`, 1683-1725, entry `i` (zero-based). -/
noncomputable def nscor2C (lib : NormLib) (n i : ℕ) : Except PyErr ℝ := do
  let k := min 3 (n / 2)
  let j := if i < k then i else 3
  let eps := at_ [0.419885, 0.450536, 0.456936, 0.468488] j
  let dl1 := at_ [0.112063, 0.12177, 0.239299, 0.215159] j
  let dl2 := at_ [0.080122, 0.111348, -0.211867, -0.115049] j
  let gam := at_ [0.474798, 0.469051, 0.208597, 0.259784] j
  let lam := at_ [0.282765, 0.304856, 0.407708, 0.414093] j
  let ai : ℝ := (i : ℝ) + 1
  let e1 ← pdiv (ai - eps) (n + gam)
  let e2 ← if i < k then ppow e1 lam else do
    let c ← pdiv (-0.283833) (ai + -0.106136)
    ppow e1 (lam + c)
  let q ← pdiv (e2 * (dl1 + e2 * dl2)) n
  let m ← pppf lib (e1 + q - coinCorrect (i + 1) n)
  return 0 - m

/-- `CoinNormalityGofStatistic.stat30`, 1609-1660. -/
noncomputable def coinC (lib : NormLib) (xs : List ℝ) : Except PyErr ℝ := do
  let n := xs.length
  let sd ← psqrt (var1' xs)
  let z ← xs.mapM fun x => pdiv (x - mean xs) sd
  let sp ← (List.range (n / 2)).mapM fun i => nscor2C lib n i
  let a : ℕ → ℝ := fun i => if i < n / 2 then -at_ sp i
    else if n % 2 = 1 ∧ i = n / 2 then 0 else at_ sp (n - i - 1)
  let s : ℕ → ℝ := fun k => ∑ i ∈ Finset.range n, a i ^ k
  let t2 := dot a (sort z)
  let t4 := dot (fun i => a i ^ 3) (sort z)
  let q ← pdiv (s 4 * t2 - s 2 * t4) (s 4 * s 4 - s 2 * s 6)
  return q ^ 2

/-- `KurtosisNormalityGofStatistic.kurtosis_test`, 379-417, as a function of the kurtosis; NaN when
`denom` is zero. -/
noncomputable def kurtosisZC (n : ℝ) (b2 : ℝ) : Except PyErr ℝ := do
  let e ← pdiv (3 * (n - 1)) (n + 1)
  let varB2 ← pdiv (24 * n * (n - 2) * (n - 3)) ((n + 1) * (n + 1) * (n + 3) * (n + 5))
  let sv ← psqrt varB2
  let x ← pdiv (b2 - e) sv
  let c ← pdiv (6 * (n * n - 5 * n + 2)) ((n + 7) * (n + 9))
  let d ← pdiv (6 * (n + 3) * (n + 5)) (n * (n - 2) * (n - 3))
  let sq ← psqrt d
  let sb1 := c * sq
  let i1 ← pdiv 8 sb1
  let i2 ← pdiv 2 sb1
  let i3 ← pdiv 4 (sb1 ^ 2)
  let i4 ← psqrt (1 + i3)
  let a := 6 + i1 * (i2 + i4)
  let f ← pdiv 2 (9 * a)
  let g ← pdiv 2 (a - 4)
  let sg ← psqrt g
  let denom := 1 + x * sg
  let h ← pdiv 2 a
  let r ← pdiv (1 - h) |denom|
  let root ← ppow r (1 / 3)
  let sf ← psqrt f
  pdiv (1 - f - Real.sign denom * root) sf

/-- `KurtosisNormalityGofStatistic.execute_statistic`, 372-417. -/
noncomputable def kurtosisTestC (xs : List ℝ) : Except PyErr ℝ :=
  if xs.length < 5 then .error .valueError
  else do
    let k ← kurtC (sort xs)
    kurtosisZC xs.length k

/-- `DAPNormalityGofStatistic.execute_statistic`, 433-440. -/
noncomputable def dapC (xs : List ℝ) : Except PyErr ℝ := do
  let s ← skewTestC xs
  let k ← kurtosisTestC xs
  return s * s + k * k

/-- `execute_statistic` with partial arithmetic. -/
noncomputable def NormStat.checked (lib : NormLib) (s : NormStat) (xs : List ℝ) :
    Except PyErr (Option ℝ) :=
  match s with
  | .ks t => (ksOf t lib.cdf xs).map some
  | .cvm => .ok (some (cvmOf lib.cdf xs))
  | .andersonDarling => (andersonDarlingC lib xs).map some
  | .shapiroWilk => (shapiroWilkC lib xs).map some
  | .lilliefors => (lillieforsC lib xs).map some
  | .kurtosis => (kurtosisTestC xs).map some
  | .dap => (dapC xs).map some
  | .filli => (filliC lib xs).map some
  | .looneyGulledge => (looneyGulledgeC lib xs).map some
  | .ryanJoiner w α => (ryanJoinerC lib w α xs).map some
  | .shapiroFrancia => (shapiroFranciaC lib xs).map some
  | .zhangWuC => guarded xs (zhangWuCC lib xs)
  | .zhangWuA => guarded xs (zhangWuAC lib xs)
  | .glenLeemisBarr => guarded xs (glenLeemisBarrC lib xs)
  | .cabanaCabana1 => guarded xs (cabanaCabana1C lib xs)
  | .cabanaCabana2 => guarded xs (cabanaCabana2C lib xs)
  | .chenShapiro => guarded xs (chenShapiroC lib xs)
  | .zhangQ => guarded xs (zhangQC lib xs)
  | .zhangQStar => guarded xs (zhangQStarC lib xs)
  | .coin => guarded xs (coinC lib xs)
  | .swrg => guarded xs (swrgC lib xs)
  | .jarqueBera => (jarqueBeraC xs).map some
  | .skew => (skewTestC xs).map some
  | .eppsPulley => (eppsPulleyC xs).map some
  | .hosking1 => guarded xs (hosking1C xs)
  | .hosking2 => if 3 < xs.length then (hoskingTrimmedC 1 xs).map some else .ok (some 0)
  | .hosking3 => guarded xs (hoskingTrimmedC 2 xs)
  | .hosking4 => guarded xs (hoskingTrimmedC 3 xs)
  | .doornikHansen => (doornikHansenC xs).map some
  | .robustJarqueBera => (robustJarqueBeraC xs).map some
  | .bontempsMeddahi1 => guarded xs (bontempsMeddahi1C xs)
  | .bontempsMeddahi2 => guarded xs (bontempsMeddahi2C xs)
  | .bonettSeier => guarded xs (bonettSeierC xs)
  | .martinezIglewicz => guarded xs (martinezIglewiczC xs)
  | .dagostino => guarded xs (dagostinoC xs)
  | .gmg => guarded xs (gmgC xs)
  | .desgagneLafaye => guarded xs (desgagneLafayeC xs)
  | .spiegelhalter => guarded xs (spiegelhalterC xs)

end Pysatl.Normal
