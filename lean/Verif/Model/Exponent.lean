import Mathlib.Analysis.SpecialFunctions.Gamma.Basic
import Mathlib.Analysis.SpecialFunctions.Trigonometric.Inverse
import Mathlib.NumberTheory.Harmonic.EulerMascheroni
import Mathlib.Algebra.Order.Floor.Semiring
import Verif.Model.Edf

/-!
# Model of the exponentiality statistics

`/repo/src/pysatl_criterion/statistics/goodness_of_fit/exponent.py`, except the graph statistics
(`Verif.Model.Graph`).

Numbers are real: no rounding, infinities or NaN.  Where numpy would return one of the latter (a
quotient by zero, the logarithm of zero) the value here has no meaning; the theorems that depend
on it exclude the case.  Python's own `ZeroDivisionError` and the errors of indexing and of `max`
are represented.
-/

namespace Pysatl.Exponent

open Pysatl.Decision Pysatl.Graph Pysatl.Edf

/-- `rvs[i]` for an index in range. -/
def at_ (rvs : List ℝ) (i : ℕ) : ℝ := rvs.getD i 0

/-- `round(n / m)` for `m > 0`: to the nearest integer, ties to the even one. -/
def pyRoundDiv (n m : ℕ) : ℕ :=
  if 2 * (n % m) < m then n / m
  else if m < 2 * (n % m) then n / m + 1
  else if (n / m) % 2 = 0 then n / m else n / m + 1

/-- `min(l)`. -/
def pyMin (l : List ℝ) : Except PyErr ℝ :=
  match l.min? with
  | some m => .ok m
  | none => .error .valueError

/-- `EppsPulleyExponentialityGofStatistic.execute_statistic`, 109-113. -/
noncomputable def eppsPulley (rvs : List ℝ) : ℝ :=
  let n : ℝ := rvs.length
  let y := rvs.map fun x => x / mean rvs
  √(48 * n) * (y.map fun v => Real.exp (-v) - 1 / 2).sum / n

/-- `h` of `AhsanullahExponentialityGofStatistic`, 204-211. -/
noncomputable def ahsH (rvs : List ℝ) : ℕ :=
  ∑ k ∈ Finset.range rvs.length, ∑ i ∈ Finset.range rvs.length, ∑ j ∈ Finset.range rvs.length,
    if |at_ rvs i - at_ rvs j| < at_ rvs k then 1 else 0

/-- `g` of `AhsanullahExponentialityGofStatistic`, 204-213. -/
noncomputable def ahsG (rvs : List ℝ) : ℕ :=
  ∑ k ∈ Finset.range rvs.length, ∑ i ∈ Finset.range rvs.length, ∑ j ∈ Finset.range rvs.length,
    if 2 * min (at_ rvs i) (at_ rvs j) < at_ rvs k then 1 else 0

/-- `AhsanullahExponentialityGofStatistic.execute_statistic`, 204-216. -/
noncomputable def ahsanullah (rvs : List ℝ) : Except PyErr ℝ :=
  if rvs.length = 0 then .error .zeroDivisionError
  else .ok (((ahsH rvs : ℝ) - ahsG rvs) / (rvs.length : ℝ) ^ 3)

/-- `AtkinsonExponentialityGofStatistic.execute_statistic`, 262-268. -/
noncomputable def atkinson (p : ℝ) (rvs : List ℝ) : ℝ :=
  let m := mean (rvs.map fun x => x ^ p)
  let r := m ^ (1 / p) / mean rvs
  √(rvs.length : ℝ) * |r - Real.Gamma (1 + p) ^ (1 / p)|

/-- `CoxOakesExponentialityGofStatistic.execute_statistic`, 313-318. -/
noncomputable def coxOakes (rvs : List ℝ) : ℝ :=
  let y := rvs.map fun x => x / mean rvs
  (y.map fun v => Real.log v * (1 - v)).sum + rvs.length

/-- `des` of `DeshpandeExponentialityGofStatistic`, 409-414. -/
noncomputable def desCount (b : ℝ) (rvs : List ℝ) : ℕ :=
  ∑ i ∈ Finset.range rvs.length, ∑ k ∈ Finset.range rvs.length,
    if i ≠ k ∧ b * at_ rvs k < at_ rvs i then 1 else 0

/-- `DeshpandeExponentialityGofStatistic.execute_statistic`, 409-417. -/
noncomputable def deshpande (b : ℝ) (rvs : List ℝ) : Except PyErr ℝ :=
  if rvs.length ≤ 1 then .error .zeroDivisionError
  else .ok ((desCount b rvs : ℝ) / (rvs.length * (rvs.length - 1)))

/-- `np.arange(n, 0, -1) * (x[1:n+1] - x[0:n])`, 464, 620, 672: the normalised spacings of the
array `x` of `n + 1` numbers. -/
noncomputable def normSpacings (x : List ℝ) : List ℝ :=
  (npDiff x).mapIdx fun i d => ((x.length - 1 - i : ℕ) : ℝ) * d

/-- `EpsteinExponentialityGofStatistic.execute_statistic`, 461-467. -/
noncomputable def epstein (rvs : List ℝ) : Except PyErr ℝ :=
  if rvs.length = 0 then .error .zeroDivisionError
  else
    let n : ℝ := rvs.length
    let d := normSpacings (0 :: sort rvs)
    .ok (2 * n * (Real.log (d.sum / n) - (d.map Real.log).sum / n) / (1 + (n + 1) / (6 * n)))

/-- `FroziniExponentialityGofStatistic.execute_statistic`, 511-519. -/
noncomputable def frozini (rvs : List ℝ) : ℝ :=
  let n : ℝ := rvs.length
  let x := sort rvs
  let y := mean x
  1 / √n * (x.mapIdx fun i v => |1 - Real.exp (-v / y) - ((i : ℝ) + 1 - 1 / 2) / n|).sum

/-- `GiniExponentialityGofStatistic.execute_statistic`, 563-571. -/
noncomputable def gini (rvs : List ℝ) : ℝ :=
  let n := rvs.length
  let x := sort rvs
  ((npDiff x).mapIdx fun i k => k * (((i : ℝ) + 1) * ((n - 1 - i : ℕ) : ℝ))).sum / ((n - 1) * x.sum)

/-- `GnedenkoExponentialityGofStatistic.execute_statistic`, 616-623, for `r` at most the size of
the sample. -/
noncomputable def gnedenko (r : Option ℕ) (rvs : List ℝ) : Except PyErr ℝ :=
  let n := rvs.length
  let r := r.getD (pyRoundDiv n 2)
  let d := normSpacings (sort (0 :: rvs))
  if r = 0 ∨ n - r = 0 then .error .zeroDivisionError
  else .ok (((d.take r).sum / r) / ((d.drop r).sum / ((n : ℝ) - r)))

/-- `d[-r:]`. -/
def lastSlice (r : ℕ) (d : List ℝ) : List ℝ := if r = 0 then d else d.drop (d.length - r)

/-- `d[r:-r]`. -/
def midSlice (r : ℕ) (d : List ℝ) : List ℝ := if r = 0 then [] else (d.take (d.length - r)).drop r

/-- `HarrisExponentialityGofStatistic.execute_statistic`, 668-675. -/
noncomputable def harris (r : Option ℕ) (rvs : List ℝ) : ℝ :=
  let n := rvs.length
  let r := r.getD (pyRoundDiv n 4)
  let d := normSpacings (sort (0 :: rvs))
  (((d.take r).sum + (lastSlice r d).sum) / (2 * r)) / ((midSlice r d).sum / ((n : ℝ) - 2 * r))

/-- `b = -np.log(1 - np.arange(1, n + 1) / (n + 1))`, 722 and 1289: approximate expected order
statistics of the standard exponential distribution. -/
noncomputable def hgScore (n i : ℕ) : ℝ := -Real.log (1 - ((i : ℝ) + 1) / (n + 1))

/-- `HegazyGreen1ExponentialityGofStatistic.execute_statistic`, 720-725. -/
noncomputable def hegazyGreen1 (rvs : List ℝ) : Except PyErr ℝ :=
  if rvs.length = 0 then .error .zeroDivisionError
  else .ok ((rvs.length : ℝ)⁻¹ * ((sort rvs).mapIdx fun i x => |x - hgScore rvs.length i|).sum)

/-- `t` of `HollanderProshanExponentialityGofStatistic`, 769-775. -/
noncomputable def hpCount (rvs : List ℝ) : ℕ :=
  ∑ i ∈ Finset.range rvs.length, ∑ j ∈ Finset.range rvs.length, ∑ k ∈ Finset.range rvs.length,
    if i ≠ j ∧ i ≠ k ∧ j < k ∧ at_ rvs j + at_ rvs k < at_ rvs i then 1 else 0

/-- `HollanderProshanExponentialityGofStatistic.execute_statistic`, 769-778. -/
noncomputable def hollanderProschan (rvs : List ℝ) : Except PyErr ℝ :=
  let n : ℝ := rvs.length
  if rvs.length ≤ 2 then .error .zeroDivisionError
  else .ok (2 / (n * (n - 1) * (n - 2)) * hpCount rvs)

/-- `KimberMichaelExponentialityGofStatistic.execute_statistic`, 822-829. -/
noncomputable def kimberMichael (rvs : List ℝ) : Except PyErr ℝ :=
  let n : ℝ := rvs.length
  let x := sort rvs
  let y := mean x
  npMax (x.mapIdx fun i v =>
    |2 / Real.pi * Real.arcsin √(((i : ℝ) + 1 - 1 / 2) / n) -
      2 / Real.pi * Real.arcsin √(1 - Real.exp (-(v / y)))|)

/-- `j` of `KocharExponentialityGofStatistic`, 875-876. -/
noncomputable def kocharScore (n i : ℕ) : ℝ :=
  let u := ((i : ℝ) + 1) / (n + 1)
  2 * (1 - u) * (1 - Real.log (1 - u)) - 1

/-- `KocharExponentialityGofStatistic.execute_statistic`, 873-879. -/
noncomputable def kochar (rvs : List ℝ) : ℝ :=
  let n := rvs.length
  let x := sort rvs
  √(108 * n / 17) * (x.mapIdx fun i v => kocharScore n i * v).sum / x.sum

/-- `LorenzExponentialityGofStatistic.execute_statistic`, 924-928, for `p ≥ 0`.  Division by a sum
that is zero (only the empty sample gives one when all values are positive) raises. -/
noncomputable def lorenz (p : ℝ) (rvs : List ℝ) : Except PyErr ℝ :=
  let x := sort rvs
  if rvs = [] then .error .zeroDivisionError
  else .ok ((x.take ⌊(rvs.length : ℝ) * p⌋₊).sum / x.sum)

/-- `MoranExponentialityGofStatistic.execute_statistic`, 973-976; `-digamma(1)` is Euler's
constant. -/
noncomputable def moran (rvs : List ℝ) : ℝ :=
  Real.eulerMascheroniConstant + mean (rvs.map fun x => Real.log (x / mean rvs))

/-- `PietraExponentialityGofStatistic.execute_statistic`, 1020-1024. -/
noncomputable def pietra (rvs : List ℝ) : ℝ :=
  (rvs.map fun x => |x - mean rvs|).sum / (2 * rvs.length * mean rvs)

/-- `ShapiroWilkExponentialityGofStatistic.execute_statistic`, 1068-1073. -/
noncomputable def shapiroWilk (rvs : List ℝ) : Except PyErr ℝ :=
  let n : ℝ := rvs.length
  match sort rvs with
  | [] => .error .indexError
  | x0 :: xs =>
    let x := x0 :: xs
    let y := mean x
    .ok (n * (y - x0) ^ 2 / ((n - 1) * (x.map fun v => (v - y) ^ 2).sum))

/-- The condition of `RossbergExponentialityGofStatistic`, 1125-1132. -/
def rsCond (a b c m : ℝ) : Prop := a + b + c - 2 * min (min a b) c - max (max a b) c < m

/-- The comparison is decided (for the conditional below). -/
noncomputable instance (a b c m : ℝ) : Decidable (rsCond a b c m) :=
  inferInstanceAs (Decidable (a + b + c - 2 * min (min a b) c - max (max a b) c < m))

/-- The loop over `i < j < k`, 1121-1133. -/
noncomputable def rsH (rvs : List ℝ) (m : ℝ) : ℕ :=
  ∑ i ∈ Finset.range (rvs.length - 2), ∑ j ∈ Finset.Ico (i + 1) (rvs.length - 1),
    ∑ k ∈ Finset.Ico (j + 1) rvs.length,
      if rsCond (at_ rvs i) (at_ rvs j) (at_ rvs k) m then 1 else 0

/-- The loop over `i < j`, 1137-1141. -/
noncomputable def rsG (rvs : List ℝ) (m : ℝ) : ℕ :=
  ∑ i ∈ Finset.range (rvs.length - 1), ∑ j ∈ Finset.Ico (i + 1) rvs.length,
    if min (at_ rvs i) (at_ rvs j) < m then 1 else 0

/-- `RossbergExponentialityGofStatistic.execute_statistic`, 1117-1147; `math.factorial` of a
negative number raises `ValueError`. -/
noncomputable def rossberg (rvs : List ℝ) : Except PyErr ℝ :=
  let n := rvs.length
  if n = 0 then .error .zeroDivisionError
  else if n < 3 then .error .valueError
  else
    let sh := ∑ m ∈ Finset.range n, 6 * ((n - 3).factorial : ℝ) / n.factorial * rsH rvs (at_ rvs m)
    let sg := ∑ m ∈ Finset.range n, 2 * ((n - 2).factorial : ℝ) / n.factorial * rsG rvs (at_ rvs m)
    .ok ((sh - sg) / n)

/-- `WeExponentialityGofStatistic.execute_statistic`, 1191-1196. -/
noncomputable def we (rvs : List ℝ) : ℝ :=
  let n : ℝ := rvs.length
  (n - 1) * variance rvs / (n ^ 2 * mean rvs ^ 2)

/-- `WongWongExponentialityGofStatistic.execute_statistic`, 1241-1243. -/
noncomputable def wongWong (rvs : List ℝ) : Except PyErr ℝ := do
  let a ← npMax rvs
  let b ← pyMin rvs
  return a / b

/-- `HegazyGreen2ExponentialityGofStatistic.execute_statistic`, 1287-1292. -/
noncomputable def hegazyGreen2 (rvs : List ℝ) : Except PyErr ℝ :=
  if rvs.length = 0 then .error .zeroDivisionError
  else .ok ((rvs.length : ℝ)⁻¹ * ((sort rvs).mapIdx fun i x => (x - hgScore rvs.length i) ^ 2).sum)

/-- `scipy.stats.expon.cdf(x, scale=1/lam)`. -/
noncomputable def exponCdf (lam x : ℝ) : ℝ := if x ≤ 0 then 0 else 1 - Real.exp (-(lam * x))

/-- The classes of `exponent.py` without the graph statistics, with the arguments `p`, `b`, `r` of
their `execute_statistic` and the constructor arguments they use. -/
inductive ExpStat where
  | eppsPulley | ks (t : AlternativeType) | ahsanullah | atkinson (p : ℝ) | coxOakes | cvm (lam : ℝ)
  | deshpande (b : ℝ) | epstein | frozini | gini | gnedenko (r : Option ℕ) | harris (r : Option ℕ)
  | hegazyGreen1 | hollanderProschan | kimberMichael | kochar | lorenz (p : ℝ) | moran | pietra
  | shapiroWilk | rossberg | we | wongWong | hegazyGreen2

/-- `execute_statistic` of each class. -/
noncomputable def ExpStat.value (s : ExpStat) (rvs : List ℝ) : Except PyErr ℝ :=
  match s with
  | .eppsPulley => .ok (Exponent.eppsPulley rvs)
  | .ks t => ksOf t (exponCdf 1) rvs
  | .ahsanullah => Exponent.ahsanullah rvs
  | .atkinson p => .ok (Exponent.atkinson p rvs)
  | .coxOakes => .ok (Exponent.coxOakes rvs)
  | .cvm lam => .ok (cvmOf (exponCdf lam) rvs)
  | .deshpande b => Exponent.deshpande b rvs
  | .epstein => Exponent.epstein rvs
  | .frozini => .ok (Exponent.frozini rvs)
  | .gini => .ok (Exponent.gini rvs)
  | .gnedenko r => Exponent.gnedenko r rvs
  | .harris r => .ok (Exponent.harris r rvs)
  | .hegazyGreen1 => Exponent.hegazyGreen1 rvs
  | .hollanderProschan => Exponent.hollanderProschan rvs
  | .kimberMichael => Exponent.kimberMichael rvs
  | .kochar => .ok (Exponent.kochar rvs)
  | .lorenz p => Exponent.lorenz p rvs
  | .moran => .ok (Exponent.moran rvs)
  | .pietra => .ok (Exponent.pietra rvs)
  | .shapiroWilk => Exponent.shapiroWilk rvs
  | .rossberg => Exponent.rossberg rvs
  | .we => .ok (Exponent.we rvs)
  | .wongWong => Exponent.wongWong rvs
  | .hegazyGreen2 => Exponent.hegazyGreen2 rvs

/-- What the caller's sequence holds after the call: the classes with the statement `rvs.sort()`
(462, 512, 823, 874, 925, 1069, 1288) sort it in place. -/
noncomputable def ExpStat.sampleAfter (s : ExpStat) (rvs : List ℝ) : List ℝ :=
  match s with
  | .epstein | .frozini | .kimberMichael | .kochar | .lorenz _ | .shapiroWilk | .hegazyGreen2 =>
    sort rvs
  | _ => rvs

/-- `alternative()` of the classes: `exponent.py` 77, 172, 229, 281, 376, 429, 479, 531, 583,
635, 687, 737, 790, 841, 891, 940, 988, 1036, 1085, 1159, 1208, 1255; Kolmogorov-Smirnov:
`common.py` 22-25; Cramer-von Mises: `common.py` 130-132. -/
def ExpStat.alternative : ExpStat → AlternativeType
  | .ks t => t
  | .coxOakes | .epstein | .gini | .pietra => .twoTailed
  | .hegazyGreen1 | .hegazyGreen2 | .kimberMichael | .shapiroWilk => .left
  | _ => .right

/-- The statistic object as the test procedures see it. -/
noncomputable def ExpStat.statistic (s : ExpStat) (code : String) (params : Option (List (String × ℝ))) :
    Statistic ℝ :=
  { code := code, params := params, distribution := "exponential", alternative := s.alternative,
    execute := s.value }

end Pysatl.Exponent
