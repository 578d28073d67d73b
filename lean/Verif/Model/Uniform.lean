import Mathlib.Analysis.SpecialFunctions.Log.Base
import Verif.Model.Normal

/-!
# Model of the uniformity statistics

`/repo/src/pysatl_criterion/statistics/goodness_of_fit/uniform.py`.  Numbers are real: no rounding,
infinities or NaN.  Where numpy takes the logarithm of zero (Anderson-Darling and Zhang statistics
of a sample that contains an end of the interval) or divides by zero the value here has no meaning.
The Greenwood, Sherman and Quesenberry-Miller statistics are those of `Verif.Model.Edf`.
-/

namespace Pysatl.Uniform

open Pysatl.Decision Pysatl.Graph Pysatl.Edf Pysatl.Exponent Pysatl.Normal

/-- `AbstractUniformGofStatistic.__init__`, 25-29: the pair `(a, b)`. -/
noncomputable def init (a b : ℝ) : Except PyErr (ℝ × ℝ) :=
  if b ≤ a then .error .valueError else .ok (a, b)

/-- `scipy.stats.uniform.cdf(x, loc=a, scale=b - a)`. -/
noncomputable def uniformCdf (a b x : ℝ) : ℝ :=
  if x ≤ a then 0 else if b ≤ x then 1 else (x - a) / (b - a)

/-- `(rvs - a) / (b - a)` in the order of the sample, 515, 650 and 727, 843.  (The Stein statistics
skip it for `a = 0` and `b = 1`, which changes nothing.) -/
noncomputable def standard (a b : ℝ) (rvs : List ℝ) : List ℝ := rvs.map fun x => (x - a) / (b - a)

/-- `np.histogram(rvs, bins=edges)`: the numbers of observations in `[e, e')` for consecutive
edges, in `[e, e']` for the last two. -/
noncomputable def histogram : List ℝ → List ℝ → List ℕ
  | e :: e' :: es, rvs =>
    (rvs.countP fun x => decide (e ≤ x) && (if es = [] then decide (x ≤ e') else decide (x < e'))) ::
      histogram (e' :: es) rvs
  | _, _ => []

/-- The edges of `np.histogram(rvs, bins=k, range=(a, b))`. -/
noncomputable def equalEdges (a b : ℝ) (k : ℕ) : List ℝ :=
  (List.range (k + 1)).map fun i : ℕ => a + i * ((b - a) / k)

/-- The argument `bins` of `Chi2PearsonUniformGofStatistic`: one of the three strings the code knows,
another string, or a number, of which `int` is taken. -/
inductive Bins where
  | sturges | sqrt | auto | other | count (k : ℤ)

/-- `num_bins` before `max`, 284-296.  `int` of an infinity raises `OverflowError` and `int` of NaN
`ValueError`. -/
noncomputable def numBins (a b : ℝ) (rvs : List ℝ) : Bins → Except PyErr ℤ
  | .sturges =>
    if rvs.length = 0 then .error .overflowError else .ok ⌈Real.logb 2 rvs.length + 1⌉
  | .sqrt => .ok ⌈√(rvs.length : ℝ)⌉
  | .auto =>
    if rvs.length = 0 then .error .valueError
    else
      let h := 7 / 2 * √(variance rvs) / (rvs.length : ℝ) ^ (1 / 3 : ℝ)
      if h = 0 then .error .overflowError else .ok ⌈(b - a) / h⌉
  | .other => .ok 10
  | .count k => .ok k

/-- `Chi2PearsonUniformGofStatistic.execute_statistic`, 282-302, after validation. -/
noncomputable def chi2 (a b lam : ℝ) (bins : Bins) (rvs : List ℝ) : Except PyErr ℝ := do
  let k := (max 2 (← numBins a b rvs bins)).toNat
  let observed := (histogram (equalEdges a b k) rvs).map fun c : ℕ => (c : ℝ)
  return powerDivergence lam observed (List.replicate k ((rvs.length : ℝ) / k))

/-- `scipy.stats.norm.pdf`. -/
noncomputable def normPdf (x : ℝ) : ℝ := Real.exp (-(x ^ 2) / 2) / √(2 * Real.pi)

/-- `BickelRosenblattUniformGofStatistic.execute_statistic`, 514-533, after validation;
`bandwidth = none` is the string `"auto"`. -/
noncomputable def bickelRosenblatt (a b : ℝ) (bandwidth : Option ℝ) (rvs : List ℝ) : ℝ :=
  let std := standard a b rvs
  let h := match bandwidth with
    | none => 53 / 50 * √(variance std) * (rvs.length : ℝ) ^ (-1 / 5 : ℝ)
    | some h => h
  let grid := (List.range 1000).map fun i : ℕ => (i : ℝ) / 999
  (grid.map fun x => (mean (std.map fun r => normPdf ((x - r) / h)) / h - 1) ^ 2).sum * (1 / 999)

/-- `test_type` of `ZhangTestsUniformGofStatistic`, 545-549; other values are rejected. -/
inductive ZhangType where
  | A | C | K

/-- `ZhangTestsUniformGofStatistic.execute_statistic`, 582-604, on the sorted standardised sample. -/
noncomputable def zhang (t : ZhangType) (vals : List ℝ) : ℝ :=
  let n : ℝ := vals.length
  match t with
  | .A =>
    let term1 := (vals.mapIdx fun i x => Real.log x / (n - ((i : ℝ) + 1) + 1 / 2)).sum
    let term2 := (vals.mapIdx fun i x => Real.log (1 - x) / ((i : ℝ) + 1 - 1 / 2)).sum
    0 - term1 - term2
  | .C =>
    let term1 := (vals.mapIdx fun i x => (Real.log x / (n - ((i : ℝ) + 1) + 1 / 2)) ^ 2).sum
    let term2 := (vals.mapIdx fun i x => (Real.log (1 - x) / ((i : ℝ) + 1 - 1 / 2)) ^ 2).sum
    term1 + term2
  | .K =>
    let term1 := (vals.mapIdx fun i x => Real.log (x / (1 - x)) / (n - ((i : ℝ) + 1) + 1 / 2)).sum
    let term2 := (vals.mapIdx fun i x => Real.log ((1 - x) / x) / ((i : ℝ) + 1 - 1 / 2)).sum
    max |term1| |term2|

/-- The pairs `(l[i], l[j])` with `i < j` in the order of the two nested loops, 672-674. -/
def pairs {α : Type} : List α → List (α × α)
  | [] => []
  | x :: l => l.map (fun y => (x, y)) ++ pairs l

/-- `h1`, 668-669 and 768-769. -/
noncomputable def steinKernel (x y : ℝ) : ℝ :=
  1 / 2 * (2 * max x y - 2 * x - 2 * y + x ^ 2 + y ^ 2)

/-- `SteinUniformGofStatistic._compute_u_statistic`, 659-678. -/
noncomputable def steinU (std : List ℝ) : ℝ :=
  let total := ((pairs std).map fun p => steinKernel p.1 p.2).sum
  if 1 < std.length then 2 * total / (std.length * ((std.length : ℝ) - 1)) else 0

/-- The argument `censoring_indices` of `CensoredSteinUniformGofStatistic.execute_statistic`: absent,
a Python sequence, or a numpy array.  (`== 0` is `False` for a sequence, elementwise for an
array, 731.) -/
inductive Indices where
  | none | list (l : List ℤ) | array (l : List ℤ)

/-- The condition of 731. -/
def Indices.uncensored : Indices → Bool
  | .none => true
  | .list _ => false
  | .array l => l.all (· == 0)

/-- The values of `Indices`. -/
def Indices.values : Indices → List ℤ
  | .none => []
  | .list l => l
  | .array l => l

/-- `km_survival` of 749-756 for the censoring indices in the order of the times: the element after
the first `k`.  `at_risk[i]` is `n - i`. -/
noncomputable def kmSurvival (n : ℕ) : List ℤ → ℕ → ℝ
  | _, 0 => 1
  | deltaSorted, k + 1 =>
    if deltaSorted.getD k 0 = 1 then kmSurvival n deltaSorted k * (1 - 1 / ((n : ℝ) - k))
    else kmSurvival n deltaSorted k

/-- `survival_func` of `_kaplan_meier`, 743-762.  `np.argsort` is taken to be stable;
numpy leaves the order of equal times unspecified. -/
noncomputable def kaplanMeier (times : List ℝ) (delta : List ℤ) (t : ℝ) : ℝ :=
  let sorted := (times.zip delta).insertionSort fun p q => p.1 ≤ q.1
  kmSurvival times.length (sorted.map Prod.snd) (times.countP fun s => decide (s ≤ t))

/-- `_compute_weighted_u_statistic`, 765-794, on the pairs of observation and index. -/
noncomputable def weightedU (km : ℝ → ℝ) (obs : List (ℝ × ℤ)) : ℝ :=
  let weight : ℝ → ℝ := fun x => 1 / max (km x) (1 / 10 ^ 10)
  let free := (pairs obs).filter fun p => p.1.2 = 0 ∧ p.2.2 = 0
  let total := (free.map fun p =>
    weight p.1.1 * weight p.2.1 * steinKernel p.1.1 p.2.1).sum
  if 0 < free.length then 2 * total / free.length else 0

/-- `CensoredSteinUniformGofStatistic.execute_statistic`, 724-740, after validation.  Fewer indices
than observations are an `IndexError` (746); additional ones are an `IndexError` or ignored in the
code and an error here. -/
noncomputable def censoredStein (a b : ℝ) (delta : Indices) (rvs : List ℝ) : Except PyErr ℝ :=
  let std := standard a b rvs
  if delta.uncensored then .ok (steinU std)
  else if delta.values.length ≠ rvs.length then .error .indexError
  else .ok (weightedU (kaplanMeier std delta.values) (std.zip delta.values))

/-- `scipy.special.legendre(j)(x)`, by the three-term recurrence. -/
noncomputable def legendre : ℕ → ℝ → ℝ
  | 0, _ => 1
  | 1, x => x
  | j + 2, x => ((2 * (j : ℝ) + 3) * x * legendre (j + 1) x - (j + 1) * legendre j x) / (j + 2)

/-- `phi` of `NeymanSmoothTestUniformGofStatistic`, 849-858. -/
noncomputable def phi (j : ℕ) (x : ℝ) : ℝ :=
  if j = 1 then √12 * (x - 1 / 2)
  else if j = 2 then √5 * (6 * (x - 1 / 2) ^ 2 - 1 / 2)
  else if j = 3 then √7 * (20 * (x - 1 / 2) ^ 3 - 3 * (x - 1 / 2))
  else legendre j (2 * x - 1) * √(2 * j + 1)

/-- `NeymanSmoothTestUniformGofStatistic.execute_statistic`, 841-864, after validation and on the
standardised sample. -/
noncomputable def neyman (k : ℕ) (std : List ℝ) : ℝ :=
  ((List.range k).map fun j => ((std.map (phi (j + 1))).sum / √(std.length : ℝ)) ^ 2).sum

/-! ### The classes -/

/-- The uniformity statistics and their options. -/
inductive UniStat where
  | ks (t : AlternativeType) | andersonDarling | cvm | lilliefors | chi2 (lam : ℝ) (bins : Bins)
  | watson | kuiper | greenwood | bickelRosenblatt (bandwidth : Option ℝ) | zhang (t : ZhangType)
  | stein | censoredStein (delta : Indices) | neyman (k : ℕ) | sherman | quesenberryMiller

/-- `execute_statistic` of each class, on an instance made with `a < b`: validation (`_validate_input`
is the first call of every method) and the body.  Lines: 111-115, 152-157, 194-198, 235-239, 282-302,
346-357, 401-417, 458-467, 512-533, 580-604, 648-656, 724-740, 839-864, 905-917, 958-972. -/
noncomputable def UniStat.value (s : UniStat) (a b : ℝ) (rvs : List ℝ) : Except PyErr ℝ := do
  let rvs ← validateUniform a b rvs
  match s with
  | .ks t => Edf.ks t ((sort rvs).map (uniformCdf a b))
  | .andersonDarling =>
    return ad ((sort rvs).map fun x => Real.log (uniformCdf a b x))
      ((sort rvs).map fun x => Real.log (1 - uniformCdf a b x))
  | .cvm => return Edf.cvm ((sort rvs).map (uniformCdf a b))
  | .lilliefors => Edf.ks .twoTailed ((sort rvs).map (uniformCdf a b))
  | .chi2 lam bins => Uniform.chi2 a b lam bins rvs
  | .watson => return watsonUniform (uniformVals a b rvs)
  | .kuiper => Edf.kuiper (uniformVals a b rvs)
  | .greenwood => greenwoodUniform a b rvs
  | .bickelRosenblatt h => return Uniform.bickelRosenblatt a b h rvs
  | .zhang t => return Uniform.zhang t (uniformVals a b rvs)
  | .stein => return steinU (standard a b rvs)
  | .censoredStein delta => Uniform.censoredStein a b delta rvs
  | .neyman k => return Uniform.neyman k (standard a b rvs)
  | .sherman => shermanUniform a b rvs
  | .quesenberryMiller => quesenberryMillerUniform a b rvs

/-- `alternative()`: `common.py` 24-25, 92-93, 122-123, 131-132, 150-151, `uniform.py` 314, 369, 426, 476, 542, 616,
690, 803, 873, 926. -/
def UniStat.alternative : UniStat → AlternativeType
  | .ks t => t
  | .lilliefors => .twoTailed
  | _ => .right

/-- The instance as the test procedures see it: `hypothesis`, 31-33, `distribution`, 35-43. -/
noncomputable def UniStat.statistic (a b : ℝ) (s : UniStat) (code : String) : Statistic ℝ :=
  { code := code, params := some [("a", a), ("b", b)], distribution := "uniform", alternative := s.alternative,
    execute := s.value a b }

end Pysatl.Uniform
