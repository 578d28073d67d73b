import Verif.Model.Basic
import Mathlib.Algebra.Order.Floor.Semiring
import Mathlib.Data.List.Sort
import Mathlib.Data.List.Dedup
import Mathlib.Algebra.Order.Field.Basic
import Mathlib.Data.Rat.Floor
import Mathlib.Algebra.Order.Floor.Ring

/-!
# Model of p-values, critical values, critical areas and decision methods

`/repo/src/pysatl_criterion/hypothesis_testing/{p_value,critical_values,alternative_factory,
goodness_of_fit_test,limit_distribution}` and `model.py`.

Numbers are elements of a linear ordered field `K` with a floor function, so rounding of
floating point numbers, infinities and NaN are not modelled.
-/

namespace Pysatl.Decision

variable {K : Type} [Field K] [LinearOrder K] [FloorSemiring K]

/-- A Python computation that may raise and may change a world `σ` (the random number
generator, a database): the world after it is known even when it raises. -/
abbrev Py (σ α : Type) := ExceptT PyErr (StateM σ) α

/-- Run a computation in a world: its outcome and the world afterwards. -/
def Py.exec {σ α : Type} (x : Py σ α) (w : σ) : Except PyErr α × σ :=
  (ExceptT.run x).run w

/-! ### scipy and numpy primitives -/

/-- `float(scipy.stats.ecdf(L).cdf.evaluate(s))`, used at
`hypothesis_testing/p_value/calculator/p_value_calculator.py` 25-26, 48-49, 71-72: the
fraction of values at most `s`.  Simplification: what scipy does with an empty sample is
not modelled; the model raises there and no theorem speaks about that case. -/
def ecdfEvaluate (L : List K) (s : K) : Except PyErr K :=
  if L.length = 0 then .error .valueError
  else .ok ((L.countP (fun x => decide (x ≤ s)) : ℕ) / (L.length : K))

/-- `scipy.stats.ecdf(L).cdf.quantiles`, used at
`hypothesis_testing/critical_values/calculator/critical_value_calculator.py` 28-29, 50-51,
72-75: the *distinct* values of the sample in increasing order (`np.unique`). -/
def ecdfQuantiles (L : List K) : List K :=
  L.dedup.insertionSort (· ≤ ·)

/-- `np.quantile(v, q)` for an increasing list `v`, default method `linear`, used at
`critical_value_calculator.py` 29, 51, 74, 75: linear interpolation at virtual index
`q (len v - 1)`; a `q` outside `[0,1]` raises `ValueError`.  Simplification: the behaviour
on an empty list is not modelled (the model raises, no theorem speaks about it). -/
def npQuantile (v : List K) (q : K) : Except PyErr K :=
  if 0 ≤ q ∧ q ≤ 1 then
    let h : K := q * ((v.length - 1 : ℕ) : K)
    let lo : ℕ := ⌊h⌋₊
    match v[lo]?, v[min (lo + 1) (v.length - 1)]? with
    | some a, some b => .ok (a + (h - lo) * (b - a))
    | _, _ => .error .indexError
  else .error .valueError

/-! ### p-value calculators -/

/-- `LeftPValueCalculator.calculate`, `p_value_calculator.py` 13-27. -/
def leftPValue (L : List K) (s : K) : Except PyErr K :=
  ecdfEvaluate L s

/-- `RightPValueCalculator.calculate`, `p_value_calculator.py` 36-50. -/
def rightPValue (L : List K) (s : K) : Except PyErr K := do
  let cdf ← ecdfEvaluate L s
  return 1 - cdf

/-- `TwoSidedPValueCalculator.calculate`, `p_value_calculator.py` 59-73. -/
def twoSidedPValue (L : List K) (s : K) : Except PyErr K := do
  let cdf ← ecdfEvaluate L s
  return 2 * min cdf (1 - cdf)

/-! ### Critical value calculators -/

/-- `CriticalValue = float | tuple[float, float]`, `hypothesis_testing/model.py` 8. -/
inductive CriticalValue (K : Type) where
  | one (cv : K)
  | two (left right : K)
deriving DecidableEq

/-- `LeftCriticalValueCalculator.calculate`, `critical_value_calculator.py` 16-29. -/
def leftCriticalValue (L : List K) (α : K) : Except PyErr K :=
  npQuantile (ecdfQuantiles L) α

/-- `RightCriticalValueCalculator.calculate`, `critical_value_calculator.py` 38-51. -/
def rightCriticalValue (L : List K) (α : K) : Except PyErr K :=
  npQuantile (ecdfQuantiles L) (1 - α)

/-- `TwoSidedCriticalValueCalculator.calculate`, `critical_value_calculator.py` 60-77. -/
def twoSidedCriticalValue (L : List K) (α : K) : Except PyErr (K × K) := do
  let sl := α / 2
  let left ← npQuantile (ecdfQuantiles L) sl
  let right ← npQuantile (ecdfQuantiles L) (1 - sl)
  return (left, right)

/-! ### Critical areas (acceptance regions) -/

/-- The three classes of `critical_area/critical_areas.py` 6-68. -/
inductive CriticalArea (K : Type) where
  | left (criticalValue : K)
  | right (criticalValue : K)
  | twoSided (leftCv rightCv : K)

/-- `contains`, `critical_areas.py` 17-24, 38-45, 61-68. -/
def CriticalArea.contains : CriticalArea K → K → Bool
  | .left cv, value => decide (cv ≤ value)
  | .right cv, value => decide (value ≤ cv)
  | .twoSided l r, value => decide (l ≤ value) && decide (value ≤ r)

/-! ### Alternatives and factories -/

/-- `AlternativeType`, `statistics/alternative.py` 8-15. -/
inductive AlternativeType where
  | right
  | left
  | twoTailed
deriving DecidableEq

/-- The concrete factories of `alternative_factory/alternative_factories.py` 25-125. -/
inductive Factory where
  | left
  | right
  | twoSided
deriving DecidableEq

/-- `AbstractAlternativeFactory.get_concrete_factory`, `alternative_factories.py` 134-148. -/
def getConcreteFactory (t : AlternativeType) : Factory :=
  if t = .left then .left
  else if t = .right then .right
  else .twoSided

/-- `get_p_value_calculator().calculate`, `alternative_factories.py` 40-46, 74-80, 108-114. -/
def Factory.pValue (f : Factory) (L : List K) (s : K) : Except PyErr K :=
  match f with
  | .left => leftPValue L s
  | .right => rightPValue L s
  | .twoSided => twoSidedPValue L s

/-- `get_critical_value_calculator().calculate`, `alternative_factories.py` 31-37, 65-71,
99-105. -/
def Factory.criticalValue (f : Factory) (L : List K) (α : K) : Except PyErr (CriticalValue K) :=
  match f with
  | .left => do return .one (← leftCriticalValue L α)
  | .right => do return .one (← rightCriticalValue L α)
  | .twoSided => do
    let (l, r) ← twoSidedCriticalValue L α
    return .two l r

/-- `get_critical_area(critical_value)`, `alternative_factories.py` 49-56, 83-90, 117-125.
The last two cases (a critical value of the wrong shape) are not reached from `decide`;
Python would raise `TypeError` on unpacking a float. -/
def Factory.criticalArea (f : Factory) (cv : CriticalValue K) : Except PyErr (CriticalArea K) :=
  match f, cv with
  | .left, .one c => .ok (.left c)
  | .right, .one c => .ok (.right c)
  | .twoSided, .two l r => .ok (.twoSided l r)
  | _, _ => .error .typeError

/-! ### Statistics, resolvers, decision methods -/

/-- What the decision layer uses of an `AbstractGoodnessOfFitStatistic`
(`statistics/statistic.py` 51-92): `code()`, `hypothesis().params` (`none` for `None`),
`distribution()` (by name), `alternative().type()` and `execute_statistic`.  The statistic
itself is deterministic; it may raise. -/
structure Statistic (K : Type) where
  code : String
  params : Option (List (String × K))
  distribution : String
  alternative : AlternativeType
  execute : List K → Except PyErr K

/-- `GoodnessOfFitHypothesis.parameters`, `statistics/hypothesis.py` 9-13. -/
def Statistic.parameters (st : Statistic K) : List K :=
  match st.params with
  | none => []
  | some ps => ps.map Prod.snd

/-- `AbstractLimitDistributionResolver.resolve`, `limit_distribution/base.py` 20-32. -/
abbrev Resolver (σ K : Type) := Statistic K → ℤ → Py σ (Option (List K))

/-- `TestResult`, `hypothesis_testing/model.py` 12-20. -/
structure TestResult (K : Type) where
  statistic : K
  pValue : Option K
  criticalValue : Option (CriticalValue K)
  rejected : Bool
  significanceLevel : K
deriving DecidableEq

/-- `PValueDecisionMethod.decide`, `goodness_of_fit_test.py` 30-61. -/
def pValueDecide {σ : Type} (resolver : Resolver σ K) (st : Statistic K) (value α : K) (size : ℤ) :
    Py σ (TestResult K) := do
  let limit ← resolver st size
  let factory := getConcreteFactory st.alternative
  match limit with
  | none => throw .valueError
  | some L =>
    let p ← liftM (factory.pValue L value)
    return { statistic := value, significanceLevel := α, pValue := some p, criticalValue := none,
             rejected := decide (p ≤ α) }

/-- `CriticalValueDecisionMethod.decide`, `goodness_of_fit_test.py` 80-112. -/
def criticalValueDecide {σ : Type} (resolver : Resolver σ K) (st : Statistic K) (value α : K) (size : ℤ) :
    Py σ (TestResult K) := do
  let limit ← resolver st size
  let factory := getConcreteFactory st.alternative
  match limit with
  | none => throw .valueError
  | some L =>
    let cv ← liftM (factory.criticalValue L α)
    let region ← liftM (factory.criticalArea cv)
    return { statistic := value, significanceLevel := α, pValue := none, criticalValue := some cv,
             rejected := !(region.contains value) }

/-- The two decision methods (`goodness_of_fit_test.py` 14-112) with their resolver. -/
inductive DecisionMethod (σ K : Type) where
  | pValue (resolver : Resolver σ K)
  | criticalValue (resolver : Resolver σ K)

/-- `method.decide`. -/
def DecisionMethod.decide {σ : Type} (m : DecisionMethod σ K) (st : Statistic K) (value α : K)
    (size : ℤ) : Py σ (TestResult K) :=
  match m with
  | .pValue r => pValueDecide r st value α size
  | .criticalValue r => criticalValueDecide r st value α size

/-- `GoodnessOfFitTest.test`, `goodness_of_fit_test.py` 128-147, for a given method: the
statistic is executed first, then the method decides for `len(rvs)`. -/
def gofTest {σ : Type} (st : Statistic K) (rvs : List K) (α : K) (method : DecisionMethod σ K) :
    Py σ (TestResult K) := do
  let value ← liftM (st.execute rvs)
  method.decide st value α (rvs.length : ℤ)

end Pysatl.Decision
