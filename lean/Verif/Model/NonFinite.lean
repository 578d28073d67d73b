import Verif.Model.Decision
import Verif.Model.MultipleTesting
import Verif.Model.Normal

/-!
# Model of decisions on values that are not finite numbers

`/repo/src/pysatl_criterion/hypothesis_testing/{p_value,critical_values,goodness_of_fit_test,
multiple_testing}` once more, with the infinities and NaN among the numbers.  `Verif.Model.Decision`
and `Verif.Model.MultipleTesting` describe what happens to finite numbers; this file says what
Python, numpy and scipy do with the others before the finite part is reached.  Still without
rounding.
-/

namespace Pysatl.NonFinite

open Pysatl.Decision

/-- A Python or numpy float: a finite number, an infinity or NaN. -/
inductive Num (K : Type) where
  | fin (x : K)
  | posInf
  | negInf
  | nan
deriving DecidableEq

variable {K : Type}

/-- `a <= b` of Python and numpy: false as soon as one side is NaN. -/
def Num.le [LinearOrder K] : Num K → Num K → Bool
  | .nan, _ => false
  | _, .nan => false
  | .negInf, _ => true
  | _, .posInf => true
  | .fin x, .fin y => decide (x ≤ y)
  | _, _ => false

/-- `a < b`. -/
def Num.lt [LinearOrder K] : Num K → Num K → Bool
  | .nan, _ => false
  | _, .nan => false
  | .negInf, .negInf => false
  | .negInf, _ => true
  | .posInf, _ => false
  | .fin _, .posInf => true
  | .fin _, .negInf => false
  | .fin x, .fin y => decide (x < y)

/-- `scipy.stats.ecdf(L)` wraps the sample in `CensoredData`, whose validation raises `ValueError`
when the sample contains NaN or an infinity: `p_value_calculator.py` 25, 48, 71 and
`critical_value_calculator.py` 28, 50, 72. -/
def finiteValues : List (Num K) → Except PyErr (List K)
  | [] => .ok []
  | .fin x :: rest => do
    let l ← finiteValues rest
    return x :: l
  | _ :: _ => .error .valueError

variable [Field K] [LinearOrder K] [FloorSemiring K]

/-- `float(scipy.stats.ecdf(L).cdf.evaluate(s))`, `p_value_calculator.py` 25-26, 48-49, 71-72.
scipy looks the value up with `np.searchsorted`, for which NaN comes after every number. -/
def ecdfEvaluate (L : List (Num K)) (s : Num K) : Except PyErr K := do
  let l ← finiteValues L
  match s with
  | .fin x => Decision.ecdfEvaluate l x
  | .negInf => if l.length = 0 then .error .valueError else .ok 0
  | .posInf | .nan => if l.length = 0 then .error .valueError else .ok 1

/-- The three p-value calculators, `p_value_calculator.py` 13-27, 36-50, 59-73, chosen by the
factory (`alternative_factories.py` 40-46, 74-80, 108-114). -/
def pValue (f : Factory) (L : List (Num K)) (s : Num K) : Except PyErr K := do
  let c ← ecdfEvaluate L s
  match f with
  | .left => return c
  | .right => return 1 - c
  | .twoSided => return 2 * min c (1 - c)

/-- The three critical value calculators, `critical_value_calculator.py` 16-29, 38-51, 60-77;
`np.quantile` raises `ValueError` for a level that is NaN or infinite. -/
def criticalValue (f : Factory) (L : List (Num K)) (α : Num K) : Except PyErr (CriticalValue K) := do
  let l ← finiteValues L
  match α with
  | .fin a => f.criticalValue l a
  | _ => .error .valueError

/-- `contains`, `critical_areas.py` 17-24, 38-45, 61-68. -/
def contains : CriticalArea K → Num K → Bool
  | .left cv, value => (Num.fin cv).le value
  | .right cv, value => value.le (.fin cv)
  | .twoSided l r, value => (Num.fin l).le value && value.le (.fin r)

/-- `CriticalValue` as it is reported. -/
def report : CriticalValue K → CriticalValue (Num K)
  | .one c => .one (.fin c)
  | .two a b => .two (.fin a) (.fin b)

/-- `PValueDecisionMethod.decide`, `goodness_of_fit_test.py` 30-61. -/
def pValueDecide {σ : Type} (resolver : Resolver σ (Num K)) (st : Statistic (Num K)) (value α : Num K)
    (size : ℤ) : Py σ (TestResult (Num K)) := do
  let limit ← resolver st size
  match limit with
  | none => throw .valueError
  | some L =>
    let p ← liftM (pValue (getConcreteFactory st.alternative) L value)
    return { statistic := value, significanceLevel := α, pValue := some (.fin p),
             criticalValue := none, rejected := (Num.fin p).le α }

/-- `CriticalValueDecisionMethod.decide`, `goodness_of_fit_test.py` 80-112. -/
def criticalValueDecide {σ : Type} (resolver : Resolver σ (Num K)) (st : Statistic (Num K))
    (value α : Num K) (size : ℤ) : Py σ (TestResult (Num K)) := do
  let limit ← resolver st size
  let factory := getConcreteFactory st.alternative
  match limit with
  | none => throw .valueError
  | some L =>
    let cv ← liftM (criticalValue factory L α)
    let region ← liftM (factory.criticalArea cv)
    return { statistic := value, significanceLevel := α, pValue := none,
             criticalValue := some (report cv), rejected := !(contains region value) }

/-- `method.decide`. -/
def decide {σ : Type} (m : DecisionMethod σ (Num K)) (st : Statistic (Num K)) (value α : Num K)
    (size : ℤ) : Py σ (TestResult (Num K)) :=
  match m with
  | .pValue r => pValueDecide r st value α size
  | .criticalValue r => criticalValueDecide r st value α size

/-- `GoodnessOfFitTest.test`, `goodness_of_fit_test.py` 128-147. -/
def gofTest {σ : Type} (st : Statistic (Num K)) (rvs : List (Num K)) (α : Num K)
    (method : DecisionMethod σ (Num K)) : Py σ (TestResult (Num K)) := do
  let value ← liftM (st.execute rvs)
  decide method st value α (rvs.length : ℤ)

/-! ### Multiple testing -/

/-- `_validate_p_values`, `abstract_multiple_testing.py` 10-17:
`all(0 <= x <= 1 for x in p_values)`. -/
def validatePValues (p : List (Num K)) : Except PyErr Unit :=
  if p.all (fun x => (Num.fin 0).le x && x.le (.fin 1)) then .ok () else .error .valueError

/-- `test`, `abstract_multiple_testing.py` 20-31.  After the validation the p-values are finite
numbers (`finiteValues` cannot fail), which `adjust` of `Verif.Model.MultipleTesting` treats; the
threshold may be any float. -/
noncomputable def test (proc : MultipleTesting.Procedure) (p : List (Num ℝ)) (threshold : Num ℝ) :
    Except PyErr (List Bool × List ℝ) := do
  validatePValues p
  let l ← finiteValues p
  let adjusted ← MultipleTesting.adjust proc l
  return (adjusted.map (fun x => (Num.fin x).lt threshold), adjusted)

/-! ### A statistic that can be NaN -/

/-- `JBNormalityGofStatistic.execute_statistic`, `normal.py` 290-304, on finite numbers:
`scipy.stats.skew` and `kurtosis` of a sample without spread are NaN, and so is the sum. -/
noncomputable def jarqueBera (rvs : List (Num ℝ)) : Except PyErr (Num ℝ) :=
  match finiteValues rvs with
  | .error _ => .ok .nan
  | .ok xs =>
    if xs.length ≠ 0 ∧ Normal.moment 2 xs = 0 then .ok .nan
    else (Normal.jarqueBera xs).map .fin

end Pysatl.NonFinite
