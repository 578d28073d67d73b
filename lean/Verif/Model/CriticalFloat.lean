import Verif.Model.DecisionFloat

/-!
# Model of the critical-value method with the rounding of every operation

The critical value calculators and `CriticalValueDecisionMethod.decide` of
`Verif/Model/Decision.lean` over the real numbers, with every arithmetic operation followed by
a rounding function `fl`.  `np.quantile` is modelled step by step as numpy computes it.
-/

namespace Pysatl.Decision.Rounded

variable (fl : ℝ → ℝ)

/-- numpy's `_lerp(a, b, t)`, by which `np.quantile` interpolates: `a + (b - a) * t`, overwritten
by `b - (b - a) * (1 - t)` where `t >= 0.5`. -/
noncomputable def lerp (a b t : ℝ) : ℝ :=
  let d := fl (b - a)
  if 1 / 2 ≤ t then fl (b - fl (d * fl (1 - t))) else fl (a + fl (d * t))

/-- `np.quantile(v, q)` for an increasing list `v`, default method `linear`, used at
`critical_value_calculator.py` 29, 51, 74, 75: the virtual index is `(len v - 1) * q`; at or
above the last index numpy takes index -1 twice (and the weight `h - (-1)`), otherwise the
values at the integer part and at its successor with the fractional part as weight.
Simplification: the behaviour on an empty list is not modelled. -/
noncomputable def npQuantile (v : List ℝ) (q : ℝ) : Except PyErr ℝ :=
  if 0 ≤ q ∧ q ≤ 1 then
    let h := fl (((v.length - 1 : ℕ) : ℝ) * q)
    if ((v.length - 1 : ℕ) : ℝ) ≤ h then
      match v[v.length - 1]? with
      | some a => .ok (lerp fl a a (fl (h + 1)))
      | none => .error .indexError
    else
      match v[⌊h⌋₊]?, v[⌊h⌋₊ + 1]? with
      | some a, some b => .ok (lerp fl a b (fl (h - (⌊h⌋₊ : ℝ))))
      | _, _ => .error .indexError
  else .error .valueError

/-- `LeftCriticalValueCalculator.calculate`, `critical_value_calculator.py` 16-29. -/
noncomputable def leftCriticalValue (L : List ℝ) (α : ℝ) : Except PyErr ℝ :=
  npQuantile fl (ecdfQuantiles L) α

/-- `RightCriticalValueCalculator.calculate`, `critical_value_calculator.py` 38-51. -/
noncomputable def rightCriticalValue (L : List ℝ) (α : ℝ) : Except PyErr ℝ :=
  npQuantile fl (ecdfQuantiles L) (fl (1 - α))

/-- `TwoSidedCriticalValueCalculator.calculate`, `critical_value_calculator.py` 60-77. -/
noncomputable def twoSidedCriticalValue (L : List ℝ) (α : ℝ) : Except PyErr (ℝ × ℝ) := do
  let sl := fl (α / 2)
  let left ← npQuantile fl (ecdfQuantiles L) sl
  let right ← npQuantile fl (ecdfQuantiles L) (fl (1 - sl))
  return (left, right)

/-- `get_critical_value_calculator().calculate`, `alternative_factories.py` 31-37, 65-71,
99-105. -/
noncomputable def criticalValue (f : Factory) (L : List ℝ) (α : ℝ) : Except PyErr (CriticalValue ℝ) :=
  match f with
  | .left => do return .one (← leftCriticalValue fl L α)
  | .right => do return .one (← rightCriticalValue fl L α)
  | .twoSided => do
    let (l, r) ← twoSidedCriticalValue fl L α
    return .two l r

/-- `CriticalValueDecisionMethod.decide`, `goodness_of_fit_test.py` 80-112. -/
noncomputable def criticalValueDecide {σ : Type} (resolver : Resolver σ ℝ) (st : Statistic ℝ)
    (value α : ℝ) (size : ℤ) : Py σ (TestResult ℝ) := do
  let limit ← resolver st size
  let factory := getConcreteFactory st.alternative
  match limit with
  | none => throw .valueError
  | some L =>
    let cv ← liftM (criticalValue fl factory L α)
    let region ← liftM (factory.criticalArea cv)
    return { statistic := value, significanceLevel := α, pValue := none, criticalValue := some cv,
             rejected := !(region.contains value) }

end Pysatl.Decision.Rounded
