import Verif.Model.Decision
import Mathlib.Data.Real.Archimedean

/-!
# Model of the p-value method with the rounding of every operation

The p-value calculators and `PValueDecisionMethod.decide` of `Verif/Model/Decision.lean` over
the real numbers, with every arithmetic operation followed by a rounding function `fl`.
-/

namespace Pysatl.Decision.Rounded

variable (fl : ℝ → ℝ)

/-- `float(scipy.stats.ecdf(L).cdf.evaluate(s))`, used at `p_value_calculator.py` 25-26, 48-49,
71-72: scipy divides the cumulated number of values by the sample size, one rounded division
of two integers. -/
noncomputable def ecdfEvaluate (L : List ℝ) (s : ℝ) : Except PyErr ℝ :=
  if L.length = 0 then .error .valueError
  else .ok (fl ((L.countP (fun x => decide (x ≤ s)) : ℕ) / (L.length : ℝ)))

/-- The three `calculate` methods of `p_value_calculator.py` 13-27, 36-50 (`1.0 - cdf_value`)
and 59-73 (`2.0 * min(cdf_value, 1.0 - cdf_value)`), by the concrete factory that selects
them. -/
noncomputable def pValue (f : Factory) (L : List ℝ) (s : ℝ) : Except PyErr ℝ := do
  let cdf ← ecdfEvaluate fl L s
  match f with
  | .left => return cdf
  | .right => return fl (1 - cdf)
  | .twoSided => return fl (2 * min cdf (fl (1 - cdf)))

/-- `PValueDecisionMethod.decide`, `goodness_of_fit_test.py` 30-61; the level is a float. -/
noncomputable def pValueDecide {σ : Type} (resolver : Resolver σ ℝ) (st : Statistic ℝ) (value α : ℝ)
    (size : ℤ) : Py σ (TestResult ℝ) := do
  let limit ← resolver st size
  let factory := getConcreteFactory st.alternative
  match limit with
  | none => throw .valueError
  | some L =>
    let p ← liftM (pValue fl factory L value)
    return { statistic := value, significanceLevel := α, pValue := some p, criticalValue := none,
             rejected := decide (p ≤ α) }

end Pysatl.Decision.Rounded
