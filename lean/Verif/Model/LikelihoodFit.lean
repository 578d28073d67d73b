import Verif.Model.Likelihood
import Mathlib.Analysis.SpecialFunctions.Gamma.Basic

/-!
# Model of the likelihood functions that call `fit`

`/repo/src/pysatl_criterion/estimation/maximum_likelihood/function_for_maximum_likelihood.py` 180-315.

`fit` stands for the numerical maximiser of `scipy.stats`: it returns the free parameters (the code fixes `loc = 0` for
gamma, chi-squared and Fisher and also `scale = 1` for beta; the others are free).  Theorems state what they assume of
it.  The log densities are those of the scipy sources inside the support.  Numbers are real.
-/

namespace Pysatl.Likelihood

/-- `np.any(dataArray <= 0)`. -/
noncomputable def anyNonpos (d : List ℝ) : Bool := d.any fun x => decide (x ≤ 0)

/-- `np.all(dataArray == dataArray[0])`: `IndexError` on an empty array. -/
noncomputable def allEqualFirst (d : List ℝ) : Except PyErr Bool :=
  match d with
  | [] => .error .indexError
  | x :: _ => .ok (d.all fun y => decide (y = x))

/-- `np.exp(np.sum(logpdf(dataArray)))`. -/
noncomputable def expSum (logpdf : ℝ → ℝ) (d : List ℝ) : Num := ((Real.exp (d.map logpdf).sum : ℝ) : Num)

/-- `rv_continuous.logpdf` with `loc` and `scale`. -/
noncomputable def locScale (std : ℝ → ℝ) (loc scale x : ℝ) : ℝ := std ((x - loc) / scale) - Real.log scale

/-- `scipy.stats.gamma._logpdf`. -/
noncomputable def gammaLogpdf (a x : ℝ) : ℝ := (a - 1) * Real.log x - x - Real.log (Real.Gamma a)

/-- `likelihood_function_gamma`, 181-198; `fit` returns shape and scale. -/
noncomputable def gamma (fit : List ℝ → ℝ × ℝ) (d : List ℝ) : Except PyErr Num := do
  if anyNonpos d then return 0
  if ← allEqualFirst d then return 0
  let (shape, scale) := fit d
  return expSum (locScale (gammaLogpdf shape) 0 scale) d

/-- `likelihood_function_beta`, 202-229; `fit` returns the two shapes. -/
noncomputable def beta (fit : List ℝ → ℝ × ℝ) (d : List ℝ) : Except PyErr Num := do
  if d.length = 0 then return 0
  if d.any fun x => decide (x ≤ 0) || decide (1 ≤ x) then return 0
  if ← allEqualFirst d then return 0
  let (alpha, betaParam) := fit d
  let n : ℝ := d.length
  return ((Real.exp (n * (Real.log (Real.Gamma (alpha + betaParam)) - Real.log (Real.Gamma alpha) -
      Real.log (Real.Gamma betaParam)) +
    (alpha - 1) * (d.map Real.log).sum + (betaParam - 1) * (d.map fun x => Real.log (1 - x)).sum) : ℝ) : Num)

/-- `scipy.stats.cauchy.logpdf` without location and scale. -/
noncomputable def cauchyLogpdf (x : ℝ) : ℝ := Real.log (1 / Real.pi / (1 + x * x))

/-- `likelihood_function_cauchy`, 233-258; `fit` returns location and scale. -/
noncomputable def cauchy (fit : List ℝ → ℝ × ℝ) (d : List ℝ) : Except PyErr Num := do
  if ← allEqualFirst d then return 0
  let (loc, scale) := fit d
  if scale ≤ 0 then return 0
  return expSum (locScale cauchyLogpdf loc scale) d

/-- `scipy.stats.chi2._logpdf`. -/
noncomputable def chi2Logpdf (df x : ℝ) : ℝ :=
  (df / 2 - 1) * Real.log x - x / 2 - Real.log (Real.Gamma (df / 2)) - Real.log 2 * df / 2

/-- `likelihood_function_chi_squared`, 262-279; `fit` returns degrees of freedom and scale. -/
noncomputable def chiSquared (fit : List ℝ → ℝ × ℝ) (d : List ℝ) : Except PyErr Num := do
  if anyNonpos d then return 0
  let (df, scale) := fit d
  return expSum (locScale (chi2Logpdf df) 0 scale) d

/-- `scipy.stats.t._logpdf`. -/
noncomputable def tLogpdf (df x : ℝ) : ℝ :=
  Real.log (Real.Gamma ((df + 1) / 2)) - Real.log (Real.Gamma (df / 2)) - 1 / 2 * Real.log (df * Real.pi) -
    (df + 1) / 2 * Real.log (1 + x * x / df)

/-- `likelihood_function_t_distribution`, 283-297; `fit` returns degrees of freedom, location and scale. -/
noncomputable def tDistribution (fit : List ℝ → ℝ × ℝ × ℝ) (d : List ℝ) : Except PyErr Num := do
  if ← allEqualFirst d then return 0
  let (df, loc, scale) := fit d
  return expSum (locScale (tLogpdf df) loc scale) d

/-- `scipy.stats.f._logpdf`; the logarithm of the beta function by its definition. -/
noncomputable def fLogpdf (dfn dfd x : ℝ) : ℝ :=
  dfd / 2 * Real.log dfd + dfn / 2 * Real.log dfn + (dfn / 2 - 1) * Real.log x -
    ((dfn + dfd) / 2 * Real.log (dfd + dfn * x) +
      (Real.log (Real.Gamma (dfn / 2)) + Real.log (Real.Gamma (dfd / 2)) - Real.log (Real.Gamma ((dfn + dfd) / 2))))

/-- `likelihood_function_fisher`, 301-315; `fit` returns the degrees of freedom and the scale. -/
noncomputable def fisher (fit : List ℝ → ℝ × ℝ × ℝ) (d : List ℝ) : Except PyErr Num := do
  if anyNonpos d then return 0
  if ← allEqualFirst d then return 0
  let (dfn, dfd, scale) := fit d
  return expSum (locScale (fLogpdf dfn dfd) 0 scale) d

end Pysatl.Likelihood
