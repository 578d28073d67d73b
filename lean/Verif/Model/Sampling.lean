import Verif.Model.GeneratorLaws
import Verif.Spec.Sampling

/-!
# Model of the sampling and distribution functions of `core/distributions`

`/repo/src/pysatl_criterion/core/distributions/*.py`, called directly and with any parameters (the generator classes
of `Model/Generators` call them with their attributes).  scipy is described as in `Model/GeneratorLaws`:
`rvs` checks the shapes and `scale >= 0` and raises `ValueError`; with `scale == 0` every observation is
`loc`.  `cdf`, `pdf`, `logcdf`, `logsf` return NaN, here `none`, unless the shapes are valid and
`scale > 0`.
-/

namespace Pysatl.Gen

open MeasureTheory ProbabilityTheory
open Pysatl.Decision Pysatl.Spec

/-- `np.sqrt(var)`: NaN (`none`) for a negative number; `norm.py` 44, 80, 115, `truncnormal.py` 50. -/
noncomputable def npSqrt (v : ℝ) : Option ℝ := if v < 0 then none else some √v

/-- `1 / x` of Python numbers: `expon.py` 43, 83, `gamma.py` 46. -/
noncomputable def pyInv (x : ℝ) : Except PyErr ℝ :=
  if x = 0 then .error .zeroDivisionError else .ok (1 / x)

/-- `<name>.rvs(*shapes, loc, scale)` where the scale may be NaN, for which `scale >= 0` is false. -/
noncomputable def rvsNan (d : ℝ → Scipy) (scale : Option ℝ) : Except PyErr (Measure ℝ) :=
  match scale with
  | none => .error .valueError
  | some s => (d s).rvs

/-- The loop of `generate_lo_con_norm`, `generate_scale_con_norm`, `generate_mix_con_norm`
(`lo_con_norm.py` 44-54, `scale_con_norm.py` 46-56, `mix_con_norm.py` 47-57): in round `i` the call
`np.random.choice` returns `0` (`choice i = true`) or `1`, after checking the probabilities; the list at
the end must not be empty.  The result is the list of the laws drawn from. -/
noncomputable def mixLoop (p : ℝ) (d₁ d₂ : Scipy) (choice : ℕ → Bool) (size : ℕ) :
    Except PyErr (List (Measure ℝ)) := do
  let result ← (List.range size).mapM fun i =>
    if 0 ≤ p ∧ p ≤ 1 then (if choice i then d₁.rvs else d₂.rvs) else .error .valueError
  if result = [] then .error .valueError else return result

/-- `generate_*(size, ...)`: the laws of the observations, which are drawn independently.  `rvs` checks
its arguments also for `size=0`.  `beta.py` 44, `cauchy.py` 45, `chi2.py` 42, `expon.py` 43-44, `gamma.py`
46-47, `gompertz.py` 45, `gumbel.py` 45, `invgauss.py` 47, `laplace.py` 46, `logistic.py` 46,
`lognormal.py` 47-48, `norm.py` 44, `rice.py` 46, `student.py` 42, `truncnormal.py` 50, `tukey.py` 40,
`uniform.py` 43-44, `weibull.py` 37. -/
noncomputable def sample (c : Sampler) (choice : ℕ → Bool) (size : ℕ) :
    Except PyErr (List (Measure ℝ)) :=
  let all (m : Except PyErr (Measure ℝ)) : Except PyErr (List (Measure ℝ)) := m.map (List.replicate size)
  match c with
  | .beta a b => all { name := "beta", shapes := [a, b] : Scipy }.rvs
  | .cauchy t s => all { name := "cauchy", loc := t, scale := s : Scipy }.rvs
  | .chi2 df => all { name := "chi2", shapes := [df] : Scipy }.rvs
  | .expon lam => do
    let scale ← pyInv lam
    all { name := "expon", scale := scale : Scipy }.rvs
  | .gamma alfa beta => do
    let scale ← pyInv beta
    all { name := "gamma", shapes := [alfa], scale := scale : Scipy }.rvs
  | .gompertz eta b => all { name := "gompertz", shapes := [eta], scale := b : Scipy }.rvs
  | .gumbel mu beta => all { name := "gumbel_r", loc := mu, scale := beta : Scipy }.rvs
  | .invgauss mu lam => all { name := "invgauss", shapes := [mu], scale := lam : Scipy }.rvs
  | .laplace t s => all { name := "laplace", loc := t, scale := s : Scipy }.rvs
  | .loConNorm p a => mixLoop p { name := "norm", loc := a } { name := "norm" } choice size
  | .logistic t s => all { name := "logistic", loc := t, scale := s : Scipy }.rvs
  | .lognorm mu s => all { name := "lognorm", shapes := [s], scale := Real.exp mu : Scipy }.rvs
  | .mixConNorm p a b => mixLoop p { name := "norm", loc := a, scale := b } { name := "norm" } choice size
  | .norm mean var => all (rvsNan (fun s => { name := "norm", loc := mean, scale := s }) (npSqrt var))
  | .rice nu sigma => all { name := "rice", shapes := [nu], scale := sigma : Scipy }.rvs
  | .scaleConNorm p b => mixLoop p { name := "norm", scale := b } { name := "norm" } choice size
  | .student df => all { name := "t", shapes := [df] : Scipy }.rvs
  | .truncnorm mean var a b =>
    all (rvsNan (fun s => { name := "truncnorm", shapes := [a, b], loc := mean, scale := s }) (npSqrt var))
  | .tukey lam => all { name := "tukeylambda", shapes := [lam] : Scipy }.rvs
  | .uniform a b => all { name := "uniform", loc := a, scale := b - a : Scipy }.rvs
  | .weibull a k => all { name := "exponweib", shapes := [a, k] : Scipy }.rvs

open Classical in
/-- `scipy.stats.<name>.cdf(x, *shapes, loc, scale)` at one point. -/
noncomputable def Scipy.cdfAt (d : Scipy) (x : ℝ) : Option ℝ :=
  if d.argcheck ∧ 0 < d.scale then some (ProbabilityTheory.cdf d.standard ((x - d.loc) / d.scale)) else none

/-- `cdf_norm`, `norm.py` 47-80. -/
noncomputable def cdfNorm (x mean var : ℝ) : Option ℝ := do
  let scale ← npSqrt var
  { name := "norm", loc := mean, scale := scale : Scipy }.cdfAt x

/-- `pdf_norm`, `norm.py` 83-115: `norm.pdf(rvs, loc, scale)`, the standard density at `(x - loc) / scale`
divided by the scale. -/
noncomputable def pdfNorm (x mean var : ℝ) : Option ℝ := do
  let scale ← npSqrt var
  if 0 < scale then return gaussianPDFReal 0 1 ((x - mean) / scale) / scale else none

/-- `cdf_expon`, `expon.py` 47-84. -/
noncomputable def cdfExpon (x lam : ℝ) : Except PyErr (Option ℝ) := do
  let scale ← pyInv lam
  return { name := "expon", scale := scale : Scipy }.cdfAt x

/-- `generate_weibull_cdf`, `weibull.py` 40-63. -/
noncomputable def cdfWeibull (x a k : ℝ) : Option ℝ := { name := "exponweib", shapes := [a, k] : Scipy }.cdfAt x

/-- `generate_weibull_logcdf`, `weibull.py` 66-90: the logarithm (`-inf` at zero is not modelled). -/
noncomputable def logcdfWeibull (x a k : ℝ) : Option ℝ := (cdfWeibull x a k).map Real.log

/-- `generate_weibull_logsf`, `weibull.py` 93-120. -/
noncomputable def logsfWeibull (x a k : ℝ) : Option ℝ := (cdfWeibull x a k).map fun F => Real.log (1 - F)

end Pysatl.Gen
