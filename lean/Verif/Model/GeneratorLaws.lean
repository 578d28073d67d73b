import Verif.Model.Generators
import Mathlib.Probability.Distributions.Gaussian.Real
import Mathlib.Probability.Distributions.Exponential
import Mathlib.Probability.Distributions.Beta
import Mathlib.Probability.Distributions.Cauchy
import Mathlib.Probability.ConditionalProbability
import Mathlib.MeasureTheory.Measure.GiryMonad
import Mathlib.MeasureTheory.Measure.Prod
import Mathlib.MeasureTheory.Constructions.Pi

/-!
# Model of sampling: the law of what `generate` returns

`/repo/src/pysatl_criterion/core/distributions/*.py` call `scipy.stats.<name>.rvs`.  The law of
each standard scipy distribution is taken from scipy's documentation (trusted: scipy itself is
not modelled); `loc` and `scale` act on it as `loc + scale * z`, and `rvs` first checks its
arguments.  Floats are real numbers.
-/

namespace Pysatl.Gen

open MeasureTheory ProbabilityTheory
open Pysatl.Decision

/-- The measure with a given real density. -/
noncomputable def ofDensity (f : ℝ → ℝ) : Measure ℝ :=
  volume.withDensity fun x => ENNReal.ofReal (f x)

/-- The standard (`loc = 0`, `scale = 1`) scipy distribution with the given name and shapes, as
documented by scipy: `norm`, `expon`, `uniform`, `cauchy`, `laplace`, `logistic`, `gumbel_r`,
`gamma`, `beta`, `chi2`, `t`, `lognorm` (`X` with `log X ~ N(0, s²)`), `exponweib`, `gompertz`,
`invgauss`, `rice` (distance from the origin to a standard bivariate normal point centred at
distance `b`), `truncnorm` (standard normal conditioned to `[a, b]`), `tukeylambda` (quantile
function `(u^λ - (1-u)^λ)/λ`, `log(u/(1-u))` for `λ = 0`). No other name is used. -/
noncomputable def Scipy.standard (d : Scipy) : Measure ℝ :=
  match d.name, d.shapes with
  | "norm", [] => gaussianReal 0 1
  | "expon", [] => ofDensity fun x => if 0 ≤ x then Real.exp (-x) else 0
  | "uniform", [] => ofDensity fun x => if 0 ≤ x ∧ x ≤ 1 then 1 else 0
  | "cauchy", [] => ofDensity fun x => 1 / (Real.pi * (1 + x ^ 2))
  | "laplace", [] => ofDensity fun x => 1 / 2 * Real.exp (-|x|)
  | "logistic", [] => ofDensity fun x => Real.exp (-x) / (1 + Real.exp (-x)) ^ 2
  | "gumbel_r", [] => ofDensity fun x => Real.exp (-(x + Real.exp (-x)))
  | "gamma", [a] => ofDensity fun x =>
      if 0 ≤ x then x ^ (a - 1) * Real.exp (-x) / Real.Gamma a else 0
  | "beta", [a, b] => ofDensity fun x =>
      if 0 < x ∧ x < 1 then Real.Gamma (a + b) * x ^ (a - 1) * (1 - x) ^ (b - 1) /
        (Real.Gamma a * Real.Gamma b) else 0
  | "chi2", [k] => ofDensity fun x =>
      if 0 ≤ x then 1 / (2 ^ (k / 2) * Real.Gamma (k / 2)) * x ^ (k / 2 - 1) * Real.exp (-x / 2)
      else 0
  | "t", [k] => ofDensity fun x =>
      Real.Gamma ((k + 1) / 2) / (√(Real.pi * k) * Real.Gamma (k / 2)) *
        (1 + x ^ 2 / k) ^ (-(k + 1) / 2)
  | "lognorm", [s] => (gaussianReal 0 (s ^ 2).toNNReal).map Real.exp
  | "exponweib", [a, c] => ofDensity fun x =>
      if 0 < x then a * c * (1 - Real.exp (-x ^ c)) ^ (a - 1) * Real.exp (-x ^ c) * x ^ (c - 1)
      else 0
  | "gompertz", [c] => ofDensity fun x =>
      if 0 ≤ x then c * Real.exp x * Real.exp (-c * (Real.exp x - 1)) else 0
  | "invgauss", [mu] => ofDensity fun x =>
      if 0 < x then 1 / √(2 * Real.pi * x ^ 3) * Real.exp (-(x - mu) ^ 2 / (2 * x * mu ^ 2))
      else 0
  | "rice", [b] => ((gaussianReal 0 1).prod (gaussianReal 0 1)).map
      fun z => √((b + z.1) ^ 2 + z.2 ^ 2)
  | "truncnorm", [a, b] => cond (gaussianReal 0 1) (Set.Icc a b)
  | "tukeylambda", [lam] => (volume.restrict (Set.Ioo (0 : ℝ) 1)).map
      fun u => if lam = 0 then Real.log (u / (1 - u)) else (u ^ lam - (1 - u) ^ lam) / lam
  | _, _ => 0

/-- scipy's `_argcheck` of the shape parameters (documented domains). -/
def Scipy.argcheck (d : Scipy) : Prop :=
  match d.name, d.shapes with
  | "norm", [] | "expon", [] | "uniform", [] | "cauchy", [] | "laplace", [] | "logistic", []
  | "gumbel_r", [] | "tukeylambda", [_] => True
  | "gamma", [a] | "chi2", [a] | "t", [a] | "lognorm", [a] | "gompertz", [a]
  | "invgauss", [a] => 0 < a
  | "beta", [a, b] | "exponweib", [a, b] => 0 < a ∧ 0 < b
  | "rice", [b] => 0 ≤ b
  | "truncnorm", [a, b] => a < b
  | _, _ => False

open Classical in
/-- `scipy.stats.<name>.rvs(*shapes, loc, scale)`, law of one observation: `ValueError` ("Domain
error in arguments") unless the shapes pass `_argcheck` and `scale >= 0`, else `loc + scale * z`
with `z` from the standard distribution. -/
noncomputable def Scipy.rvs (d : Scipy) : Except PyErr (Measure ℝ) :=
  if d.argcheck ∧ 0 ≤ d.scale then .ok (d.standard.map fun z => d.loc + d.scale * z)
  else .error .valueError

/-- `np.random.choice(np.arange(2), p=[p, 1 - p]) == 0`, for `0 ≤ p ≤ 1`. -/
noncomputable def choiceZero (p : ℝ) : Measure Bool :=
  ENNReal.ofReal p • Measure.dirac true + ENNReal.ofReal (1 - p) • Measure.dirac false

open Classical in
/-- Law of one observation of a generator. For a mixture
(`core/distributions/{lo,scale,mix}_con_norm.py`, loop body): `np.random.choice` raises
`ValueError` unless `0 ≤ p ≤ 1`; then the chosen component is drawn.  Simplification: a domain
error of a component is raised whichever component is chosen. -/
noncomputable def Law.draw : Law → Except PyErr (Measure ℝ)
  | .plain d => d.rvs
  | .mixture p d₁ d₂ =>
    if 0 ≤ p ∧ p ≤ 1 then do
      let m₁ ← d₁.rvs
      let m₂ ← d₂.rvs
      return (choiceZero p).bind fun c => if c then m₁ else m₂
    else .error .valueError

/-- `generate(size)` of a generator object: the law of the returned array.  `rvs(size=n)` draws
`n` independent observations; the mixture generators loop over `range(size)` and end with
`np.concatenate(result, axis=0)` (`mix_con_norm.py` 47-57 and its siblings), which raises
`ValueError` on the empty list. -/
noncomputable def Generator.generate (g : Generator) (n : ℕ) :
    Except PyErr (Measure (Fin n → ℝ)) :=
  match g.law, n with
  | .mixture .., 0 => .error .valueError
  | l, _ => l.draw.map fun μ => Measure.pi fun _ => μ

end Pysatl.Gen
