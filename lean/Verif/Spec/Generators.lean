import Verif.Model.Generators

/-!
# Specification of the distributions the families are about

What a user means by "the null hypothesis of this statistic", in scipy's vocabulary, from the
documentation of the statistics and descriptors; independent of the generator and statistic
code.
-/

namespace Pysatl.Gen

/-- The hypothesised distribution of each family:
normal with mean and variance; exponential with rate; uniform on `[a,b]`; exponentiated
Weibull with shapes `a`, `k` (the docstrings of `core/distributions/weibull.py`); gamma with
shape and rate; beta with its two shapes; log-normal with shape `s` and `scale`; Student with
degrees of freedom, location and scale. -/
noncomputable def Family.null : Family → Scipy
  | .normal mean var => { name := "norm", loc := mean, scale := √var }
  | .exponential lam => { name := "expon", scale := 1 / lam }
  | .uniform a b => { name := "uniform", loc := a, scale := b - a }
  | .weibull a k => { name := "exponweib", shapes := [a, k] }
  | .gamma α β => { name := "gamma", shapes := [α], scale := 1 / β }
  | .beta α β => { name := "beta", shapes := [α, β] }
  | .logNormal s scale => { name := "lognorm", shapes := [s], scale := scale }
  | .student df loc scale => { name := "t", shapes := [df], loc := loc, scale := scale }

/-- scipy's location-scale convention: given the standard distribution function of each
named family, `cdf(x, shapes, loc, scale) = std(shapes)((x - loc) / scale)`. -/
noncomputable def Scipy.cdf (std : String → List ℝ → ℝ → ℝ) (d : Scipy) (x : ℝ) : ℝ :=
  std d.name d.shapes ((x - d.loc) / d.scale)

/-- Support of `scipy.stats.truncnorm(a, b, loc, scale)` according to scipy's documentation:
the standard support is `[a, b]`, then scaled and shifted. -/
def Scipy.truncnormSupport (d : Scipy) : Set ℝ :=
  match d.shapes with
  | [a, b] => {x | ∃ z, a ≤ z ∧ z ≤ b ∧ x = d.loc + d.scale * z}
  | _ => ∅

/-- Distribution function of `scipy.stats.exponweib(a, c)` according to scipy's documentation,
for positive arguments. -/
noncomputable def exponweibCdf (a c x : ℝ) : ℝ := (1 - Real.exp (-(x ^ c))) ^ a

/-- Distribution function of the Weibull distribution with scale `l` and shape `k`, for
positive arguments. -/
noncomputable def weibullCdf (l k x : ℝ) : ℝ := 1 - Real.exp (-((x / l) ^ k))

/-- Mean of `scipy.stats.invgauss(mu, loc, scale)` according to scipy's documentation. -/
def Scipy.invgaussMean (d : Scipy) : Option ℝ :=
  match d.shapes with
  | [mu] => some (d.loc + d.scale * mu)
  | _ => none

end Pysatl.Gen
