import Verif.Model.Decision
import Mathlib.Analysis.SpecialFunctions.Exp
import Mathlib.Analysis.SpecialFunctions.Pow.Real
import Mathlib.Data.Real.Sqrt

/-!
# Model of the distribution registry: descriptors, generators and what they sample

`/repo/src/pysatl_criterion/distribution/*.py`, `generator/*.py`, `core/distributions/*.py`,
`utils/{generator,distribution}.py`.

Samplers are modelled by the scipy distribution they draw from (name, shape parameters,
`loc`, `scale`), not by a random stream.  Parameters are real numbers.
-/

namespace Pysatl.Gen

open Pysatl.Decision

/-- `DistributionType`, `distribution/distribution_type.py` 27-55. -/
inductive DistributionType where
  | normal | exponential | weibull | uniform | student | gamma | beta | logNormal | cauchy
  | chi2 | gompertz | gumbel | invGauss | laplace | loConNormal | logistic | mixConNormal
  | rice | scaleConNormal | truncNormal | tukey
  deriving DecidableEq, Repr

/-- The members of the enum in definition order, `distribution/distribution_type.py` 35-55
(`DistributionType.list`, 69-76, returns their string values). -/
def DistributionType.all : List DistributionType :=
  [.normal, .exponential, .weibull, .uniform, .student, .gamma, .beta, .logNormal, .cauchy,
   .chi2, .gompertz, .gumbel, .invGauss, .laplace, .loConNormal, .logistic, .mixConNormal,
   .rice, .scaleConNormal, .truncNormal, .tukey]

/-- The string values, `distribution/distribution_type.py` 35-55. -/
def DistributionType.value : DistributionType → String
  | .normal => "normal" | .exponential => "exponential" | .weibull => "weibull"
  | .uniform => "uniform" | .student => "student" | .gamma => "gamma" | .beta => "beta"
  | .logNormal => "log_normal" | .cauchy => "cauchy" | .chi2 => "chi_2"
  | .gompertz => "gompertz" | .gumbel => "gumbel" | .invGauss => "inv_gauss"
  | .laplace => "laplace" | .loConNormal => "lo_con_normal" | .logistic => "logistic"
  | .mixConNormal => "mix_con_normal" | .rice => "rice"
  | .scaleConNormal => "scale_con_normal" | .truncNormal => "trunc_normal" | .tukey => "tukey"

/-- A call of a `scipy.stats` distribution: its name, shape parameters, `loc` and `scale`
(scipy's defaults are `loc=0`, `scale=1`). -/
@[ext] structure Scipy where
  name : String
  shapes : List ℝ := []
  loc : ℝ := 0
  scale : ℝ := 1

/-- What a generator draws each observation from: one scipy distribution, or the first with
probability `p` and the second otherwise (`np.random.choice(np.arange(2), p=[p, 1 - p])`). -/
inductive Law where
  | plain (d : Scipy)
  | mixture (p : ℝ) (d₁ d₂ : Scipy)

/-- Keyword arguments / attribute dictionaries. -/
abbrev Kw := List (String × ℝ)

/-- Read an attribute (0 if absent: never reached, every law below reads only attributes set
by its constructor). -/
noncomputable def Kw.get (kw : Kw) (n : String) : ℝ := (kw.lookup n).getD 0

/-- A concrete subclass of `AbstractRVSGenerator`: its `distribution_type()`, its constructor
parameters with their defaults (`none` when there is no default), and the law that
`generate` samples given the attributes. -/
structure GeneratorClass where
  cls : String
  dist : DistributionType
  params : List (String × Option ℝ)
  law : Kw → Law

/-- `cls(**kwargs)`: parameters not given take their default, a parameter without default
raises `TypeError`, unknown keywords land in `**kwargs` and are dropped
(`generator/model.py` 23-25 and every `__init__` in `generator/generators.py`). -/
def GeneratorClass.construct (g : GeneratorClass) (kwargs : Kw) : Except PyErr Kw :=
  g.params.mapM fun p =>
    match kwargs.lookup p.1 with
    | some v => .ok (p.1, v)
    | none =>
      match p.2 with
      | some d => .ok (p.1, d)
      | none => .error .typeError

/-- `generator/generators.py` 103-138, `core/distributions/beta.py` 44. -/
noncomputable def betaGenerator : GeneratorClass :=
  ⟨"BetaRVSGenerator", .beta, [("a", some 1), ("b", some 1)],
   fun k => .plain { name := "beta", shapes := [k.get "a", k.get "b"] }⟩

/-- `generator/generators.py` 141-176, `core/distributions/cauchy.py` 45. -/
noncomputable def cauchyGenerator : GeneratorClass :=
  ⟨"CauchyRVSGenerator", .cauchy, [("t", none), ("s", none)],
   fun k => .plain { name := "cauchy", loc := k.get "t", scale := k.get "s" }⟩

/-- `generator/generators.py` 179-214, `core/distributions/laplace.py` 46. -/
noncomputable def laplaceGenerator : GeneratorClass :=
  ⟨"LaplaceRVSGenerator", .laplace, [("t", none), ("s", none)],
   fun k => .plain { name := "laplace", loc := k.get "t", scale := k.get "s" }⟩

/-- `generator/generators.py` 217-252, `core/distributions/logistic.py` 46. -/
noncomputable def logisticGenerator : GeneratorClass :=
  ⟨"LogisticRVSGenerator", .logistic, [("t", none), ("s", none)],
   fun k => .plain { name := "logistic", loc := k.get "t", scale := k.get "s" }⟩

/-- `generator/generators.py` 255-287, `core/distributions/student.py` 42. -/
noncomputable def studentGenerator : GeneratorClass :=
  ⟨"TRVSGenerator", .student, [("df", none)],
   fun k => .plain { name := "t", shapes := [k.get "df"] }⟩

/-- `generator/generators.py` 290-322, `core/distributions/tukey.py` 40. -/
noncomputable def tukeyGenerator : GeneratorClass :=
  ⟨"TukeyRVSGenerator", .tukey, [("lam", none)],
   fun k => .plain { name := "tukeylambda", shapes := [k.get "lam"] }⟩

/-- `generator/generators.py` 325-360, `core/distributions/lognormal.py` 47-48. -/
noncomputable def lognormGenerator : GeneratorClass :=
  ⟨"LognormGenerator", .logNormal, [("s", some 1), ("mu", some 0)],
   fun k => .plain { name := "lognorm", shapes := [k.get "s"], scale := Real.exp (k.get "mu") }⟩

/-- `generator/generators.py` 363-398, `core/distributions/gamma.py` 46-47. -/
noncomputable def gammaGenerator : GeneratorClass :=
  ⟨"GammaGenerator", .gamma, [("alfa", some 1), ("beta", some 1)],
   fun k => .plain { name := "gamma", shapes := [k.get "alfa"], scale := 1 / k.get "beta" }⟩

/-- `generator/generators.py` 401-444, `core/distributions/truncnormal.py` 50. -/
noncomputable def truncnormGenerator : GeneratorClass :=
  ⟨"TruncnormGenerator", .truncNormal,
   [("mean", some 0), ("var", some 1), ("a", some (-10)), ("b", some 10)],
   fun k => .plain { name := "truncnorm", shapes := [k.get "a", k.get "b"],
                     loc := k.get "mean", scale := √(k.get "var") }⟩

/-- `generator/generators.py` 447-479, `core/distributions/chi2.py` 42. -/
noncomputable def chi2Generator : GeneratorClass :=
  ⟨"Chi2Generator", .chi2, [("df", some 2)],
   fun k => .plain { name := "chi2", shapes := [k.get "df"] }⟩

/-- `generator/generators.py` 482-517, `core/distributions/gumbel.py` 45. -/
noncomputable def gumbelGenerator : GeneratorClass :=
  ⟨"GumbelGenerator", .gumbel, [("mu", some 0), ("beta", some 1)],
   fun k => .plain { name := "gumbel_r", loc := k.get "mu", scale := k.get "beta" }⟩

/-- `generator/generators.py` 520-555, `core/distributions/weibull.py` 37. -/
noncomputable def weibullGenerator : GeneratorClass :=
  ⟨"WeibullGenerator", .weibull, [("a", some 1), ("k", some 5)],
   fun k => .plain { name := "exponweib", shapes := [k.get "a", k.get "k"] }⟩

/-- `generator/generators.py` 558-593, `core/distributions/lo_con_norm.py` 44-54. -/
noncomputable def loConNormGenerator : GeneratorClass :=
  ⟨"LoConNormGenerator", .loConNormal, [("p", some (1 / 2)), ("a", some 0)],
   fun k => .mixture (k.get "p") { name := "norm", loc := k.get "a" } { name := "norm" }⟩

/-- `generator/generators.py` 596-631, `core/distributions/scale_con_norm.py` 46-56. -/
noncomputable def scConNormGenerator : GeneratorClass :=
  ⟨"ScConNormGenerator", .scaleConNormal, [("p", some (1 / 2)), ("b", some 1)],
   fun k => .mixture (k.get "p") { name := "norm", scale := k.get "b" } { name := "norm" }⟩

/-- `generator/generators.py` 634-672, `core/distributions/mix_con_norm.py` 47-57. -/
noncomputable def mixConNormGenerator : GeneratorClass :=
  ⟨"MixConNormGenerator", .mixConNormal, [("p", some (1 / 2)), ("a", some 0), ("b", some 1)],
   fun k => .mixture (k.get "p") { name := "norm", loc := k.get "a", scale := k.get "b" }
     { name := "norm" }⟩

/-- `generator/generators.py` 675-707, `core/distributions/expon.py` 43-44. -/
noncomputable def exponentialGenerator : GeneratorClass :=
  ⟨"ExponentialGenerator", .exponential, [("lam", some (1 / 2))],
   fun k => .plain { name := "expon", scale := 1 / k.get "lam" }⟩

/-- `generator/generators.py` 710-745, `core/distributions/invgauss.py` 47. -/
noncomputable def invGaussGenerator : GeneratorClass :=
  ⟨"InvGaussGenerator", .invGauss, [("mu", some 0), ("lam", some 1)],
   fun k => .plain { name := "invgauss", shapes := [k.get "mu"], scale := k.get "lam" }⟩

/-- `generator/generators.py` 748-783, `core/distributions/rice.py` 46. -/
noncomputable def riceGenerator : GeneratorClass :=
  ⟨"RiceGenerator", .rice, [("nu", some 0), ("sigma", some 1)],
   fun k => .plain { name := "rice", shapes := [k.get "nu"], scale := k.get "sigma" }⟩

/-- `generator/generators.py` 786-821, `core/distributions/gompertz.py` 45. -/
noncomputable def gompertzGenerator : GeneratorClass :=
  ⟨"GompertzGenerator", .gompertz, [("eta", some 0), ("b", some 1)],
   fun k => .plain { name := "gompertz", shapes := [k.get "eta"], scale := k.get "b" }⟩

/-- `generator/generators.py` 824-859, `core/distributions/norm.py` 44. -/
noncomputable def normalGenerator : GeneratorClass :=
  ⟨"NormalGenerator", .normal, [("mean", some 0), ("var", some 1)],
   fun k => .plain { name := "norm", loc := k.get "mean", scale := √(k.get "var") }⟩

/-- `generator/generators.py` 862-897, `core/distributions/uniform.py` 43-44. -/
noncomputable def uniformGenerator : GeneratorClass :=
  ⟨"UniformGenerator", .uniform, [("a", some 0), ("b", some 1)],
   fun k => .plain { name := "uniform", loc := k.get "a", scale := k.get "b" - k.get "a" }⟩

/-- The classes defined in `generator/generators.py`, all of them concrete direct subclasses
of `AbstractRVSGenerator`. -/
noncomputable def generatorClasses : List GeneratorClass :=
  [betaGenerator, cauchyGenerator, laplaceGenerator, logisticGenerator, studentGenerator,
   tukeyGenerator, lognormGenerator, gammaGenerator, truncnormGenerator, chi2Generator,
   gumbelGenerator, weibullGenerator, loConNormGenerator, scConNormGenerator,
   mixConNormGenerator, exponentialGenerator, invGaussGenerator, riceGenerator,
   gompertzGenerator, normalGenerator, uniformGenerator]

/-- An initialised generator object: its `parameters()` and the law it samples. -/
structure Generator where
  cls : String
  parameters : Kw
  law : Law

/-- `get_available_generator`, `utils/generator.py` 11-30: the first class with the requested
type, in the iteration order `classes` of the Python set of subclasses (so the order is
arbitrary); `StopIteration` when there is none. -/
def getAvailableGenerator (classes : List GeneratorClass) (d : DistributionType)
    (params : Option Kw) : Except PyErr Generator :=
  match classes.find? (fun g => g.dist = d) with
  | none => .error .stopIteration
  | some g => do
    let attrs ← g.construct (params.getD [])
    return ⟨g.cls, attrs, g.law attrs⟩

/-! ### Descriptors -/

/-- The three validators, `distribution/validator.py` 43-88. -/
inductive Validator where
  | positive | nonNegative | probability
  deriving DecidableEq, Repr

/-- `Validator.validate`, `distribution/validator.py` 49-56, 65-72, 81-88. -/
def Validator.validate : Validator → ℚ → Bool
  | .positive, v => decide (v > 0)
  | .nonNegative, v => decide (v ≥ 0)
  | .probability, v => decide (0 ≤ v ∧ v ≤ 1)

/-- `DistributionParameterDescriptor`, `distribution/distribution_type.py` 8-24 (display name
and description omitted). -/
structure ParamDescriptor where
  name : String
  default : ℚ
  validator : Option Validator := none
  deriving DecidableEq, Repr

/-- A concrete subclass of `DistributionDescriptor`: `type()` and `parameters()`. -/
structure DescriptorClass where
  type : DistributionType
  parameters : List ParamDescriptor
  deriving DecidableEq, Repr

/-- The subclasses of `DistributionDescriptor` in definition order,
`distribution/distributions.py` 48-683. -/
def descriptorClasses : List DescriptorClass :=
  [⟨.normal, [⟨"mean", 0, none⟩, ⟨"var", 1, some .positive⟩]⟩,
   ⟨.exponential, [⟨"lam", 1, some .positive⟩]⟩,
   ⟨.weibull, [⟨"a", 1, some .positive⟩, ⟨"k", 5, some .positive⟩]⟩,
   ⟨.uniform, [⟨"a", 0, none⟩, ⟨"b", 1, none⟩]⟩,
   ⟨.student, [⟨"df", 2, some .positive⟩]⟩,
   ⟨.gamma, [⟨"alfa", 1, some .positive⟩, ⟨"beta", 1, some .positive⟩]⟩,
   ⟨.beta, [⟨"a", 1, some .positive⟩, ⟨"b", 1, some .positive⟩]⟩,
   ⟨.logNormal, [⟨"mean", 0, none⟩, ⟨"var", 1, some .positive⟩]⟩,
   ⟨.cauchy, [⟨"t", 1 / 2, none⟩, ⟨"s", 1 / 2, some .positive⟩]⟩,
   ⟨.chi2, [⟨"df", 2, some .positive⟩]⟩,
   ⟨.gompertz, [⟨"eta", 1, some .positive⟩, ⟨"b", 1, some .positive⟩]⟩,
   ⟨.gumbel, [⟨"mu", 0, none⟩, ⟨"beta", 1, some .positive⟩]⟩,
   ⟨.invGauss, [⟨"mu", 0, some .positive⟩, ⟨"lam", 1, some .positive⟩]⟩,
   ⟨.laplace, [⟨"t", 0, none⟩, ⟨"s", 1, some .positive⟩]⟩,
   ⟨.loConNormal, [⟨"p", 1 / 2, some .probability⟩, ⟨"a", 0, none⟩]⟩,
   ⟨.mixConNormal, [⟨"p", 1 / 2, some .probability⟩, ⟨"a", 0, none⟩, ⟨"b", 1, some .positive⟩]⟩,
   ⟨.scaleConNormal, [⟨"p", 1 / 2, some .probability⟩, ⟨"b", 1, some .positive⟩]⟩,
   ⟨.truncNormal, [⟨"mean", 0, none⟩, ⟨"var", 1, some .positive⟩, ⟨"a", -10, none⟩,
     ⟨"b", 10, none⟩]⟩,
   ⟨.logistic, [⟨"t", 0, none⟩, ⟨"s", 1, some .positive⟩]⟩,
   ⟨.rice, [⟨"nu", 0, none⟩, ⟨"sigma", 1, some .nonNegative⟩]⟩,
   ⟨.tukey, [⟨"lam", 2, none⟩]⟩]

/-- `get_available_distribution_descriptor`, `utils/distribution.py` 9-39: the first concrete
descriptor class of the requested type. -/
def getAvailableDescriptor (classes : List DescriptorClass) (d : DistributionType) :
    Except PyErr DescriptorClass :=
  match classes.find? (fun c => c.type = d) with
  | none => .error .stopIteration
  | some c => .ok c

/-! ### What the goodness-of-fit families report and compare with -/

/-- The families with goodness-of-fit statistics and their constructor parameters (for
`student` the location and scale too). -/
inductive Family where
  | normal (mean var : ℝ)
  | exponential (lam : ℝ)
  | uniform (a b : ℝ)
  | weibull (a k : ℝ)
  | gamma (α β : ℝ)
  | beta (α β : ℝ)
  | logNormal (s scale : ℝ)
  | student (df loc scale : ℝ)

/-- `distribution()` of each abstract family class: `normal.py` 48-54, `exponent.py` 59-65,
`uniform.py`, `weibull.py`, `gamma.py` 64-70, `beta.py` 50-56, `log_normal.py` 40-46,
`student.py` 39-45. -/
def Family.distribution : Family → DistributionType
  | .normal .. => .normal | .exponential .. => .exponential | .uniform .. => .uniform
  | .weibull .. => .weibull | .gamma .. => .gamma | .beta .. => .beta
  | .logNormal .. => .logNormal | .student .. => .student

/-- `hypothesis().params` of each abstract family class: `normal.py` 44, `exponent.py` 45,
`uniform.py` 33, `weibull.py` 41, `gamma.py` 60, `beta.py` 38, `log_normal.py` 36,
`student.py` 35. -/
def Family.params : Family → Kw
  | .normal mean var => [("mean", mean), ("var", var)]
  | .exponential lam => [("lam", lam)]
  | .uniform a b => [("a", a), ("b", b)]
  | .weibull a k => [("a", a), ("k", k)]
  | .gamma α β => [("alpha", α), ("beta", β)]
  | .beta α β => [("alpha", α), ("beta", β)]
  | .logNormal s scale => [("s", s), ("scale", scale)]
  | .student df _ _ => [("df", df)]

/-- The two criteria implemented by every family with a fully specified null. -/
inductive Edf where
  | kolmogorovSmirnov | cramerVonMises
  deriving DecidableEq, Repr

/-- The scipy distribution whose `cdf` the Kolmogorov-Smirnov and Cramer-von Mises statistics
evaluate at the sorted sample: `normal.py` 91, 223; `exponent.py` 158, 362; `uniform.py` 114,
197 (KS, CvM); `weibull.py` 313, 220; `gamma.py` 133, 278; `beta.py` 123, 214; `log_normal.py`
110, 149; `student.py` 115-116, 198-199 (the standardisation of the sample is the `loc` and
`scale` of the distribution). -/
noncomputable def Family.cdfUsed : Family → Edf → Scipy
  | .normal _ _, _ => { name := "norm" }
  | .exponential _, .kolmogorovSmirnov => { name := "expon" }
  | .exponential lam, .cramerVonMises => { name := "expon", scale := 1 / lam }
  | .uniform a b, _ => { name := "uniform", loc := a, scale := b - a }
  | .weibull a k, _ => { name := "exponweib", shapes := [a, k] }
  | .gamma α β, _ => { name := "gamma", shapes := [α], scale := 1 / β }
  | .beta α β, _ => { name := "beta", shapes := [α, β] }
  | .logNormal s scale, _ => { name := "lognorm", shapes := [s], scale := scale }
  | .student df loc scale, _ => { name := "t", shapes := [df], loc := loc, scale := scale }

/-- The generator used by `MonteCarloLimitDistributionResolver.resolve` for a statistic of the
family, `limit_distribution/base.py` 73-75. -/
def Family.simulator (classes : List GeneratorClass) (f : Family) : Except PyErr Generator :=
  getAvailableGenerator classes f.distribution (some f.params)

end Pysatl.Gen
