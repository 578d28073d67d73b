import Verif.Spec.Generators
import Mathlib.Tactic.Linarith
import Mathlib.Tactic.NormNum
import Mathlib.Tactic.FieldSimp
import Mathlib.Tactic.FinCases
import Mathlib.Data.List.Perm.Basic

/-! # C30, C68, C69, C73, C74: what is simulated, and what it is compared with -/

namespace Pysatl.Props

open Pysatl Pysatl.Gen

theorem generator_dists_nodup : (generatorClasses.map (·.dist)).Nodup := by
  simp [generatorClasses, betaGenerator, cauchyGenerator, laplaceGenerator, logisticGenerator,
    studentGenerator, tukeyGenerator, lognormGenerator, gammaGenerator, truncnormGenerator,
    chi2Generator, gumbelGenerator, weibullGenerator, loConNormGenerator, scConNormGenerator,
    mixConNormGenerator, exponentialGenerator, invGaussGenerator, riceGenerator,
    gompertzGenerator, normalGenerator, uniformGenerator]

/-- Whatever the iteration order of the set of classes, the class found for a type is the one
registered for it. -/
theorem find_generator {classes : List GeneratorClass} (hp : classes.Perm generatorClasses)
    {g : GeneratorClass} (hg : g ∈ generatorClasses) :
    classes.find? (fun c => c.dist = g.dist) = some g := by
  have hg' : g ∈ classes := hp.mem_iff.2 hg
  have hnd : (classes.map (·.dist)).Nodup := (hp.map _).nodup_iff.2 generator_dists_nodup
  have hex : (classes.find? (fun c => c.dist = g.dist)).isSome := by
    rw [List.find?_isSome]; exact ⟨g, hg', by simp⟩
  obtain ⟨c, hc⟩ := Option.isSome_iff_exists.1 hex
  have hcm := List.mem_of_find?_eq_some hc
  have hcd : c.dist = g.dist := by simpa using List.find?_some hc
  rw [hc, List.inj_on_of_nodup_map hnd hcm hg' hcd]

theorem getAvailable_eq {classes : List GeneratorClass} (hp : classes.Perm generatorClasses)
    {g : GeneratorClass} (hg : g ∈ generatorClasses) (params : Option Kw) :
    getAvailableGenerator classes g.dist params =
      (g.construct (params.getD [])).map (fun attrs => ⟨g.cls, attrs, g.law attrs⟩) := by
  unfold getAvailableGenerator
  rw [find_generator hp hg]
  dsimp only
  cases g.construct (params.getD []) <;> rfl

/-- The law simulated for each family, by computation. -/
theorem simulator_law {classes : List GeneratorClass} (hp : classes.Perm generatorClasses)
    (f : Family) : ∃ g, f.simulator classes = .ok g ∧ g.law = .plain (match f with
      | .normal mean var => { name := "norm", loc := mean, scale := √var }
      | .exponential lam => { name := "expon", scale := 1 / lam }
      | .uniform a b => { name := "uniform", loc := a, scale := b - a }
      | .weibull a k => { name := "exponweib", shapes := [a, k] }
      | .gamma _ β => { name := "gamma", shapes := [1], scale := 1 / β }
      | .beta _ _ => { name := "beta", shapes := [1, 1] }
      | .logNormal s _ => { name := "lognorm", shapes := [s], scale := 1 }
      | .student df _ _ => { name := "t", shapes := [df] }) := by
  cases f with
  | normal mean var =>
    refine ⟨_, getAvailable_eq hp (g := normalGenerator) (by simp [generatorClasses]) _, rfl⟩
  | exponential lam =>
    exact ⟨_, getAvailable_eq hp (g := exponentialGenerator) (by simp [generatorClasses]) _, rfl⟩
  | uniform a b =>
    exact ⟨_, getAvailable_eq hp (g := uniformGenerator) (by simp [generatorClasses]) _, rfl⟩
  | weibull a k =>
    exact ⟨_, getAvailable_eq hp (g := weibullGenerator) (by simp [generatorClasses]) _, rfl⟩
  | gamma α β =>
    exact ⟨_, getAvailable_eq hp (g := gammaGenerator) (by simp [generatorClasses]) _, rfl⟩
  | beta α β =>
    exact ⟨_, getAvailable_eq hp (g := betaGenerator) (by simp [generatorClasses]) _, rfl⟩
  | logNormal s scale =>
    refine ⟨_, getAvailable_eq hp (g := lognormGenerator) (by simp [generatorClasses]) _, ?_⟩
    show Law.plain { name := "lognorm", shapes := [s], scale := Real.exp 0 } = _
    rw [Real.exp_zero]
  | student df loc scale =>
    exact ⟨_, getAvailable_eq hp (g := studentGenerator) (by simp [generatorClasses]) _, rfl⟩

/-! ### C30 -/

/-- **C30, what holds.** Whatever the iteration order of the generator classes, for the normal,
exponential, uniform and Weibull families, all parameter values, the Monte Carlo resolver
simulates under exactly the hypothesised distribution; for the other families it does so
exactly when the dropped parameters have the generator's default values: gamma with `α = 1`,
beta with `α = β = 1`, log-normal with `scale = 1`, Student with `loc = 0` and `scale = 1`.
Missing: the remaining parameter values, for which the property is false. -/
theorem C30_simulates_null_partial (classes : List GeneratorClass)
    (hp : classes.Perm generatorClasses) (f : Family) :
    ∃ g, f.simulator classes = .ok g ∧
      (g.law = .plain f.null ↔ match f with
        | .normal _ _ | .exponential _ | .uniform _ _ | .weibull _ _ => True
        | .gamma α _ => α = 1
        | .beta α β => α = 1 ∧ β = 1
        | .logNormal _ scale => scale = 1
        | .student _ loc scale => loc = 0 ∧ scale = 1) := by
  obtain ⟨g, hg, hl⟩ := simulator_law hp f
  refine ⟨g, hg, ?_⟩
  rw [hl]
  cases f <;> simp [Family.null, eq_comm]

example : ∃ g, (Family.normal 5 4).simulator generatorClasses = .ok g ∧
    g.law = .plain { name := "norm", loc := 5, scale := √4 } := by
  obtain ⟨g, h, hl⟩ := C30_simulates_null_partial _ (List.Perm.refl _) (.normal 5 4)
  exact ⟨g, h, hl.2 trivial⟩

/-- **C30, refuted.** A statistic for the gamma distribution with shape 2 is calibrated by
simulating shape 1; beta(2,3) by beta(1,1); log-normal with scale 2 by scale 1; Student with
location 1 by location 0. -/
theorem C30_refuted (classes : List GeneratorClass) (hp : classes.Perm generatorClasses) :
    ∀ f ∈ [Family.gamma 2 1, .beta 2 3, .logNormal 1 2, .student 3 1 1],
      ∃ g, f.simulator classes = .ok g ∧ g.law ≠ .plain f.null := by
  intro f hf
  obtain ⟨g, hg, hl⟩ := C30_simulates_null_partial classes hp f
  refine ⟨g, hg, ?_⟩
  simp only [List.mem_cons, List.not_mem_nil, or_false] at hf
  rcases hf with rfl | rfl | rfl | rfl <;> rw [ne_eq, hl] <;> norm_num

/-! ### C73 -/

/-- **C73, what holds.** The distribution function a Kolmogorov-Smirnov or Cramer-von Mises
statistic compares the sample with is that of the hypothesised distribution, at every
argument and for every interpretation of scipy's standard distribution functions, except for
the normal family and the exponential Kolmogorov-Smirnov statistic; for these exactly when
the parameters have their default values (`mean = 0`, `√var = 1`; `lam = 1`). -/
theorem C73_edf_null_partial (f : Family) (s : Edf) :
    (f.cdfUsed s = f.null ↔ match f, s with
      | .normal mean var, _ => mean = 0 ∧ var = 1
      | .exponential lam, .kolmogorovSmirnov => lam = 1
      | _, _ => True) ∧
    (f.cdfUsed s = f.null → ∀ std x, (f.cdfUsed s).cdf std x = f.null.cdf std x) := by
  refine ⟨?_, fun h std x => by rw [h]⟩
  cases f <;> cases s <;> simp [Family.null, Family.cdfUsed, eq_comm]
  all_goals exact fun _ => by rw [eq_comm, Real.sqrt_eq_one]

example : (Family.gamma 2 3).cdfUsed .kolmogorovSmirnov = (Family.gamma 2 3).null :=
  (C73_edf_null_partial _ _).1.2 trivial

/-- **C73, refuted.** For every parameter choice the normal statistics use the standard normal
distribution function and the exponential Kolmogorov-Smirnov statistic that of rate 1; with
any increasing `Φ`, at the point 5 the value used for mean 5, variance 1 is `Φ 5`, the
hypothesised one is `Φ 0`. -/
theorem C73_refuted (std : String → List ℝ → ℝ → ℝ) (hΦ : StrictMono (std "norm" []))
    (hE : StrictMonoOn (std "expon" []) (Set.Ici 0)) (s : Edf) :
    ((Family.normal 5 1).cdfUsed s).cdf std 5 ≠ (Family.normal 5 1).null.cdf std 5 ∧
    ((Family.exponential 2).cdfUsed .kolmogorovSmirnov).cdf std 1 ≠
      (Family.exponential 2).null.cdf std 1 := by
  constructor
  · simp only [Family.cdfUsed, Family.null, Scipy.cdf, sub_zero, div_one, sub_self, Real.sqrt_one]
    exact fun h => absurd (hΦ.injective h) (by norm_num)
  · simp only [Family.cdfUsed, Family.null, Scipy.cdf, sub_zero, div_one]
    intro h
    have := hE.injOn (by norm_num : (1 : ℝ) ∈ Set.Ici 0) (by norm_num : (1 / (1 / 2) : ℝ) ∈ Set.Ici 0) h
    norm_num at this

example : StrictMono (fun x : ℝ => x) ∧ StrictMonoOn (fun x : ℝ => x) (Set.Ici 0) :=
  ⟨strictMono_id, strictMono_id.strictMonoOn _⟩

/-! ### C68 -/

theorem mapM_ne_error {α β : Type} {e : PyErr} {f : α → Except PyErr β} (h : ∀ a, f a ≠ .error e)
    (l : List α) : l.mapM f ≠ .error e := by
  induction l with
  | nil => simp [pure, Except.pure]
  | cons a l ih =>
    rw [List.mapM_cons]
    cases ha : f a with
    | error e' => have := h a; rw [ha] at this; simpa [bind, Except.bind] using this
    | ok v =>
      cases hl : l.mapM f with
      | error e' => rw [hl] at ih; simpa [bind, Except.bind] using ih
      | ok vs => simp [bind, Except.bind, pure, Except.pure]

/-- **C68, what holds.** Every distribution type has exactly one descriptor and exactly one
generator, the lookup functions find them whatever the iteration order and never raise
`StopIteration`, and every default of every descriptor satisfies its own validator, except
the `mu` of the inverse Gaussian. -/
theorem C68_registry_partial (d : DistributionType) :
    d ∈ DistributionType.all ∧
    (∃! c, c ∈ descriptorClasses ∧ c.type = d) ∧
    (∃! g, g ∈ generatorClasses ∧ g.dist = d) ∧
    (∀ classes : List DescriptorClass, classes.Perm descriptorClasses →
      ∃ c, getAvailableDescriptor classes d = .ok c ∧ c.type = d ∧
        ∀ p ∈ c.parameters, ∀ v, p.validator = some v →
          (d, p.name) ≠ (.invGauss, "mu") → v.validate p.default = true) ∧
    (∀ classes : List GeneratorClass, classes.Perm generatorClasses →
      ∀ params, getAvailableGenerator classes d params ≠ .error .stopIteration) := by
  have hdnd : (descriptorClasses.map (·.type)).Nodup := by decide
  have hgen : ∃ g, g ∈ generatorClasses ∧ g.dist = d := by
    have : d ∈ generatorClasses.map (·.dist) := by
      cases d <;> simp [generatorClasses, betaGenerator, cauchyGenerator, laplaceGenerator,
        logisticGenerator, studentGenerator, tukeyGenerator, lognormGenerator, gammaGenerator,
        truncnormGenerator, chi2Generator, gumbelGenerator, weibullGenerator, loConNormGenerator,
        scConNormGenerator, mixConNormGenerator, exponentialGenerator, invGaussGenerator,
        riceGenerator, gompertzGenerator, normalGenerator, uniformGenerator]
    simpa using this
  have hdesc : ∃ c, c ∈ descriptorClasses ∧ c.type = d := by
    have : d ∈ descriptorClasses.map (·.type) := by cases d <;> decide
    simpa using this
  have hvalid : ∀ c ∈ descriptorClasses, ∀ p ∈ c.parameters, ∀ v, p.validator = some v →
      (c.type, p.name) ≠ (.invGauss, "mu") → v.validate p.default = true := by
    decide +kernel
  refine ⟨by cases d <;> decide, ?_, ?_, ?_, ?_⟩
  · obtain ⟨c, hc, hcd⟩ := hdesc
    exact ⟨c, ⟨hc, hcd⟩, fun c' h => List.inj_on_of_nodup_map hdnd h.1 hc (h.2.trans hcd.symm)⟩
  · obtain ⟨g, hg, hgd⟩ := hgen
    exact ⟨g, ⟨hg, hgd⟩, fun g' h =>
      List.inj_on_of_nodup_map generator_dists_nodup h.1 hg (h.2.trans hgd.symm)⟩
  · intro classes hp
    obtain ⟨c, hc, hcd⟩ := hdesc
    have hex : (classes.find? (fun c => c.type = d)).isSome := by
      rw [List.find?_isSome]; exact ⟨c, hp.mem_iff.2 hc, by simp [hcd]⟩
    obtain ⟨c', hc'⟩ := Option.isSome_iff_exists.1 hex
    have hm := List.mem_of_find?_eq_some hc'
    have hd : c'.type = d := by simpa using List.find?_some hc'
    refine ⟨c', by unfold getAvailableDescriptor; rw [hc'], hd, ?_⟩
    intro p hpm v hv hne
    exact hvalid c' (hp.mem_iff.1 hm) p hpm v hv (by rwa [hd])
  · intro classes hp params
    obtain ⟨g, hg, rfl⟩ := hgen
    rw [getAvailable_eq hp hg]
    have h : g.construct (params.getD []) ≠ .error .stopIteration := by
      unfold GeneratorClass.construct
      apply mapM_ne_error
      intro p
      split
      · simp
      · split <;> simp
    cases hX : g.construct (params.getD []) with
    | error e => rw [hX] at h; simpa [Except.map] using h
    | ok v => simp [Except.map]

example : ∃ c, getAvailableDescriptor descriptorClasses .weibull = .ok c ∧ c.parameters.length = 2 :=
  ⟨_, rfl, rfl⟩

/-- **C68, refuted.** The inverse Gaussian descriptor's default mean 0 fails its own validator
`μ > 0`. -/
theorem C68_refuted : ∃ c ∈ descriptorClasses, ∃ p ∈ c.parameters, ∃ v,
    p.validator = some v ∧ v.validate p.default = false ∧ c.type = .invGauss ∧ p.name = "mu" := by
  decide +kernel

/-! ### C69 -/

/-- **C69, what holds.** For every distribution except the log-normal, and every assignment of
values to the parameters named by its descriptor, the generator built from these keyword
arguments has exactly these parameters with these values. -/
theorem C69_descriptor_generator_partial (classes : List GeneratorClass)
    (hp : classes.Perm generatorClasses) (c : DescriptorClass) (hc : c ∈ descriptorClasses)
    (hne : c.type ≠ .logNormal) (v : String → ℝ) :
    ∃ g, getAvailableGenerator classes c.type (some (c.parameters.map fun p => (p.name, v p.name)))
        = .ok g ∧
      g.parameters = c.parameters.map fun p => (p.name, v p.name) := by
  obtain ⟨-, -, ⟨g, ⟨hg, hgd⟩, -⟩, -, -⟩ := C68_registry_partial c.type
  rw [← hgd, getAvailable_eq hp hg]
  have key : g.construct (c.parameters.map fun p => (p.name, v p.name)) =
      .ok (c.parameters.map fun p => (p.name, v p.name)) := by
    simp only [generatorClasses, List.mem_cons, List.not_mem_nil, or_false] at hg
    simp only [descriptorClasses, List.mem_cons, List.not_mem_nil, or_false] at hc
    rcases hc with rfl | rfl | rfl | rfl | rfl | rfl | rfl | rfl | rfl | rfl | rfl | rfl | rfl |
      rfl | rfl | rfl | rfl | rfl | rfl | rfl | rfl <;>
    first
    | exact absurd rfl hne
    | (rcases hg with rfl | rfl | rfl | rfl | rfl | rfl | rfl | rfl | rfl | rfl | rfl | rfl | rfl |
        rfl | rfl | rfl | rfl | rfl | rfl | rfl | rfl <;>
       first
       | exact absurd hgd (by decide)
       | rfl)
  exact ⟨_, by rw [Option.getD_some, key]; rfl, rfl⟩

example : ∃ g, getAvailableGenerator generatorClasses .gompertz (some [("eta", 3), ("b", 2)]) = .ok g ∧
    g.parameters = [("eta", 3), ("b", 2)] :=
  C69_descriptor_generator_partial generatorClasses (List.Perm.refl _)
    ⟨.gompertz, [⟨"eta", 1, some .positive⟩, ⟨"b", 1, some .positive⟩]⟩ (by decide) (by decide)
    (fun n => if n = "eta" then 3 else 2)

/-- **C69, refuted.** The log-normal descriptor's parameter names `mean` and `var` are both
ignored by the log-normal generator: whatever their values, the generator is the default
one. Besides, the default rate of the exponential generator is 1/2 while the descriptor
announces 1. -/
theorem C69_refuted (classes : List GeneratorClass) (hp : classes.Perm generatorClasses)
    (mean var : ℝ) :
    (∃ g, getAvailableGenerator classes .logNormal (some [("mean", mean), ("var", var)]) = .ok g ∧
      g.parameters = [("s", 1), ("mu", 0)]) ∧
    (∃ g, getAvailableGenerator classes .exponential none = .ok g ∧
      g.parameters = [("lam", 1 / 2)]) ∧
    (∃ c ∈ descriptorClasses, c.type = .exponential ∧ c.parameters = [⟨"lam", 1, some .positive⟩]) := by
  refine ⟨⟨_, getAvailable_eq hp (g := lognormGenerator) (by simp [generatorClasses]) _, rfl⟩,
    ⟨_, getAvailable_eq hp (g := exponentialGenerator) (by simp [generatorClasses]) _, rfl⟩, ?_⟩
  exact ⟨_, List.mem_cons_of_mem _ List.mem_cons_self, rfl, rfl⟩

/-- **C69, defaults.** The generator built without parameters has the defaults announced by the
descriptor exactly for the distributions outside this list. -/
theorem C69_defaults_partial (classes : List GeneratorClass) (hp : classes.Perm generatorClasses)
    (c : DescriptorClass) (hc : c ∈ descriptorClasses) :
    (∃ g, getAvailableGenerator classes c.type none = .ok g ∧
      g.parameters = c.parameters.map fun p => (p.name, (p.default : ℝ))) ↔
    c.type ∉ [.cauchy, .laplace, .logistic, .student, .tukey, .exponential, .gompertz, .logNormal] := by
  obtain ⟨-, -, ⟨g, ⟨hg, hgd⟩, -⟩, -, -⟩ := C68_registry_partial c.type
  rw [← hgd, getAvailable_eq hp hg]
  have key : (g.construct [] = .ok (c.parameters.map fun p => (p.name, (p.default : ℝ)))) ↔
      c.type ∉ [DistributionType.cauchy, .laplace, .logistic, .student, .tukey, .exponential, .gompertz,
        .logNormal] := by
    simp only [generatorClasses, List.mem_cons, List.not_mem_nil, or_false] at hg
    simp only [descriptorClasses, List.mem_cons, List.not_mem_nil, or_false] at hc
    rcases hc with rfl | rfl | rfl | rfl | rfl | rfl | rfl | rfl | rfl | rfl | rfl | rfl | rfl |
      rfl | rfl | rfl | rfl | rfl | rfl | rfl | rfl <;>
    (rcases hg with rfl | rfl | rfl | rfl | rfl | rfl | rfl | rfl | rfl | rfl | rfl | rfl | rfl |
        rfl | rfl | rfl | rfl | rfl | rfl | rfl | rfl <;>
       first
       | exact absurd hgd (by decide)
       | (simp [GeneratorClass.construct, betaGenerator, cauchyGenerator, laplaceGenerator, logisticGenerator,
            studentGenerator, tukeyGenerator, lognormGenerator, gammaGenerator, truncnormGenerator,
            chi2Generator, gumbelGenerator, weibullGenerator, loConNormGenerator, scConNormGenerator,
            mixConNormGenerator, exponentialGenerator, invGaussGenerator, riceGenerator,
            gompertzGenerator, normalGenerator, uniformGenerator, bind, Except.bind, pure, Except.pure] <;>
          norm_num))
  rw [hgd, ← key]
  constructor
  · rintro ⟨g', h1, h2⟩
    rw [Option.getD_none] at h1
    rcases hcon : g.construct [] with e | attrs
    · rw [hcon] at h1; cases h1
    · rw [hcon] at h1; cases h1; rw [← h2]
  · intro h
    exact ⟨_, by rw [Option.getD_none, h]; rfl, rfl⟩

/-- **C69, refuted (defaults).** Five generators cannot be built without parameters although
their descriptors announce defaults; the default shape of the Gompertz generator is 0, which the
descriptor, whose default is 1, does not even accept. -/
theorem C69_refuted_defaults (classes : List GeneratorClass) (hp : classes.Perm generatorClasses) :
    (∀ t ∈ [DistributionType.cauchy, .laplace, .logistic, .student, .tukey],
      getAvailableGenerator classes t none = .error .typeError ∧
      ∃ c ∈ descriptorClasses, c.type = t ∧ c.parameters ≠ []) ∧
    (∃ g, getAvailableGenerator classes .gompertz none = .ok g ∧ g.parameters = [("eta", 0), ("b", 1)]) ∧
    ∃ c ∈ descriptorClasses, c.type = .gompertz ∧
      c.parameters = [⟨"eta", 1, some .positive⟩, ⟨"b", 1, some .positive⟩] ∧
      Validator.positive.validate 0 = false := by
  refine ⟨?_, ⟨_, getAvailable_eq hp (g := gompertzGenerator) (by simp [generatorClasses]) _, rfl⟩, ?_⟩
  · intro t ht
    simp only [List.mem_cons, List.not_mem_nil, or_false] at ht
    rcases ht with rfl | rfl | rfl | rfl | rfl
    · exact ⟨getAvailable_eq hp (g := cauchyGenerator) (by simp [generatorClasses]) _, by decide +kernel⟩
    · exact ⟨getAvailable_eq hp (g := laplaceGenerator) (by simp [generatorClasses]) _, by decide +kernel⟩
    · exact ⟨getAvailable_eq hp (g := logisticGenerator) (by simp [generatorClasses]) _, by decide +kernel⟩
    · exact ⟨getAvailable_eq hp (g := studentGenerator) (by simp [generatorClasses]) _, by decide +kernel⟩
    · exact ⟨getAvailable_eq hp (g := tukeyGenerator) (by simp [generatorClasses]) _, by decide +kernel⟩
  · decide +kernel

example : ∃ g, getAvailableGenerator generatorClasses .chi2 none = .ok g ∧
    g.parameters = [⟨"df", 2, some .positive⟩].map fun p : ParamDescriptor => (p.name, (p.default : ℝ)) :=
  (C69_defaults_partial generatorClasses (List.Perm.refl _) ⟨.chi2, [⟨"df", 2, some .positive⟩]⟩
    (by decide) ).2 (by decide)

/-! ### C74 -/

/-- **C74, what holds.** With `mean = 0` and `var = 1` the truncated normal generator samples
only from the announced interval `[a, b]`; a Weibull generator with `a = 1` samples the Weibull
distribution with scale `a`; an inverse Gaussian generator with `lam = 1` has mean `mu`. -/
theorem C74_documented_meaning_partial (classes : List GeneratorClass)
    (hp : classes.Perm generatorClasses) (a b k mu : ℝ) :
    (∃ g d, getAvailableGenerator classes .truncNormal
        (some [("mean", 0), ("var", 1), ("a", a), ("b", b)]) = .ok g ∧ g.law = .plain d ∧
      d.name = "truncnorm" ∧ d.truncnormSupport = Set.Icc a b) ∧
    (∃ g d, getAvailableGenerator classes .weibull (some [("a", 1), ("k", k)]) = .ok g ∧
      g.law = .plain d ∧ d.name = "exponweib" ∧ d.shapes = [1, k] ∧ d.loc = 0 ∧ d.scale = 1 ∧
      ∀ x, 0 < x → exponweibCdf 1 k x = weibullCdf 1 k x) ∧
    (∃ g d, getAvailableGenerator classes .invGauss (some [("mu", mu), ("lam", 1)]) = .ok g ∧
      g.law = .plain d ∧ d.name = "invgauss" ∧ d.invgaussMean = some mu) := by
  refine ⟨⟨_, _, getAvailable_eq hp (g := truncnormGenerator) (by simp [generatorClasses]) _, rfl,
      rfl, ?_⟩,
    ⟨_, _, getAvailable_eq hp (g := weibullGenerator) (by simp [generatorClasses]) _, rfl, rfl, rfl,
      rfl, rfl, fun x _ => by simp [exponweibCdf, weibullCdf]⟩,
    ⟨_, _, getAvailable_eq hp (g := invGaussGenerator) (by simp [generatorClasses]) _, rfl, rfl, ?_⟩⟩
  · show {x | ∃ z, a ≤ z ∧ z ≤ b ∧ x = 0 + √1 * z} = _
    ext x
    simp
  · show some (0 + 1 * mu) = some mu
    simp

example : getAvailableGenerator generatorClasses .truncNormal
    (some [("mean", 0), ("var", 1), ("a", -1), ("b", 1)]) =
    .ok ⟨"TruncnormGenerator", [("mean", 0), ("var", 1), ("a", -1), ("b", 1)],
      .plain { name := "truncnorm", shapes := [-1, 1], loc := 0, scale := √1 }⟩ :=
  getAvailable_eq (List.Perm.refl _) (g := truncnormGenerator) (by simp [generatorClasses]) _

/-- **C74, refuted.** A normal with mean 5 truncated to `[0, 1]` is sampled on `[5, 6]`,
disjoint from `[0, 1]`; the Weibull generator with "scale" 2 and shape 1 does not sample the
Weibull distribution with scale 2 (the two distribution functions differ at `log 2`); the
inverse Gaussian generator with mean 1 and `lam = 3` has mean 3. -/
theorem C74_refuted (classes : List GeneratorClass) (hp : classes.Perm generatorClasses) :
    (∃ g d, getAvailableGenerator classes .truncNormal
        (some [("mean", 5), ("var", 1), ("a", 0), ("b", 1)]) = .ok g ∧ g.law = .plain d ∧
      d.truncnormSupport = Set.Icc 5 6) ∧
    (∃ g d, getAvailableGenerator classes .weibull (some [("a", 2), ("k", 1)]) = .ok g ∧
      g.law = .plain d ∧ d.name = "exponweib" ∧ d.shapes = [2, 1] ∧ d.loc = 0 ∧ d.scale = 1 ∧
      exponweibCdf 2 1 (Real.log 2) ≠ weibullCdf 2 1 (Real.log 2)) ∧
    (∃ g d, getAvailableGenerator classes .invGauss (some [("mu", 1), ("lam", 3)]) = .ok g ∧
      g.law = .plain d ∧ d.invgaussMean = some 3) := by
  refine ⟨⟨_, _, getAvailable_eq hp (g := truncnormGenerator) (by simp [generatorClasses]) _, rfl,
      ?_⟩,
    ⟨_, _, getAvailable_eq hp (g := weibullGenerator) (by simp [generatorClasses]) _, rfl, rfl, rfl,
      rfl, rfl, ?_⟩,
    ⟨_, _, getAvailable_eq hp (g := invGaussGenerator) (by simp [generatorClasses]) _, rfl, ?_⟩⟩
  · show {x | ∃ z, (0 : ℝ) ≤ z ∧ z ≤ 1 ∧ x = 5 + √1 * z} = _
    ext x
    simp only [Real.sqrt_one, one_mul, Set.mem_Icc]
    constructor
    · rintro ⟨z, h1, h2, rfl⟩; constructor <;> linarith
    · rintro ⟨h1, h2⟩; exact ⟨x - 5, by linarith, by linarith, by ring⟩
  · have e1 : Real.exp (-Real.log 2) = 1 / 2 := by
      rw [Real.exp_neg, Real.exp_log (by norm_num)]; norm_num
    have e2 : Real.exp (-(Real.log 2 / 2)) ^ 2 = 1 / 2 := by
      rw [← e1, ← Real.exp_nat_mul]; congr 1; push_cast; ring
    simp only [exponweibCdf, weibullCdf, Real.rpow_one]
    rw [e1]
    intro h
    have h' : Real.exp (-(Real.log 2 / 2)) = 3 / 4 := by
      have : ((1 : ℝ) - 1 / 2) ^ (2 : ℝ) = 1 / 4 := by norm_num
      rw [this] at h; linarith
    rw [h'] at e2
    norm_num at e2
  · show some ((0 : ℝ) + 3 * 1) = some 3
    norm_num

end Pysatl.Props
