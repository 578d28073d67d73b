import Verif.Model.GeneratorLaws
import Verif.Spec.Laws
import Verif.Props.Generators
import Mathlib.Analysis.SpecialFunctions.Pow.NNReal
import Mathlib.MeasureTheory.Measure.Lebesgue.Basic
import Mathlib.Tactic.Positivity

/-! # C111: the generators sample the laws their descriptors announce -/

namespace Pysatl.Props

open Pysatl Pysatl.Gen Pysatl.Spec Pysatl.Decision
open MeasureTheory ProbabilityTheory

theorem map_affine_volume (t : ℝ) {c : ℝ} (hc : 0 < c) :
    (volume : Measure ℝ).map (fun z => t + c * z) = ENNReal.ofReal c⁻¹ • volume := by
  have h1 : (fun z : ℝ => t + c * z) = (fun z => t + z) ∘ (fun z => c * z) := rfl
  rw [h1, ← Measure.map_map (by fun_prop) (by fun_prop), Real.map_volume_mul_left hc.ne',
    Measure.map_smul, map_add_left_eq_self, abs_of_pos (inv_pos.2 hc)]

/-- Change of variable: `t + c Z` has density `f((x - t)/c)/c` when `Z` has density `f`. -/
theorem map_affine_density (t : ℝ) {c : ℝ} (hc : 0 < c) {f : ℝ → ℝ} (hf : Measurable f)
    (hf0 : ∀ x, 0 ≤ f x) :
    (ofDensity f).map (fun z => t + c * z) = density fun x => c⁻¹ * f ((x - t) / c) := by
  ext s hs
  have hm : Measurable fun z : ℝ => t + c * z := by fun_prop
  rw [Measure.map_apply hm hs, ofDensity, withDensity_apply _ (hm hs), density,
    withDensity_apply _ hs]
  have e : ∀ z : ℝ, ENNReal.ofReal (f z) =
      (fun x => ENNReal.ofReal (f ((x - t) / c))) (t + c * z) := by
    intro z
    have : (t + c * z - t) / c = z := by field_simp; ring
    simp only [this]
  have e2 : ∫⁻ z in (fun z => t + c * z) ⁻¹' s, ENNReal.ofReal (f z) =
      ∫⁻ x in s, ENNReal.ofReal (f ((x - t) / c)) ∂((volume : Measure ℝ).map fun z => t + c * z) := by
    rw [setLIntegral_map hs (by fun_prop) hm]
    exact lintegral_congr e
  rw [e2, map_affine_volume t hc, Measure.restrict_smul,
    lintegral_smul_measure, smul_eq_mul, ← lintegral_const_mul _ (by fun_prop)]
  refine lintegral_congr fun x => ?_
  rw [← ENNReal.ofReal_mul (inv_nonneg.2 hc.le)]

theorem density_congr {f g : ℝ → ℝ} (h : ∀ x, f x = g x) : density f = density g := by
  rw [funext h]

theorem gaussian_affine (m s : ℝ) :
    (gaussianReal 0 1).map (fun z => m + s * z) = gaussianReal m (s ^ 2).toNNReal := by
  have h1 : (fun z : ℝ => m + s * z) = (fun z => m + z) ∘ (fun z => s * z) := rfl
  rw [h1, ← Measure.map_map (by fun_prop) (by fun_prop), gaussianReal_map_const_mul,
    gaussianReal_map_const_add]
  congr 1
  · ring
  · rw [mul_one]; ext; simp [sq_nonneg]

theorem rvs_ok {d : Scipy} (h : d.argcheck) (hs : 0 ≤ d.scale) :
    d.rvs = .ok (d.standard.map fun z => d.loc + d.scale * z) := by
  rw [Scipy.rvs, if_pos ⟨h, hs⟩]

theorem generate_plain {g : Generator} {d : Scipy} (hg : g.law = .plain d) {μ : Measure ℝ}
    (h : d.rvs = .ok μ) (n : ℕ) : g.generate n = .ok (iid n μ) := by
  unfold Generator.generate
  rw [hg]
  simp only [Law.draw, h]
  rfl

theorem bind_choice (p : ℝ) (m₁ m₂ : Measure ℝ) :
    (choiceZero p).bind (fun c => if c then m₁ else m₂) =
      ENNReal.ofReal p • m₁ + ENNReal.ofReal (1 - p) • m₂ := by
  have hm : Measurable fun c : Bool => if c then m₁ else m₂ := measurable_of_finite _
  ext s hs
  rw [Measure.bind_apply hs hm.aemeasurable, choiceZero, lintegral_add_measure,
    lintegral_smul_measure, lintegral_smul_measure, lintegral_dirac, lintegral_dirac]
  simp

theorem generate_mixture {g : Generator} {p a b : ℝ} {d₁ : Scipy}
    (hg : g.law = .mixture p d₁ { name := "norm" }) (h₁ : d₁ = { name := "norm", loc := a, scale := b })
    (hp : 0 ≤ p ∧ p ≤ 1) (hb : 0 ≤ b) (n : ℕ) (hn : n ≠ 0) :
    g.generate n = .ok (iid n (contaminatedNormal p a b)) := by
  obtain ⟨n, rfl⟩ := Nat.exists_eq_succ_of_ne_zero hn
  subst h₁
  have e1 : ({ name := "norm", loc := a, scale := b } : Scipy).rvs
      = .ok (gaussianReal a (b ^ 2).toNNReal) := by
    rw [rvs_ok (by exact trivial) hb, ← gaussian_affine]; rfl
  have e2 : ({ name := "norm" } : Scipy).rvs = .ok (gaussianReal 0 1) := by
    rw [rvs_ok (by exact trivial) (zero_le_one (α := ℝ))]
    show Except.ok ((gaussianReal 0 1).map fun z => 0 + 1 * z) = _
    rw [gaussian_affine]; simp
  unfold Generator.generate
  rw [hg]
  simp only [Law.draw, if_pos hp, e1, e2]
  show Except.ok (Measure.pi fun _ => (choiceZero p).bind _) = _
  simp only [bind_choice]
  rfl

/-- Given the class found for a type and the law it samples, `get_available_generator` followed by
`generate(n)` returns `n` independent observations of that law. -/
theorem sampled {classes : List GeneratorClass} (hp : classes.Perm generatorClasses)
    {g : GeneratorClass} (hg : g ∈ generatorClasses) {kw attrs : Kw}
    (hc : g.construct kw = .ok attrs) {d : Scipy} (hl : g.law attrs = .plain d) {μ : Measure ℝ}
    (hd : d.rvs = .ok μ) (n : ℕ) :
    ∃ G, getAvailableGenerator classes g.dist (some kw) = .ok G ∧ G.generate n = .ok (iid n μ) := by
  refine ⟨⟨g.cls, attrs, g.law attrs⟩, ?_, generate_plain hl hd n⟩
  rw [getAvailable_eq hp hg, Option.getD_some, hc]
  rfl

/-- **C111 (normal).** Whatever the iteration order of the generator classes, the generator for
the normal distribution with `mean` and `var` returns independent observations from the normal law
with that mean and that variance. -/
theorem C111_normal (classes : List GeneratorClass) (hp : classes.Perm generatorClasses)
    (mean var : ℝ) (hv : 0 ≤ var) (n : ℕ) :
    ∃ G, getAvailableGenerator classes .normal (some [("mean", mean), ("var", var)]) = .ok G ∧
      G.generate n = .ok (iid n (gaussianReal mean var.toNNReal)) := by
  refine sampled hp (g := normalGenerator) (by simp [generatorClasses]) rfl rfl ?_ n
  rw [rvs_ok (by exact trivial) (by exact Real.sqrt_nonneg _)]
  show Except.ok ((gaussianReal 0 1).map fun z => mean + √var * z) = _
  rw [gaussian_affine, Real.sq_sqrt hv]

/-- **C111 (exponential).** `lam` is the rate. -/
theorem C111_exponential (classes : List GeneratorClass) (hp : classes.Perm generatorClasses)
    (lam : ℝ) (hl : 0 < lam) (n : ℕ) :
    ∃ G, getAvailableGenerator classes .exponential (some [("lam", lam)]) = .ok G ∧
      G.generate n = .ok (iid n (expMeasure lam)) := by
  refine sampled hp (g := exponentialGenerator) (by simp [generatorClasses]) rfl rfl ?_ n
  rw [rvs_ok (by exact trivial) (by exact (one_div_pos.2 hl).le)]
  show Except.ok ((ofDensity fun x => if 0 ≤ x then Real.exp (-x) else 0).map
    fun z => 0 + 1 / lam * z) = _
  rw [map_affine_density 0 (one_div_pos.2 hl)
    (Measurable.ite measurableSet_Ici (by fun_prop) measurable_const)
    (fun x => by split_ifs <;> positivity)]
  congr 1
  show _ = volume.withDensity (gammaPDF 1 lam)
  rw [density]
  congr 1
  funext x
  rw [gammaPDF, gammaPDFReal]
  congr 1
  have hx : (x - 0) / (1 / lam) = lam * x := by field_simp; ring
  have h0 : 0 ≤ lam * x ↔ 0 ≤ x := mul_nonneg_iff_of_pos_left hl
  rw [hx]
  simp only [h0]
  split_ifs <;> simp

/-- **C111 (uniform).** The interval is `[a, b]`. -/
theorem C111_uniform (classes : List GeneratorClass) (hp : classes.Perm generatorClasses)
    (a b : ℝ) (hab : a < b) (n : ℕ) :
    ∃ G, getAvailableGenerator classes .uniform (some [("a", a), ("b", b)]) = .ok G ∧
      G.generate n = .ok (iid n (uniformLaw a b)) := by
  refine sampled hp (g := uniformGenerator) (by simp [generatorClasses]) rfl rfl ?_ n
  have hba : 0 < b - a := sub_pos.2 hab
  rw [rvs_ok (by exact trivial) (by exact hba.le)]
  show Except.ok ((ofDensity fun x => if 0 ≤ x ∧ x ≤ 1 then 1 else 0).map
    fun z => a + (b - a) * z) = _
  rw [map_affine_density a hba (by
      refine Measurable.ite ?_ measurable_const measurable_const
      exact measurableSet_Icc) (fun x => by split_ifs <;> norm_num)]
  congr 1
  rw [uniformLaw, ProbabilityTheory.cond, Real.volume_Icc, ← withDensity_indicator_one measurableSet_Icc,
    ← withDensity_smul _ (measurable_one.indicator measurableSet_Icc), density]
  congr 1
  funext x
  have h : (0 ≤ (x - a) / (b - a) ∧ (x - a) / (b - a) ≤ 1) ↔ x ∈ Set.Icc a b := by
    rw [Set.mem_Icc, le_div_iff₀ hba, zero_mul, div_le_one hba, sub_nonneg]
    exact and_congr_right fun _ => ⟨fun h => by linarith, fun h => by linarith⟩
  simp only [h, Pi.smul_apply, Set.indicator_apply, smul_eq_mul]
  split_ifs
  · simp [ENNReal.ofReal_inv_of_pos hba]
  · simp

/-- **C111 (gamma).** `alfa` is the shape and `beta` the rate. -/
theorem C111_gamma (classes : List GeneratorClass) (hp : classes.Perm generatorClasses)
    (alfa beta : ℝ) (ha : 0 < alfa) (hb : 0 < beta) (n : ℕ) :
    ∃ G, getAvailableGenerator classes .gamma (some [("alfa", alfa), ("beta", beta)]) = .ok G ∧
      G.generate n = .ok (iid n (gammaMeasure alfa beta)) := by
  refine sampled hp (g := gammaGenerator) (by simp [generatorClasses]) rfl rfl ?_ n
  rw [rvs_ok (by exact ha) (by exact (one_div_pos.2 hb).le)]
  show Except.ok ((ofDensity fun x =>
      if 0 ≤ x then x ^ (alfa - 1) * Real.exp (-x) / Real.Gamma alfa else 0).map
    fun z => 0 + 1 / beta * z) = _
  have hG := Real.Gamma_pos_of_pos ha
  rw [map_affine_density 0 (one_div_pos.2 hb)
    (Measurable.ite measurableSet_Ici (by fun_prop) measurable_const)
    (fun x => by split_ifs <;> positivity)]
  congr 1
  rw [density, gammaMeasure]
  congr 1
  funext x
  rw [gammaPDF, gammaPDFReal]
  congr 1
  have hx : (x - 0) / (1 / beta) = beta * x := by field_simp; ring
  have h0 : 0 ≤ beta * x ↔ 0 ≤ x := mul_nonneg_iff_of_pos_left hb
  rw [hx]
  simp only [h0]
  split_ifs with h
  · rw [Real.mul_rpow hb.le h, Real.rpow_sub_one hb.ne']
    field_simp
  · simp

/-- **C111 (beta).** `a` is the exponent of `x`, `b` that of `1 - x`. -/
theorem C111_beta (classes : List GeneratorClass) (hp : classes.Perm generatorClasses)
    (a b : ℝ) (ha : 0 < a) (hb : 0 < b) (n : ℕ) :
    ∃ G, getAvailableGenerator classes .beta (some [("a", a), ("b", b)]) = .ok G ∧
      G.generate n = .ok (iid n (betaMeasure a b)) := by
  refine sampled hp (g := betaGenerator) (by simp [generatorClasses]) rfl rfl ?_ n
  rw [rvs_ok (by exact ⟨ha, hb⟩) (by exact zero_le_one (α := ℝ))]
  show Except.ok ((ofDensity fun x => if 0 < x ∧ x < 1 then
    Real.Gamma (a + b) * x ^ (a - 1) * (1 - x) ^ (b - 1) / (Real.Gamma a * Real.Gamma b)
    else 0).map fun z => 0 + 1 * z) = _
  simp only [zero_add, one_mul, Measure.map_id']
  congr 1
  rw [ofDensity, betaMeasure]
  congr 1
  funext x
  rw [betaPDF, betaPDFReal]
  congr 1
  split_ifs with h
  · rw [ProbabilityTheory.beta]
    have := Real.Gamma_pos_of_pos ha
    have := Real.Gamma_pos_of_pos hb
    have := Real.Gamma_pos_of_pos (add_pos ha hb)
    field_simp
  · rfl

/-- **C111 (Cauchy).** `t` is the location and `s` the scale. -/
theorem C111_cauchy (classes : List GeneratorClass) (hp : classes.Perm generatorClasses)
    (t s : ℝ) (hs : 0 < s) (n : ℕ) :
    ∃ G, getAvailableGenerator classes .cauchy (some [("t", t), ("s", s)]) = .ok G ∧
      G.generate n = .ok (iid n (cauchyMeasure t s.toNNReal)) := by
  refine sampled hp (g := cauchyGenerator) (by simp [generatorClasses]) rfl rfl ?_ n
  rw [rvs_ok (by exact trivial) (by exact hs.le)]
  show Except.ok ((ofDensity fun x => 1 / (Real.pi * (1 + x ^ 2))).map fun z => t + s * z) = _
  rw [map_affine_density t hs (by fun_prop) (fun x => by positivity),
    cauchyMeasure_of_scale_ne_zero _ (by simpa using hs)]
  congr 1
  rw [density]
  congr 1
  funext x
  rw [cauchyPDF, cauchyPDFReal, Real.coe_toNNReal _ hs.le]
  congr 1
  have : 0 < (x - t) ^ 2 + s ^ 2 := by positivity
  field_simp
  ring

/-- **C111 (log-normal).** The logarithm of an observation is normal with mean `mu` and standard
deviation `s`. -/
theorem C111_logNormal (classes : List GeneratorClass) (hp : classes.Perm generatorClasses)
    (s mu : ℝ) (hs : 0 < s) (n : ℕ) :
    ∃ G, getAvailableGenerator classes .logNormal (some [("s", s), ("mu", mu)]) = .ok G ∧
      G.generate n = .ok (iid n (logNormalLaw mu s)) := by
  refine sampled hp (g := lognormGenerator) (by simp [generatorClasses]) rfl rfl ?_ n
  rw [rvs_ok (by exact hs) (by exact (Real.exp_pos _).le)]
  show Except.ok (((gaussianReal 0 (s ^ 2).toNNReal).map Real.exp).map
    fun z => 0 + Real.exp mu * z) = _
  rw [Measure.map_map (by fun_prop) (by fun_prop), logNormalLaw]
  have e : ((fun z : ℝ => 0 + Real.exp mu * z) ∘ Real.exp) = Real.exp ∘ fun z => mu + z := by
    funext z; simp [Real.exp_add]
  rw [e, ← Measure.map_map (by fun_prop) (by fun_prop), gaussianReal_map_const_add, zero_add]

/-- **C111 (location-scale families).** Laplace, logistic and Gumbel: location and scale are the
two parameters, in this order. -/
theorem C111_locationScale (classes : List GeneratorClass) (hp : classes.Perm generatorClasses)
    (t s : ℝ) (hs : 0 < s) (n : ℕ) :
    (∃ G, getAvailableGenerator classes .laplace (some [("t", t), ("s", s)]) = .ok G ∧
      G.generate n = .ok (iid n (laplaceLaw t s))) ∧
    (∃ G, getAvailableGenerator classes .logistic (some [("t", t), ("s", s)]) = .ok G ∧
      G.generate n = .ok (iid n (logisticLaw t s))) ∧
    (∃ G, getAvailableGenerator classes .gumbel (some [("mu", t), ("beta", s)]) = .ok G ∧
      G.generate n = .ok (iid n (gumbelLaw t s))) := by
  refine ⟨sampled hp (g := laplaceGenerator) (by simp [generatorClasses]) rfl rfl ?_ n,
    sampled hp (g := logisticGenerator) (by simp [generatorClasses]) rfl rfl ?_ n,
    sampled hp (g := gumbelGenerator) (by simp [generatorClasses]) rfl rfl ?_ n⟩
  · rw [rvs_ok (by exact trivial) (by exact hs.le)]
    show Except.ok ((ofDensity fun x => 1 / 2 * Real.exp (-|x|)).map fun z => t + s * z) = _
    rw [map_affine_density t hs (by fun_prop) (fun x => by positivity)]
    congr 1
    refine density_congr fun x => ?_
    rw [abs_div, abs_of_pos hs, neg_div]
    field_simp
  · rw [rvs_ok (by exact trivial) (by exact hs.le)]
    show Except.ok ((ofDensity fun x => Real.exp (-x) / (1 + Real.exp (-x)) ^ 2).map
      fun z => t + s * z) = _
    rw [map_affine_density t hs (by fun_prop) (fun x => by positivity)]
    congr 1
    refine density_congr fun x => ?_
    rw [neg_div]
    generalize Real.exp (-((x - t) / s)) = e
    rw [inv_mul_eq_div, div_div, mul_comm s]
  · rw [rvs_ok (by exact trivial) (by exact hs.le)]
    show Except.ok ((ofDensity fun x => Real.exp (-(x + Real.exp (-x)))).map
      fun z => t + s * z) = _
    rw [map_affine_density t hs (by fun_prop) (fun x => by positivity)]
    congr 1
    refine density_congr fun x => ?_
    rw [one_div]

/-- **C111 (degrees of freedom).** Chi-square and Student with `df` degrees of freedom. -/
theorem C111_degreesOfFreedom (classes : List GeneratorClass)
    (hp : classes.Perm generatorClasses) (df : ℝ) (hd : 0 < df) (n : ℕ) :
    (∃ G, getAvailableGenerator classes .chi2 (some [("df", df)]) = .ok G ∧
      G.generate n = .ok (iid n (chiSquareLaw df))) ∧
    (∃ G, getAvailableGenerator classes .student (some [("df", df)]) = .ok G ∧
      G.generate n = .ok (iid n (studentLaw df))) := by
  refine ⟨sampled hp (g := chi2Generator) (by simp [generatorClasses]) rfl rfl ?_ n,
    sampled hp (g := studentGenerator) (by simp [generatorClasses]) rfl rfl ?_ n⟩
  · rw [rvs_ok (by exact hd) (by exact zero_le_one (α := ℝ))]
    show Except.ok ((ofDensity fun x => if 0 ≤ x then
      1 / (2 ^ (df / 2) * Real.Gamma (df / 2)) * x ^ (df / 2 - 1) * Real.exp (-x / 2)
      else 0).map fun z => 0 + 1 * z) = _
    simp only [zero_add, one_mul, Measure.map_id']
    congr 1
    rw [ofDensity, chiSquareLaw, gammaMeasure]
    congr 1
    funext x
    rw [gammaPDF, gammaPDFReal]
    congr 1
    split_ifs with h
    · rw [Real.div_rpow zero_le_one zero_le_two, Real.one_rpow, div_div,
        show -(1 / 2 * x) = -x / 2 by ring]
    · rfl
  · rw [rvs_ok (by exact hd) (by exact zero_le_one (α := ℝ))]
    show Except.ok ((ofDensity fun x =>
      Real.Gamma ((df + 1) / 2) / (√(Real.pi * df) * Real.Gamma (df / 2)) *
        (1 + x ^ 2 / df) ^ (-(df + 1) / 2)).map fun z => 0 + 1 * z) = _
    simp only [zero_add, one_mul, Measure.map_id']
    congr 1
    refine density_congr fun x => ?_
    rw [mul_comm Real.pi, neg_div]

/-- **C111 (Gompertz).** `eta` is the shape and `b` the scale. -/
theorem C111_gompertz (classes : List GeneratorClass) (hp : classes.Perm generatorClasses)
    (eta b : ℝ) (he : 0 < eta) (hb : 0 < b) (n : ℕ) :
    ∃ G, getAvailableGenerator classes .gompertz (some [("eta", eta), ("b", b)]) = .ok G ∧
      G.generate n = .ok (iid n (gompertzLaw eta b)) := by
  refine sampled hp (g := gompertzGenerator) (by simp [generatorClasses]) rfl rfl ?_ n
  rw [rvs_ok (by exact he) (by exact hb.le)]
  show Except.ok ((ofDensity fun x =>
    if 0 ≤ x then eta * Real.exp x * Real.exp (-eta * (Real.exp x - 1)) else 0).map
      fun z => 0 + b * z) = _
  rw [map_affine_density 0 hb (Measurable.ite measurableSet_Ici (by fun_prop) measurable_const)
    (fun x => by split_ifs <;> positivity)]
  congr 1
  refine density_congr fun x => ?_
  rw [sub_zero]
  have h0 : 0 ≤ x / b ↔ 0 ≤ x := by rw [le_div_iff₀ hb, zero_mul]
  simp only [h0]
  split_ifs
  · rw [neg_mul]; ring
  · simp

/-- **C111 (contaminated normals).** For `size ≥ 1`, `0 ≤ p ≤ 1` and `b ≥ 0`: independent
observations, each normal with mean `a` and standard deviation `b` with probability `p` and standard
normal otherwise (`a = 0` for the scale, `b = 1` for the location version). -/
theorem C111_contaminated (classes : List GeneratorClass) (hp : classes.Perm generatorClasses)
    (p a b : ℝ) (hpp : 0 ≤ p ∧ p ≤ 1) (hb : 0 ≤ b) (n : ℕ) (hn : n ≠ 0) :
    (∃ G, getAvailableGenerator classes .mixConNormal (some [("p", p), ("a", a), ("b", b)]) = .ok G ∧
      G.generate n = .ok (iid n (contaminatedNormal p a b))) ∧
    (∃ G, getAvailableGenerator classes .loConNormal (some [("p", p), ("a", a)]) = .ok G ∧
      G.generate n = .ok (iid n (contaminatedNormal p a 1))) ∧
    (∃ G, getAvailableGenerator classes .scaleConNormal (some [("p", p), ("b", b)]) = .ok G ∧
      G.generate n = .ok (iid n (contaminatedNormal p 0 b))) := by
  refine ⟨⟨_, getAvailable_eq hp (g := mixConNormGenerator) (by simp [generatorClasses]) _,
      generate_mixture rfl rfl hpp hb n hn⟩,
    ⟨_, getAvailable_eq hp (g := loConNormGenerator) (by simp [generatorClasses]) _,
      generate_mixture rfl rfl hpp zero_le_one n hn⟩,
    ⟨_, getAvailable_eq hp (g := scConNormGenerator) (by simp [generatorClasses]) _,
      generate_mixture rfl rfl hpp hb n hn⟩⟩

example : (0 : ℝ) ≤ 4 ∧ (0 : ℝ) < 3 ∧ (1 : ℝ) < 2 ∧ (0 : ℝ) ≤ 1 / 4 ∧ (1 / 4 : ℝ) ≤ 1 ∧ (5 : ℕ) ≠ 0 := by
  norm_num

/-- Two draws from the generator for mean 5 and variance 4. -/
example : ∃ G, getAvailableGenerator generatorClasses .normal (some [("mean", 5), ("var", 4)]) = .ok G ∧
    G.generate 2 = .ok (iid 2 (gaussianReal 5 (4 : ℝ).toNNReal)) :=
  C111_normal _ (List.Perm.refl _) 5 4 (by norm_num) 2

/-! ### Laws that are not the announced ones -/

theorem cond_map_affine (t : ℝ) {c : ℝ} (hc : 0 < c) (μ : Measure ℝ) (a b : ℝ) :
    (ProbabilityTheory.cond μ (Set.Icc a b)).map (fun z => t + c * z) =
      ProbabilityTheory.cond (μ.map fun z => t + c * z) (Set.Icc (t + c * a) (t + c * b)) := by
  have hm : Measurable fun z : ℝ => t + c * z := by fun_prop
  have hpre : (fun z : ℝ => t + c * z) ⁻¹' Set.Icc (t + c * a) (t + c * b) = Set.Icc a b := by
    ext z
    simp only [Set.mem_preimage, Set.mem_Icc, add_le_add_iff_left, mul_le_mul_iff_right₀ hc]
  ext s hs
  rw [Measure.map_apply hm hs, cond_apply measurableSet_Icc, cond_apply measurableSet_Icc,
    Measure.map_apply hm measurableSet_Icc, Measure.map_apply hm (measurableSet_Icc.inter hs),
    Set.preimage_inter, hpre]

/-- **C111, what holds (truncated normal).** The generator samples the normal law with mean `mean`
and variance `var` truncated to `[mean + √var a, mean + √var b]`, hence to the announced `[a, b]`
when `mean = 0` and `var = 1`. Missing: all other means and variances, for which it is false (see
`C74_refuted`). -/
theorem C111_truncNormal_partial (classes : List GeneratorClass)
    (hp : classes.Perm generatorClasses) (mean var a b : ℝ) (hv : 0 < var) (hab : a < b) (n : ℕ) :
    (∃ G, getAvailableGenerator classes .truncNormal
        (some [("mean", mean), ("var", var), ("a", a), ("b", b)]) = .ok G ∧
      G.generate n = .ok (iid n (truncNormalLaw mean var (mean + √var * a) (mean + √var * b)))) ∧
    (∃ G, getAvailableGenerator classes .truncNormal
        (some [("mean", 0), ("var", 1), ("a", a), ("b", b)]) = .ok G ∧
      G.generate n = .ok (iid n (truncNormalLaw 0 1 a b))) := by
  have key : ∀ m v : ℝ, 0 < v → ∃ G, getAvailableGenerator classes .truncNormal
        (some [("mean", m), ("var", v), ("a", a), ("b", b)]) = .ok G ∧
      G.generate n = .ok (iid n (truncNormalLaw m v (m + √v * a) (m + √v * b))) := by
    intro m v hv
    refine sampled hp (g := truncnormGenerator) (by simp [generatorClasses]) rfl rfl ?_ n
    rw [rvs_ok (by exact hab) (by exact Real.sqrt_nonneg _)]
    show Except.ok ((ProbabilityTheory.cond (gaussianReal 0 1) (Set.Icc a b)).map
      fun z => m + √v * z) = _
    rw [cond_map_affine m (Real.sqrt_pos.2 hv), gaussian_affine, Real.sq_sqrt hv.le]
    rfl
  refine ⟨key mean var hv, ?_⟩
  have := key 0 1 one_pos
  simpa using this

/-- **C111, what holds (inverse Gaussian).** The generator samples the inverse Gaussian law with
shape `lam` and mean `mu * lam`, hence the announced one when `lam = 1`. Missing: all other `lam`,
for which the mean is wrong (see `C74_refuted`). -/
theorem C111_invGauss_partial (classes : List GeneratorClass)
    (hp : classes.Perm generatorClasses) (mu lam : ℝ) (hm : 0 < mu) (hl : 0 < lam) (n : ℕ) :
    (∃ G, getAvailableGenerator classes .invGauss (some [("mu", mu), ("lam", lam)]) = .ok G ∧
      G.generate n = .ok (iid n (invGaussLaw (mu * lam) lam))) ∧
    (∃ G, getAvailableGenerator classes .invGauss (some [("mu", mu), ("lam", 1)]) = .ok G ∧
      G.generate n = .ok (iid n (invGaussLaw mu 1))) := by
  have key : ∀ l : ℝ, 0 < l →
      ∃ G, getAvailableGenerator classes .invGauss (some [("mu", mu), ("lam", l)]) = .ok G ∧
      G.generate n = .ok (iid n (invGaussLaw (mu * l) l)) := by
    intro l hl
    refine sampled hp (g := invGaussGenerator) (by simp [generatorClasses]) rfl rfl ?_ n
    rw [rvs_ok (by exact hm) (by exact hl.le)]
    show Except.ok ((ofDensity fun x => if 0 < x then
      1 / √(2 * Real.pi * x ^ 3) * Real.exp (-(x - mu) ^ 2 / (2 * x * mu ^ 2)) else 0).map
      fun z => 0 + l * z) = _
    rw [map_affine_density 0 hl (Measurable.ite measurableSet_Ioi (by fun_prop) measurable_const)
      (fun x => by split_ifs <;> positivity)]
    congr 1
    refine density_congr fun x => ?_
    rw [sub_zero]
    have h0 : 0 < x / l ↔ 0 < x := by rw [lt_div_iff₀ hl, zero_mul]
    simp only [h0]
    split_ifs with hx
    · have e1 : l⁻¹ * (1 / √(2 * Real.pi * (x / l) ^ 3)) = √(l / (2 * Real.pi * x ^ 3)) := by
        rw [← Real.sqrt_sq (inv_nonneg.2 hl.le), one_div, ← Real.sqrt_inv,
          ← Real.sqrt_mul (sq_nonneg _)]
        congr 1
        have := Real.pi_pos
        field_simp
      have e2 : -(x / l - mu) ^ 2 / (2 * (x / l) * mu ^ 2) =
          -(l * (x - mu * l) ^ 2) / (2 * (mu * l) ^ 2 * x) := by
        field_simp
      rw [← mul_assoc, e1, e2]
    · simp
  refine ⟨key lam hl, ?_⟩
  have := key 1 one_pos
  rwa [mul_one] at this

/-- **C111, what holds (Weibull).** The generator samples the law with distribution function
`(1 - exp (-x^k))^a`; for `a = 1` this is the announced Weibull law with scale 1. Missing: the
announced scale `a ≠ 1` (see `C74_refuted`). -/
theorem C111_weibull_partial (classes : List GeneratorClass)
    (hp : classes.Perm generatorClasses) (k : ℝ) (hk : 0 < k) (n : ℕ) :
    ∃ G, getAvailableGenerator classes .weibull (some [("a", 1), ("k", k)]) = .ok G ∧
      G.generate n = .ok (iid n (weibullLaw 1 k)) := by
  refine sampled hp (g := weibullGenerator) (by simp [generatorClasses]) rfl rfl ?_ n
  rw [rvs_ok (by exact ⟨one_pos, hk⟩) (by exact zero_le_one (α := ℝ))]
  show Except.ok ((ofDensity fun x => if 0 < x then
    1 * k * (1 - Real.exp (-x ^ k)) ^ ((1 : ℝ) - 1) * Real.exp (-x ^ k) * x ^ (k - 1)
    else 0).map fun z => 0 + 1 * z) = _
  simp only [zero_add, one_mul, Measure.map_id']
  congr 1
  refine density_congr fun x => ?_
  simp only [sub_self, Real.rpow_zero, div_one, mul_one]
  split_ifs
  · ring
  · rfl

theorem rice_affine (b : ℝ) {s : ℝ} (hs : 0 ≤ s) :
    (((gaussianReal 0 1).prod (gaussianReal 0 1)).map
      fun z => √((b + z.1) ^ 2 + z.2 ^ 2)).map (fun r => 0 + s * r) = riceLaw (b * s) s := by
  rw [Measure.map_map (by fun_prop) (by fun_prop), riceLaw, ← gaussian_affine (b * s) s,
    ← gaussian_affine 0 s, Measure.map_prod_map _ _ (by fun_prop) (by fun_prop),
    Measure.map_map (by fun_prop) (by fun_prop)]
  congr 1
  funext z
  simp only [Function.comp, Prod.map, zero_add]
  rw [show (b * s + s * z.1) ^ 2 + (s * z.2) ^ 2 = s ^ 2 * ((b + z.1) ^ 2 + z.2 ^ 2) by ring,
    Real.sqrt_mul (sq_nonneg s), Real.sqrt_sq hs]

/-- **C111, what holds (Rice).** The generator samples the Rice law whose centre is at distance
`nu * sigma`, hence the announced one when `sigma = 1` or `nu = 0`. -/
theorem C111_rice_partial (classes : List GeneratorClass)
    (hp : classes.Perm generatorClasses) (nu sigma : ℝ) (hn : 0 ≤ nu) (hs : 0 ≤ sigma) (n : ℕ) :
    ∃ G, getAvailableGenerator classes .rice (some [("nu", nu), ("sigma", sigma)]) = .ok G ∧
      G.generate n = .ok (iid n (riceLaw (nu * sigma) sigma)) ∧
      (sigma = 1 ∨ nu = 0 → G.generate n = .ok (iid n (riceLaw nu sigma))) := by
  obtain ⟨G, h1, h2⟩ : ∃ G, getAvailableGenerator classes .rice
      (some [("nu", nu), ("sigma", sigma)]) = .ok G ∧
      G.generate n = .ok (iid n (riceLaw (nu * sigma) sigma)) := by
    refine sampled hp (g := riceGenerator) (by simp [generatorClasses]) rfl rfl ?_ n
    rw [rvs_ok (by exact hn) (by exact hs), ← rice_affine nu hs]
    rfl
  refine ⟨G, h1, h2, ?_⟩
  rintro (rfl | rfl)
  · rwa [mul_one] at h2
  · rwa [zero_mul] at h2

example : (0 : ℝ) ≤ 1 ∧ (0 : ℝ) ≤ 2 := by norm_num

theorem iid_inj {μ ν : Measure ℝ} [IsProbabilityMeasure μ] [IsProbabilityMeasure ν] {n : ℕ}
    (hn : n ≠ 0) (h : iid n μ = iid n ν) : μ = ν := by
  obtain ⟨n, rfl⟩ := Nat.exists_eq_succ_of_ne_zero hn
  have e1 := (measurePreserving_eval (fun _ : Fin (n + 1) => μ) 0).map_eq
  have e2 := (measurePreserving_eval (fun _ : Fin (n + 1) => ν) 0).map_eq
  rw [← e1, ← e2]
  exact congrArg (Measure.map (Function.eval (0 : Fin (n + 1)))) h

instance rice_prob (nu sigma : ℝ) : IsProbabilityMeasure (riceLaw nu sigma) :=
  Measure.isProbabilityMeasure_map (by fun_prop)

theorem gaussian_second_moment (m : ℝ) (v : NNReal) :
    Integrable (fun x => x ^ 2) (gaussianReal m v) ∧ ∫ x, x ^ 2 ∂(gaussianReal m v) = m ^ 2 + v := by
  have hL : MemLp id 2 (gaussianReal m v) := memLp_id_gaussianReal 2
  have hi : Integrable (fun x => x ^ 2) (gaussianReal m v) := hL.integrable_sq
  refine ⟨hi, ?_⟩
  have h := variance_eq_sub hL
  rw [variance_id_gaussianReal] at h
  simp only [Pi.pow_apply, id_eq, integral_id_gaussianReal] at h
  linarith

/-- The mean square of the Rice law is `nu² + 2 sigma²`. -/
theorem rice_second_moment (nu sigma : ℝ) :
    ∫ r, r ^ 2 ∂(riceLaw nu sigma) = nu ^ 2 + 2 * sigma ^ 2 := by
  obtain ⟨i1, m1⟩ := gaussian_second_moment nu (sigma ^ 2).toNNReal
  obtain ⟨i2, m2⟩ := gaussian_second_moment 0 (sigma ^ 2).toNNReal
  rw [riceLaw, integral_map (by fun_prop) (by fun_prop)]
  have e : ∀ z : ℝ × ℝ, √(z.1 ^ 2 + z.2 ^ 2) ^ 2 = z.1 ^ 2 + z.2 ^ 2 :=
    fun z => Real.sq_sqrt (by positivity)
  simp only [e]
  rw [integral_add (i1.comp_fst _) (i2.comp_snd _), integral_fun_fst (fun x : ℝ => x ^ 2),
    integral_fun_snd (fun x : ℝ => x ^ 2), m1, m2, Real.coe_toNNReal _ (sq_nonneg sigma)]
  simp
  ring

/-- **C111, refuted (Rice).** For every distance `nu > 0` and every scale `sigma > 0` other than 1,
and every size, the sample does not follow the announced Rice law: its mean square is
`nu² sigma² + 2 sigma²` instead of `nu² + 2 sigma²`. -/
theorem C111_refuted_rice (classes : List GeneratorClass) (hp : classes.Perm generatorClasses)
    (nu sigma : ℝ) (hn : 0 < nu) (hs : 0 < sigma) (h1 : sigma ≠ 1) (n : ℕ) (hn0 : n ≠ 0) :
    ∃ G, getAvailableGenerator classes .rice (some [("nu", nu), ("sigma", sigma)]) = .ok G ∧
      G.generate n ≠ .ok (iid n (riceLaw nu sigma)) := by
  obtain ⟨G, hG, hgen, -⟩ := C111_rice_partial classes hp nu sigma hn.le hs.le n
  refine ⟨G, hG, ?_⟩
  rw [hgen]
  intro h
  have h' := iid_inj hn0 (Except.ok.inj h)
  have hm := rice_second_moment nu sigma
  rw [← h', rice_second_moment] at hm
  have : nu ^ 2 * (sigma - 1) * (sigma + 1) = 0 := by linarith [mul_pow nu sigma 2]
  rcases mul_eq_zero.1 this with h2 | h2
  · rcases mul_eq_zero.1 h2 with h3 | h3
    · exact absurd h3 (by positivity)
    · exact h1 (by linarith)
  · linarith

example : (0 : ℝ) < 1 ∧ (0 : ℝ) < 2 ∧ (2 : ℝ) ≠ 1 ∧ (1 : ℕ) ≠ 0 := by norm_num

/-- **C111, refuted (truncated normal).** The generator announced to truncate the normal law with
mean 5 and variance 1 to `[0, 1]` gives `[0, 1]` probability 0. -/
theorem C111_refuted_truncNormal (classes : List GeneratorClass)
    (hp : classes.Perm generatorClasses) :
    ∃ G, getAvailableGenerator classes .truncNormal
        (some [("mean", 5), ("var", 1), ("a", 0), ("b", 1)]) = .ok G ∧
      ∃ μ, G.generate 1 = .ok (iid 1 μ) ∧ μ (Set.Icc 0 1) = 0 ∧
        truncNormalLaw 5 1 0 1 (Set.Icc 0 1) = 1 := by
  obtain ⟨⟨G, h1, h2⟩, -⟩ := C111_truncNormal_partial classes hp 5 1 0 1 one_pos one_pos 1
  refine ⟨G, h1, _, h2, ?_, ?_⟩
  · rw [truncNormalLaw, cond_apply measurableSet_Icc]
    have : Set.Icc ((5 : ℝ) + √1 * 0) (5 + √1 * 1) ∩ Set.Icc 0 1 = ∅ := by
      ext x
      simp only [Real.sqrt_one, Set.mem_inter_iff, Set.mem_Icc, Set.mem_empty_iff_false, iff_false]
      intro h
      linarith [h.1.1, h.2.2]
    rw [this]
    simp
  · rw [truncNormalLaw]
    refine cond_apply_self ?_ (measure_ne_top _ _)
    intro h0
    have hac := gaussianReal_absolutelyContinuous' (5 : ℝ) (v := (1 : ℝ).toNNReal) (by simp)
    have := hac h0
    rw [Real.volume_Icc] at this
    norm_num at this

/-- **C111, refuted (empty sample).** `generate(0)` of the contaminated normal generators raises
`ValueError` whatever the parameters, while for instance that of the normal generator returns the
empty array. -/
theorem C111_refuted_empty (classes : List GeneratorClass) (hp : classes.Perm generatorClasses)
    (p a b : ℝ) :
    (∃ G, getAvailableGenerator classes .mixConNormal (some [("p", p), ("a", a), ("b", b)]) = .ok G ∧
      G.generate 0 = .error .valueError) ∧
    (∃ G, getAvailableGenerator classes .loConNormal (some [("p", p), ("a", a)]) = .ok G ∧
      G.generate 0 = .error .valueError) ∧
    (∃ G, getAvailableGenerator classes .scaleConNormal (some [("p", p), ("b", b)]) = .ok G ∧
      G.generate 0 = .error .valueError) ∧
    (∃ G, getAvailableGenerator classes .normal (some [("mean", 0), ("var", 1)]) = .ok G ∧
      ∃ μ, G.generate 0 = .ok μ) := by
  refine ⟨⟨_, getAvailable_eq hp (g := mixConNormGenerator) (by simp [generatorClasses]) _, rfl⟩,
    ⟨_, getAvailable_eq hp (g := loConNormGenerator) (by simp [generatorClasses]) _, rfl⟩,
    ⟨_, getAvailable_eq hp (g := scConNormGenerator) (by simp [generatorClasses]) _, rfl⟩, ?_⟩
  obtain ⟨G, h1, h2⟩ := C111_normal classes hp 0 1 zero_le_one 0
  exact ⟨G, h1, _, h2⟩

/-! ### C112: parameters the descriptors accept -/

theorem generate_ok_iff_plain {G : Generator} {d : Scipy} (hg : G.law = .plain d) (n : ℕ) :
    (∃ μ, G.generate n = .ok μ) ↔ d.argcheck ∧ 0 ≤ d.scale := by
  unfold Generator.generate
  rw [hg]
  simp only [Law.draw, Scipy.rvs]
  split_ifs with h
  · exact ⟨fun _ => h, fun _ => ⟨_, rfl⟩⟩
  · exact ⟨fun ⟨_, h'⟩ => by simp [Except.map] at h', fun h' => absurd h' h⟩

theorem generate_ok_mixture {G : Generator} {p a b : ℝ}
    (hg : G.law = .mixture p { name := "norm", loc := a, scale := b } { name := "norm" })
    (hp : 0 ≤ p ∧ p ≤ 1) (hb : 0 ≤ b) (n : ℕ) (hn : n ≠ 0) : ∃ μ, G.generate n = .ok μ :=
  ⟨_, generate_mixture hg rfl hp hb n hn⟩

/-- The two things to check for a plain generator. -/
theorem accepted {classes : List GeneratorClass} (hp : classes.Perm generatorClasses)
    {g : GeneratorClass} (hg : g ∈ generatorClasses) {kw attrs : Kw}
    (hc : g.construct kw = .ok attrs) {d : Scipy} (hl : g.law attrs = .plain d) (n : ℕ) {P : Prop}
    (hP : (d.argcheck ∧ 0 ≤ d.scale) ↔ P) :
    ∃ G, getAvailableGenerator classes g.dist (some kw) = .ok G ∧
      ((∃ μ, G.generate n = .ok μ) ↔ P) := by
  refine ⟨⟨g.cls, attrs, g.law attrs⟩, ?_, (generate_ok_iff_plain hl n).trans hP⟩
  rw [getAvailable_eq hp hg, Option.getD_some, hc]
  rfl

theorem qpos {q : ℚ} (h : q > 0) : (0 : ℝ) < (q : ℝ) := by exact_mod_cast h

theorem qprob {q : ℚ} (h : 0 ≤ q ∧ q ≤ 1) : (0 : ℝ) ≤ (q : ℝ) ∧ (q : ℝ) ≤ 1 :=
  ⟨by exact_mod_cast h.1, by exact_mod_cast h.2⟩

/-- **C112, what holds.** For every distribution and all parameter values that satisfy the
validators of its descriptor, the generator is built, and generating a non-empty sample succeeds,
except that uniform needs `a ≤ b`, truncated normal `a < b` and Rice `nu ≥ 0`, which no validator
checks; in these cases it succeeds exactly under that condition. -/
theorem C112_accepted_partial (classes : List GeneratorClass)
    (hp : classes.Perm generatorClasses) (c : DescriptorClass) (hc : c ∈ descriptorClasses)
    (v : String → ℚ)
    (hv : ∀ p ∈ c.parameters, ∀ w, p.validator = some w → w.validate (v p.name) = true)
    (n : ℕ) (hn : n ≠ 0) :
    ∃ G, getAvailableGenerator classes c.type
        (some (c.parameters.map fun p => (p.name, (v p.name : ℝ)))) = .ok G ∧
      ((∃ μ, G.generate n = .ok μ) ↔ match c.type with
        | .uniform => v "a" ≤ v "b"
        | .truncNormal => v "a" < v "b"
        | .rice => 0 ≤ v "nu"
        | _ => True) := by
  simp only [descriptorClasses, List.mem_cons, List.not_mem_nil, or_false] at hc
  rcases hc with rfl | rfl | rfl | rfl | rfl | rfl | rfl | rfl | rfl | rfl | rfl | rfl | rfl |
    rfl | rfl | rfl | rfl | rfl | rfl | rfl | rfl <;>
  simp only [List.mem_cons, List.not_mem_nil, or_false, forall_eq_or_imp, forall_eq,
    Option.some.injEq, reduceCtorEq, false_imp_iff, implies_true, forall_eq', Validator.validate,
    decide_eq_true_eq, true_and, and_true] at hv
  · exact accepted hp (g := normalGenerator) (by simp [generatorClasses]) rfl rfl n
      (by exact ⟨fun _ => trivial, fun _ => ⟨trivial, Real.sqrt_nonneg _⟩⟩)
  · exact accepted hp (g := exponentialGenerator) (by simp [generatorClasses]) rfl rfl n
      (by exact ⟨fun _ => trivial, fun _ => ⟨trivial, one_div_nonneg.2 ((qpos hv).le)⟩⟩)
  · exact accepted hp (g := weibullGenerator) (by simp [generatorClasses]) rfl rfl n
      (by exact ⟨fun _ => trivial, fun _ => ⟨⟨qpos hv.1, qpos hv.2⟩,
        zero_le_one (α := ℝ)⟩⟩)
  · exact accepted hp (g := uniformGenerator) (by simp [generatorClasses]) rfl rfl n
      (by
        show True ∧ (0 : ℝ) ≤ (v "b" : ℝ) - (v "a" : ℝ) ↔ _
        rw [sub_nonneg]; simp)
  · exact accepted hp (g := studentGenerator) (by simp [generatorClasses]) rfl rfl n
      (by exact ⟨fun _ => trivial, fun _ => ⟨qpos hv, zero_le_one (α := ℝ)⟩⟩)
  · exact accepted hp (g := gammaGenerator) (by simp [generatorClasses]) rfl rfl n
      (by exact ⟨fun _ => trivial, fun _ => ⟨qpos hv.1,
        one_div_nonneg.2 ((qpos hv.2).le)⟩⟩)
  · exact accepted hp (g := betaGenerator) (by simp [generatorClasses]) rfl rfl n
      (by exact ⟨fun _ => trivial, fun _ => ⟨⟨qpos hv.1, qpos hv.2⟩,
        zero_le_one (α := ℝ)⟩⟩)
  · exact accepted hp (g := lognormGenerator) (by simp [generatorClasses]) rfl rfl n
      (by exact ⟨fun _ => trivial, fun _ => ⟨zero_lt_one (α := ℝ), (Real.exp_pos _).le⟩⟩)
  · exact accepted hp (g := cauchyGenerator) (by simp [generatorClasses]) rfl rfl n
      (by exact ⟨fun _ => trivial, fun _ => ⟨trivial, (qpos hv).le⟩⟩)
  · exact accepted hp (g := chi2Generator) (by simp [generatorClasses]) rfl rfl n
      (by exact ⟨fun _ => trivial, fun _ => ⟨qpos hv, zero_le_one (α := ℝ)⟩⟩)
  · exact accepted hp (g := gompertzGenerator) (by simp [generatorClasses]) rfl rfl n
      (by exact ⟨fun _ => trivial, fun _ => ⟨qpos hv.1, (qpos hv.2).le⟩⟩)
  · exact accepted hp (g := gumbelGenerator) (by simp [generatorClasses]) rfl rfl n
      (by exact ⟨fun _ => trivial, fun _ => ⟨trivial, (qpos hv).le⟩⟩)
  · exact accepted hp (g := invGaussGenerator) (by simp [generatorClasses]) rfl rfl n
      (by exact ⟨fun _ => trivial, fun _ => ⟨qpos hv.1, (qpos hv.2).le⟩⟩)
  · exact accepted hp (g := laplaceGenerator) (by simp [generatorClasses]) rfl rfl n
      (by exact ⟨fun _ => trivial, fun _ => ⟨trivial, (qpos hv).le⟩⟩)
  · refine ⟨_, getAvailable_eq hp (g := loConNormGenerator) (by simp [generatorClasses]) _,
      fun _ => trivial, fun _ => generate_ok_mixture rfl ?_ (zero_le_one (α := ℝ)) n hn⟩
    exact qprob hv
  · refine ⟨_, getAvailable_eq hp (g := mixConNormGenerator) (by simp [generatorClasses]) _,
      fun _ => trivial, fun _ => generate_ok_mixture rfl ?_ ?_ n hn⟩
    · exact qprob hv.1
    · exact (qpos hv.2).le
  · refine ⟨_, getAvailable_eq hp (g := scConNormGenerator) (by simp [generatorClasses]) _,
      fun _ => trivial, fun _ => generate_ok_mixture rfl ?_ ?_ n hn⟩
    · exact qprob hv.1
    · exact (qpos hv.2).le
  · exact accepted hp (g := truncnormGenerator) (by simp [generatorClasses]) rfl rfl n
      (by
        show ((v "a" : ℝ) < (v "b" : ℝ)) ∧ (0 : ℝ) ≤ √(v "var" : ℝ) ↔ _
        simp [Real.sqrt_nonneg])
  · exact accepted hp (g := logisticGenerator) (by simp [generatorClasses]) rfl rfl n
      (by exact ⟨fun _ => trivial, fun _ => ⟨trivial, (qpos hv).le⟩⟩)
  · exact accepted hp (g := riceGenerator) (by simp [generatorClasses]) rfl rfl n
      (by
        show ((0 : ℝ) ≤ (v "nu" : ℝ)) ∧ (0 : ℝ) ≤ (v "sigma" : ℝ) ↔ _
        have : (0 : ℝ) ≤ (v "sigma" : ℝ) := by exact_mod_cast hv
        simp [this])
  · exact accepted hp (g := tukeyGenerator) (by simp [generatorClasses]) rfl rfl n
      (by exact ⟨fun _ => trivial, fun _ => ⟨trivial, zero_le_one (α := ℝ)⟩⟩)

/-- The default parameters of the normal descriptor are accepted, and ten values are drawn. -/
example : ∃ G, getAvailableGenerator generatorClasses .normal (some [("mean", 0), ("var", 1)]) = .ok G ∧
    ∃ μ, G.generate 10 = .ok μ := by
  obtain ⟨G, h, h'⟩ := C112_accepted_partial generatorClasses (List.Perm.refl _)
    ⟨.normal, [⟨"mean", 0, none⟩, ⟨"var", 1, some .positive⟩]⟩ (by decide)
    (fun s => if s = "var" then 1 else 0) (by decide +kernel) 10 (by norm_num)
  refine ⟨G, ?_, h'.2 trivial⟩
  rw [← h]
  simp

/-- **C112, refuted.** Parameters accepted by the descriptors whose generation raises `ValueError`:
uniform with `a = 2, b = 1`, truncated normal with `a = 1, b = 0`, Rice with `nu = -1`. Besides, the
inverse Gaussian and Gompertz generators built with their own default parameters raise it, and
the Cauchy, Laplace, logistic, Student and Tukey generators cannot be built by default. -/
theorem C112_refuted (classes : List GeneratorClass) (hp : classes.Perm generatorClasses) (n : ℕ) :
    (∃ G, getAvailableGenerator classes .uniform (some [("a", 2), ("b", 1)]) = .ok G ∧
      ¬ ∃ μ, G.generate n = .ok μ) ∧
    (∃ G, getAvailableGenerator classes .truncNormal
        (some [("mean", 0), ("var", 1), ("a", 1), ("b", 0)]) = .ok G ∧
      ¬ ∃ μ, G.generate n = .ok μ) ∧
    (∃ G, getAvailableGenerator classes .rice (some [("nu", -1), ("sigma", 1)]) = .ok G ∧
      ¬ ∃ μ, G.generate n = .ok μ) ∧
    (∃ G, getAvailableGenerator classes .invGauss none = .ok G ∧ ¬ ∃ μ, G.generate n = .ok μ) ∧
    (∃ G, getAvailableGenerator classes .gompertz none = .ok G ∧ ¬ ∃ μ, G.generate n = .ok μ) ∧
    (∀ d ∈ [DistributionType.cauchy, .laplace, .logistic, .student, .tukey],
      getAvailableGenerator classes d none = .error .typeError) := by
  refine ⟨⟨_, getAvailable_eq hp (g := uniformGenerator) (by simp [generatorClasses]) _, ?_⟩,
    ⟨_, getAvailable_eq hp (g := truncnormGenerator) (by simp [generatorClasses]) _, ?_⟩,
    ⟨_, getAvailable_eq hp (g := riceGenerator) (by simp [generatorClasses]) _, ?_⟩,
    ⟨_, getAvailable_eq hp (g := invGaussGenerator) (by simp [generatorClasses]) _, ?_⟩,
    ⟨_, getAvailable_eq hp (g := gompertzGenerator) (by simp [generatorClasses]) _, ?_⟩, ?_⟩
  · rw [generate_ok_iff_plain rfl]
    show ¬ (True ∧ (0 : ℝ) ≤ 1 - 2)
    norm_num
  · rw [generate_ok_iff_plain rfl]
    show ¬ ((1 : ℝ) < 0 ∧ _)
    norm_num
  · rw [generate_ok_iff_plain rfl]
    show ¬ ((0 : ℝ) ≤ -1 ∧ _)
    norm_num
  · rw [generate_ok_iff_plain rfl]
    show ¬ ((0 : ℝ) < 0 ∧ _)
    norm_num
  · rw [generate_ok_iff_plain rfl]
    show ¬ ((0 : ℝ) < 0 ∧ _)
    norm_num
  · intro d hd
    simp only [List.mem_cons, List.not_mem_nil, or_false] at hd
    rcases hd with rfl | rfl | rfl | rfl | rfl
    · exact getAvailable_eq hp (g := cauchyGenerator) (by simp [generatorClasses]) _
    · exact getAvailable_eq hp (g := laplaceGenerator) (by simp [generatorClasses]) _
    · exact getAvailable_eq hp (g := logisticGenerator) (by simp [generatorClasses]) _
    · exact getAvailable_eq hp (g := studentGenerator) (by simp [generatorClasses]) _
    · exact getAvailable_eq hp (g := tukeyGenerator) (by simp [generatorClasses]) _

end Pysatl.Props
