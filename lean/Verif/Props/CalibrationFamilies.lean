import Verif.Props.Calibration
import Verif.Lemmas.ListMeasurable
import Verif.Lemmas.NoTies
import Verif.Lemmas.Gaussian
import Verif.Props.Normal
import Verif.Props.Exponent
import Verif.Props.LogNormal
import Verif.Props.GeneratorLaws
import Mathlib.MeasureTheory.Group.MeasurableEquiv

/-! # C123: reference values simulated for one member of the family serve the whole family -/

namespace Pysatl.Props

open Pysatl.Decision Pysatl.Resolver Pysatl.Spec Pysatl.Normal Pysatl.Exponent Pysatl.LogNormal Pysatl.Graph
open Pysatl.Gen
open MeasureTheory ProbabilityTheory

/-! ### The functions of scipy are measurable -/

theorem PhiInv_le_iff {p : ℝ} (h0 : 0 < p) (h1 : p < 1) (c : ℝ) : PhiInv p ≤ c ↔ p ≤ Phi c := by
  rw [← Phi_strictMono.le_iff_le, Phi_PhiInv h0 h1]

theorem PhiInv_outside {p : ℝ} (h : p ≤ 0 ∨ 1 ≤ p) : PhiInv p = 0 := by
  unfold PhiInv
  rcases h with h | h
  · have : {x | p ≤ Phi x} = Set.univ := Set.eq_univ_of_forall fun x => h.trans (cdf_nonneg _ _)
    rw [this, Real.sInf_univ]
  · have : {x | p ≤ Phi x} = ∅ := by
      refine Set.eq_empty_of_forall_notMem fun x hx => ?_
      have h1 : Phi x < Phi (x + 1) := Phi_strictMono (by linarith)
      have h2 : Phi (x + 1) ≤ 1 := cdf_le_one _ _
      have h3 : p ≤ Phi x := hx
      linarith
    rw [this, Real.sInf_empty]

theorem measurable_PhiInv : Measurable PhiInv := by
  refine measurable_of_Iic fun c => ?_
  have : PhiInv ⁻¹' Set.Iic c = (Set.Ioo 0 1 ∩ Set.Iic (Phi c)) ∪ ((Set.Ioo 0 1)ᶜ ∩ {_p | (0 : ℝ) ≤ c}) := by
    ext p
    simp only [Set.mem_preimage, Set.mem_Iic, Set.mem_union, Set.mem_inter_iff, Set.mem_compl_iff, Set.mem_Ioo,
      Set.mem_ofPred_eq]
    by_cases h : 0 < p ∧ p < 1
    · simp [h, PhiInv_le_iff h.1 h.2]
    · have h' : p ≤ 0 ∨ 1 ≤ p := by
        by_contra hc; push Not at hc; exact h hc
      simp [h, PhiInv_outside h']
  rw [this]
  exact (measurableSet_Ioo.inter measurableSet_Iic).union (measurableSet_Ioo.compl.inter (by measurability))

theorem scipyNorm_measurable : NormLibMeasurable scipyNorm where
  cdf := Phi_continuous.measurable
  pdf := by
    show Measurable (gaussianPDFReal 0 1)
    exact measurable_gaussianPDFReal 0 1
  ppf := measurable_PhiInv
  logcdf := Phi_continuous.measurable.log
  logsf := (measurable_const.sub Phi_continuous.measurable).log
  betaCdf a b := by
    show Measurable fun p => incBeta p a b
    unfold incBeta
    refine Measurable.div_const (Continuous.measurable ?_) _
    exact intervalIntegral.continuous_primitive (fun u v => (by fun_prop : Continuous fun x : ℝ =>
      x ^ (a - 1) * (1 - x) ^ (b - 1)).intervalIntegrable u v) 0

/-! ### One member of the family is the image of another -/

theorem iid_map {n : ℕ} (μ : Measure ℝ) [IsProbabilityMeasure μ] {φ : ℝ → ℝ} (hφ : Measurable φ) :
    (iid n μ).map (fun x i => φ (x i)) = iid n (μ.map φ) := by
  have : IsProbabilityMeasure (μ.map φ) := Measure.isProbabilityMeasure_map hφ.aemeasurable
  exact Measure.pi_map_pi fun _ => hφ.aemeasurable

instance {n : ℕ} (μ : Measure ℝ) [IsProbabilityMeasure μ] : IsProbabilityMeasure (iid n μ) := by
  unfold iid; infer_instance

/-- `a + b x` as a measurable equivalence. -/
noncomputable def affEquiv (a : ℝ) {b : ℝ} (hb : b ≠ 0) : ℝ ≃ᵐ ℝ :=
  (MeasurableEquiv.mulLeft₀ b hb).trans (MeasurableEquiv.addLeft a)

/-- If `μ'` is the image of `μ` under `a + b x` and the statistic does not notice such a change, it has the
same law under both: the same probability for every set of outcomes. -/
theorem same_law {V : Type} {n : ℕ} {μ μ' : Measure ℝ} [IsProbabilityMeasure μ] {a b : ℝ} (hb : b ≠ 0)
    (hμ : μ.map (fun x => a + b * x) = μ') {f : List ℝ → V}
    (hf : ∀ᵐ x ∂(iid n μ), f ((List.ofFn x).map fun t => a + b * t) = f (List.ofFn x)) (A : Set V) :
    iid n μ' {x | f (List.ofFn x) ∈ A} = iid n μ {x | f (List.ofFn x) ∈ A} := by
  have hT : (iid n μ).map (MeasurableEquiv.piCongrRight fun _ : Fin n => affEquiv a hb) = iid n μ' := by
    rw [← hμ, ← iid_map μ (by fun_prop)]
    rfl
  rw [← hT, MeasurableEquiv.map_apply]
  refine measure_congr ?_
  filter_upwards [hf] with x hx
  refine propext ?_
  show f (List.ofFn fun i => a + b * x i) ∈ A ↔ f (List.ofFn x) ∈ A
  rw [← hx, List.map_ofFn]
  rfl

theorem gaussian_affine' (m m₀ : ℝ) {v v₀ : ℝ} (hv : 0 < v) (hv₀ : 0 < v₀) :
    (gaussianReal m₀ v₀.toNNReal).map (fun x => (m - √(v / v₀) * m₀) + √(v / v₀) * x) =
      gaussianReal m v.toNNReal := by
  have h1 : (fun z : ℝ => (m - √(v / v₀) * m₀) + √(v / v₀) * z) =
      (fun z => (m - √(v / v₀) * m₀) + z) ∘ (fun z => √(v / v₀) * z) := rfl
  rw [h1, ← Measure.map_map (by fun_prop) (by fun_prop), gaussianReal_map_const_mul, gaussianReal_map_const_add]
  congr 1
  · ring
  · ext
    have hq : 0 ≤ v / v₀ := (div_pos hv hv₀).le
    push_cast
    rw [Real.coe_toNNReal _ hv.le, Real.coe_toNNReal _ hv₀.le]
    show √(v / v₀) ^ 2 * v₀ = v
    rw [Real.sq_sqrt hq, div_mul_cancel₀ _ hv₀.ne']

theorem normal_execute_aff {lib : NormLib} (hlib : lib.Symmetric) {s : NormStat} (hs : LocationScaleFree s)
    (code : String) (params : Option (List (String × ℝ))) (a b : ℝ) (hb : 0 < b) (xs : List ℝ) :
    (s.statistic lib code params).execute (xs.map fun x => a + b * x) = (s.statistic lib code params).execute xs := by
  show (s.value lib (xs.map fun x => a + b * x) >>= _) = (s.value lib xs >>= _)
  rw [C63_location_scale hlib hs a b hb]

/-- **C123, normal family.** For the thirty-six normality statistics other than Kolmogorov-Smirnov and
Cramér-von Mises, a sample of `N(m, v)` and a sample of `N(m₀, v₀)` give every set of outcomes the same
probability. -/
theorem C123_normal {lib : NormLib} (hlib : lib.Symmetric) {s : NormStat} (hs : LocationScaleFree s)
    (m m₀ : ℝ) {v v₀ : ℝ} (hv : 0 < v) (hv₀ : 0 < v₀) (n : ℕ) (A : Set (Except PyErr (Option ℝ))) :
    iid n (gaussianReal m v.toNNReal) {x | s.value lib (List.ofFn x) ∈ A} =
      iid n (gaussianReal m₀ v₀.toNNReal) {x | s.value lib (List.ofFn x) ∈ A} :=
  same_law (Real.sqrt_pos.2 (div_pos hv hv₀)).ne' (gaussian_affine' m m₀ hv hv₀)
    (.of_forall fun x => C63_location_scale hlib hs _ _ (Real.sqrt_pos.2 (div_pos hv hv₀)) _) A

example (A : Set (Except PyErr (Option ℝ))) :
    iid 7 (gaussianReal 100 (Real.toNNReal 15)) {x | NormStat.lilliefors.value scipyNorm (List.ofFn x) ∈ A} =
      iid 7 (gaussianReal 0 (Real.toNNReal 1)) {x | NormStat.lilliefors.value scipyNorm (List.ofFn x) ∈ A} :=
  C123_normal (s := .lilliefors) scipyNorm_symmetric trivial _ _ (by norm_num) one_pos 7 A

/-- **C123, normal family, the whole test.** The reference values come from the generator for `N(m₀, v₀)`,
the data from any `N(m, v)`.  The probability that the Monte Carlo test with `B` simulations rejects is at
most `⌊αB⌋ + 1` (two-tailed: `2 (⌊αB/2⌋ + 1)`) out of `B + 1`. -/
theorem C123_level_normal {lib : NormLib} (hlib : lib.Symmetric) (hl : NormLibMeasurable lib) {s : NormStat}
    (hs : LocationScaleFree s) (code : String) (params : Option (List (String × ℝ)))
    (classes : List GeneratorClass) (hp : classes.Perm generatorClasses)
    (m m₀ : ℝ) {v v₀ : ℝ} (hv : 0 < v) (hv₀ : 0 < v₀) {n B : ℕ} (hn : 0 < n) (hB : 0 < B)
    (hties : s.alternative ≠ .left → ∀ c : ℝ,
      iid n (gaussianReal m₀ v₀.toNNReal) {x | s.value lib (List.ofFn x) = .ok (some c)} = 0) (α : ℝ) :
    ∃ G M, getAvailableGenerator classes .normal (some [("mean", m₀), ("var", v₀)]) = .ok G ∧
      G.generate n = .ok M ∧
      ((iid n (gaussianReal m v.toNNReal)).prod (Measure.pi fun _ : Fin B => M))
        {ω | TestRejects (s.statistic lib code params) α ω.1 ω.2} ≤
        (rankBound s.alternative α B : ENNReal) / (B + 1 : ℕ) := by
  obtain ⟨G, hG, hgen⟩ := C111_normal classes hp m₀ v₀ hv₀.le n
  refine ⟨G, _, hG, hgen, ?_⟩
  have hb := Real.sqrt_pos.2 (div_pos hv hv₀)
  refine monteCarlo_level (s.statistic lib code params) hn hB
    (T := fun x i => (m - √(v / v₀) * m₀) + √(v / v₀) * x i) (by fun_prop) ?_ ?_ ?_ ?_ α
  · rw [iid_map _ (φ := fun t => (m - √(v / v₀) * m₀) + √(v / v₀) * t) (by fun_prop), gaussian_affine' m m₀ hv hv₀]
  · refine .of_forall fun x => ?_
    rw [← normal_execute_aff hlib hs code params (m - √(v / v₀) * m₀) _ hb (List.ofFn x), List.map_ofFn]
    rfl
  · exact outcomeMeas_normal hl s code params (listMeas_ofFn _)
  · intro h c
    refine measure_mono_null (fun x hx => ?_) (hties h c)
    have hx' : (s.value lib (List.ofFn x) >>= fun o => match o with
      | some v => (Except.ok v : Except PyErr ℝ)
      | none => .error .typeError) = .ok c := hx
    show s.value lib (List.ofFn x) = .ok (some c)
    rcases hval : s.value lib (List.ofFn x) with e | o
    · rw [hval] at hx'; cases hx'
    · rw [hval] at hx'
      cases o with
      | none => cases hx'
      | some w =>
        have : (Except.ok w : Except PyErr ℝ) = .ok c := hx'
        rw [Except.ok.inj this]

/-! ### Exponential family -/

theorem exp_of_density {r : ℝ} (hr : 0 < r) :
    (ofDensity fun x => if 0 ≤ x then Real.exp (-x) else 0).map (fun z => 0 + 1 / r * z) = expMeasure r := by
  rw [map_affine_density 0 (one_div_pos.2 hr)
    (Measurable.ite measurableSet_Ici (by fun_prop) measurable_const)
    (fun x => by split_ifs <;> positivity)]
  show _ = volume.withDensity (gammaPDF 1 r)
  rw [density]
  congr 1
  funext x
  rw [gammaPDF, gammaPDFReal]
  congr 1
  have hx : (x - 0) / (1 / r) = r * x := by field_simp; ring
  have h0 : 0 ≤ r * x ↔ 0 ≤ x := mul_nonneg_iff_of_pos_left hr
  rw [hx]
  simp only [h0]
  split_ifs <;> simp

theorem exp_affine {r r₀ : ℝ} (hr : 0 < r) (hr₀ : 0 < r₀) :
    (expMeasure r₀).map (fun x => 0 + r₀ / r * x) = expMeasure r := by
  rw [← exp_of_density hr₀, ← exp_of_density hr, Measure.map_map (by fun_prop) (by fun_prop)]
  congr 1
  funext x
  simp only [Function.comp]
  field_simp
  ring

instance (r : ℝ) : NullSingletonClass (expMeasure r) := by
  unfold expMeasure gammaMeasure; infer_instance

theorem exp_pos {r : ℝ} (hr : 0 < r) : ∀ᵐ x ∂(expMeasure r), 0 < x := by
  have : IsProbabilityMeasure (expMeasure r) := isProbabilityMeasure_expMeasure hr
  have h : (expMeasure r).real (Set.Iic 0) = 0 := by
    rw [← cdf_eq_real, cdf_expMeasure_eq hr]
    simp
  rw [measureReal_eq_zero_iff] at h
  refine measure_mono_null (fun x hx => ?_) h
  simpa using hx

theorem iid_ae {n : ℕ} {μ : Measure ℝ} [IsProbabilityMeasure μ] {p : ℝ → Prop} (h : ∀ᵐ x ∂μ, p x) :
    ∀ᵐ x ∂(iid n μ), ∀ i, p (x i) :=
  ae_all_iff.2 fun i => (measurePreserving_eval (fun _ : Fin n => μ) i).quasiMeasurePreserving.ae h

theorem exponential_good {r : ℝ} (hr : 0 < r) (n : ℕ) :
    ∀ᵐ x ∂(iid n (expMeasure r)), (∀ t ∈ List.ofFn x, 0 < t) ∧ (List.ofFn x).Nodup := by
  have : IsProbabilityMeasure (expMeasure r) := isProbabilityMeasure_expMeasure hr
  filter_upwards [iid_ae (n := n) (exp_pos hr), ae_injective (μ := expMeasure r) (N := n)] with x hx hi
  refine ⟨fun t ht => ?_, List.nodup_ofFn.2 hi⟩
  obtain ⟨i, rfl⟩ := (List.mem_ofFn' _ _).1 ht
  exact hx i

theorem exponential_invariant {s : ExpStat} (hs : ScaleFree s) {r : ℝ} (hr : 0 < r) {b : ℝ} (hb : 0 < b) (n : ℕ) :
    ∀ᵐ x ∂(iid n (expMeasure r)), s.value ((List.ofFn x).map fun t => 0 + b * t) = s.value (List.ofFn x) := by
  filter_upwards [exponential_good hr n] with x hx
  rw [← C62_scale s hs hx.1 (fun _ => hx.2) hb]
  simp only [zero_add]

/-- **C123, exponential family.** For the twenty scale-free exponentiality statistics, samples of two
exponential laws give every set of outcomes the same probability. -/
theorem C123_exponential {s : ExpStat} (hs : ScaleFree s) {r r₀ : ℝ} (hr : 0 < r) (hr₀ : 0 < r₀) (n : ℕ)
    (A : Set (Except PyErr ℝ)) :
    iid n (expMeasure r) {x | s.value (List.ofFn x) ∈ A} = iid n (expMeasure r₀) {x | s.value (List.ofFn x) ∈ A} :=
  have : IsProbabilityMeasure (expMeasure r₀) := isProbabilityMeasure_expMeasure hr₀
  same_law (div_pos hr₀ hr).ne' (exp_affine hr hr₀) (exponential_invariant hs hr₀ (div_pos hr₀ hr) n) A

example (A : Set (Except PyErr ℝ)) :
    iid 9 (expMeasure 4) {x | ExpStat.epstein.value (List.ofFn x) ∈ A} =
      iid 9 (expMeasure 1) {x | ExpStat.epstein.value (List.ofFn x) ∈ A} :=
  C123_exponential (s := .epstein) trivial (by norm_num) one_pos 9 A

/-- **C123, exponential family, the whole test.** -/
theorem C123_level_exponential {s : ExpStat} (hs : ScaleFree s) (code : String)
    (params : Option (List (String × ℝ))) (classes : List GeneratorClass) (hp : classes.Perm generatorClasses)
    {r r₀ : ℝ} (hr : 0 < r) (hr₀ : 0 < r₀) {n B : ℕ} (hn : 0 < n) (hB : 0 < B)
    (hties : s.alternative ≠ .left → ∀ c : ℝ, iid n (expMeasure r₀) {x | s.value (List.ofFn x) = .ok c} = 0) (α : ℝ) :
    ∃ G M, getAvailableGenerator classes .exponential (some [("lam", r₀)]) = .ok G ∧ G.generate n = .ok M ∧
      ((iid n (expMeasure r)).prod (Measure.pi fun _ : Fin B => M))
        {ω | TestRejects (s.statistic code params) α ω.1 ω.2} ≤
        (rankBound s.alternative α B : ENNReal) / (B + 1 : ℕ) := by
  have : IsProbabilityMeasure (expMeasure r₀) := isProbabilityMeasure_expMeasure hr₀
  obtain ⟨G, hG, hgen⟩ := C111_exponential classes hp r₀ hr₀ n
  refine ⟨G, _, hG, hgen, ?_⟩
  refine monteCarlo_level (s.statistic code params) hn hB (T := fun x i => 0 + r₀ / r * x i) (by fun_prop) ?_ ?_ ?_
    hties α
  · rw [iid_map _ (φ := fun t => 0 + r₀ / r * t) (by fun_prop), exp_affine hr hr₀]
  · filter_upwards [exponential_invariant hs hr₀ (div_pos hr₀ hr) n] with x hx
    rw [List.map_ofFn] at hx
    exact hx
  · exact outcomeMeas_exponential s (listMeas_ofFn _)

/-! ### Log-normal family -/

theorem measurableEmbedding_exp (n : ℕ) : MeasurableEmbedding fun (x : Fin n → ℝ) i => Real.exp (x i) :=
  Continuous.measurableEmbedding (by fun_prop) fun x y h => funext fun i =>
    Real.exp_injective (congrFun h i)

theorem wrapped_exp {lib : NormLib} (hlib : lib.Symmetric) {cls : NormStat} (hc : Wrapped cls) {s scale : ℝ}
    (hs : 0 < s) (zs : List ℝ) :
    wrapped lib cls s scale (zs.map Real.exp) = embed (cls.value lib zs) := by
  rw [wrapped_pos lib cls s scale (by simp [Real.exp_pos]), standardLogs_aff hs,
    C63_location_scale hlib (wrapped_free hc) _ _ (one_div_pos.2 hs), List.map_map]
  congr 2
  rw [show Real.log ∘ Real.exp = id from funext Real.log_exp, List.map_id]

/-- **C123, log-normal family.** The same for the statistics derived from the normality statistics: any two
log-normal laws, and whatever the parameters of the hypothesis. -/
theorem C123_lognormal {lib : NormLib} (hlib : lib.Symmetric) {cls : NormStat} (hc : Wrapped cls)
    (mu mu₀ : ℝ) {sigma sigma₀ : ℝ} (hσ : 0 < sigma) (hσ₀ : 0 < sigma₀) {s s' scale scale' : ℝ} (hs : 0 < s)
    (hs' : 0 < s') (n : ℕ) (A : Set LogNormal.Value) :
    iid n (logNormalLaw mu sigma) {x | wrapped lib cls s scale (List.ofFn x) ∈ A} =
      iid n (logNormalLaw mu₀ sigma₀) {x | wrapped lib cls s' scale' (List.ofFn x) ∈ A} := by
  have key : ∀ (m t u w : ℝ), 0 < u → iid n (logNormalLaw m t) {x | wrapped lib cls u w (List.ofFn x) ∈ A} =
      iid n (gaussianReal m (t ^ 2).toNNReal) {x | cls.value lib (List.ofFn x) ∈ embed ⁻¹' A} := by
    intro m t u w hu
    rw [logNormalLaw, ← iid_map _ Real.measurable_exp, (measurableEmbedding_exp n).map_apply]
    congr 1
    ext x
    simp only [Set.mem_preimage, Set.mem_ofPred_eq]
    rw [← wrapped_exp hlib hc (scale := w) hu, List.map_ofFn]
    rfl
  rw [key _ _ _ _ hs, key _ _ _ _ hs']
  exact C123_normal hlib (wrapped_free hc) mu mu₀ (pow_pos hσ 2) (pow_pos hσ₀ 2) n _

example (A : Set LogNormal.Value) :
    iid 9 (logNormalLaw 3 2) {x | wrapped scipyNorm .lilliefors 1 1 (List.ofFn x) ∈ A} =
      iid 9 (logNormalLaw 0 1) {x | wrapped scipyNorm .lilliefors 1 1 (List.ofFn x) ∈ A} :=
  C123_lognormal (cls := .lilliefors) scipyNorm_symmetric trivial _ _ two_pos one_pos one_pos one_pos 9 A

theorem wrappedStatistic_execute (lib : NormLib) (cls : NormStat) (s scale : ℝ) (code : String)
    (params : Option (List (String × ℝ))) (xs : List ℝ) :
    (wrappedStatistic lib cls s scale code params).execute xs =
      if xs.all (fun x => decide (0 < x)) then
        (cls.statistic lib code params).execute ((xs.map Real.log).map fun l => (l - Real.log scale) / s)
      else .error .valueError := by
  have hany : xs.any (fun x => decide (x ≤ 0)) = !xs.all fun x => decide (0 < x) := by
    rw [List.all_eq_not_any_not, Bool.not_not]
    congr 1
    funext x
    simp [← not_lt]
  show (wrapped lib cls s scale xs >>= _) = _
  rw [wrapped, hany]
  by_cases h : xs.all (fun x => decide (0 < x)) = true
  · simp only [h, Bool.not_true, Bool.false_eq_true, if_false, if_true]
    show (embed (cls.value lib _) >>= _) = (cls.value lib _ >>= _)
    rcases cls.value lib ((xs.map Real.log).map fun l => (l - Real.log scale) / s) with e | o
    · rfl
    · cases o <;> rfl
  · simp only [Bool.not_eq_true] at h
    simp only [h, Bool.not_false, if_true, Bool.false_eq_true, if_false]
    rfl

theorem wrappedStatistic_exp {lib : NormLib} (hlib : lib.Symmetric) {cls : NormStat} (hc : Wrapped cls) {s scale : ℝ}
    (hs : 0 < s) (code : String) (params : Option (List (String × ℝ))) (zs : List ℝ) :
    (wrappedStatistic lib cls s scale code params).execute (zs.map Real.exp) =
      (cls.statistic lib code params).execute zs := by
  rw [wrappedStatistic_execute, if_pos (by simp [Real.exp_pos]), List.map_map, List.map_map,
    ← normal_execute_aff hlib (wrapped_free hc) code params (-(Real.log scale / s)) (1 / s) (one_div_pos.2 hs) zs]
  congr 1
  refine List.map_congr_left fun z _ => ?_
  simp only [Function.comp, Real.log_exp]
  ring

theorem logNormal_pos (mu s : ℝ) : ∀ᵐ t ∂(logNormalLaw mu s), 0 < t := by
  rw [logNormalLaw, ae_map_iff Real.measurable_exp.aemeasurable measurableSet_Ioi]
  exact .of_forall fun _ => Real.exp_pos _

instance (mu s : ℝ) : IsProbabilityMeasure (logNormalLaw mu s) :=
  Measure.isProbabilityMeasure_map Real.measurable_exp.aemeasurable

/-- **C123, log-normal family, the whole test.** -/
theorem C123_level_lognormal {lib : NormLib} (hlib : lib.Symmetric) (hl : NormLibMeasurable lib) {cls : NormStat}
    (hc : Wrapped cls) {s scale : ℝ} (hs : 0 < s) (code : String) (params : Option (List (String × ℝ)))
    (classes : List GeneratorClass) (hp : classes.Perm generatorClasses)
    (mu mu₀ : ℝ) {sigma sigma₀ : ℝ} (hσ : 0 < sigma) (hσ₀ : 0 < sigma₀) {n B : ℕ} (hn : 0 < n) (hB : 0 < B)
    (hties : wrappedAlternative cls ≠ .left → ∀ c : ℝ,
      iid n (logNormalLaw mu₀ sigma₀) {x | wrapped lib cls s scale (List.ofFn x) = .ok (some c)} = 0) (α : ℝ) :
    ∃ G M, getAvailableGenerator classes .logNormal (some [("s", sigma₀), ("mu", mu₀)]) = .ok G ∧
      G.generate n = .ok M ∧
      ((iid n (logNormalLaw mu sigma)).prod (Measure.pi fun _ : Fin B => M))
        {ω | TestRejects (wrappedStatistic lib cls s scale code params) α ω.1 ω.2} ≤
        (rankBound (wrappedAlternative cls) α B : ENNReal) / (B + 1 : ℕ) := by
  obtain ⟨G, hG, hgen⟩ := C111_logNormal classes hp sigma₀ mu₀ hσ₀ n
  refine ⟨G, _, hG, hgen, ?_⟩
  set b := √(sigma ^ 2 / sigma₀ ^ 2) with hb'
  have hb : 0 < b := Real.sqrt_pos.2 (div_pos (pow_pos hσ 2) (pow_pos hσ₀ 2))
  set a := mu - b * mu₀ with ha
  refine monteCarlo_level (wrappedStatistic lib cls s scale code params) hn hB
    (T := fun x i => Real.exp (a + b * Real.log (x i))) (by fun_prop) ?_ ?_ ?_ ?_ α
  · rw [iid_map _ (φ := fun t => Real.exp (a + b * Real.log t)) (by fun_prop), logNormalLaw, logNormalLaw,
      Measure.map_map (by fun_prop) (by fun_prop),
      ← gaussian_affine' mu mu₀ (pow_pos hσ 2) (pow_pos hσ₀ 2), Measure.map_map (by fun_prop) (by fun_prop)]
    congr 2
    funext z
    simp only [Function.comp, Real.log_exp]
    rfl
  · filter_upwards [iid_ae (n := n) (p := fun t => 0 < t) (logNormal_pos mu₀ sigma₀)] with x hx
    have e1 : (List.ofFn fun i => Real.exp (a + b * Real.log (x i))) =
        (((List.ofFn x).map Real.log).map fun z => a + b * z).map Real.exp := by
      rw [List.map_ofFn, List.map_ofFn, List.map_ofFn]; rfl
    have e2 : List.ofFn x = ((List.ofFn x).map Real.log).map Real.exp := by
      rw [List.map_ofFn, List.map_ofFn]
      congr 1
      funext i
      exact (Real.exp_log (hx i)).symm
    rw [e1, wrappedStatistic_exp hlib hc hs, normal_execute_aff hlib (wrapped_free hc) code params _ _ hb]
    conv_rhs => rw [e2]
    rw [wrappedStatistic_exp hlib hc hs]
  · simp only [wrappedStatistic_execute]
    refine outcomeMeas_ite ?_ (outcomeMeas_normal hl cls code params
      (((listMeas_ofFn n).map Real.measurable_log).map (φ := fun l => (l - Real.log scale) / s) (by fun_prop)))
      outcomeMeas_error
    have := (listMeas_ofFn n).all (p := fun t => 0 < t) measurableSet_Ioi
    simpa using this
  · intro h c
    refine measure_mono_null (fun x hx => ?_) (hties h c)
    have hx' : (wrapped lib cls s scale (List.ofFn x) >>= fun o => match o with
      | some (some v) => (Except.ok v : Except PyErr ℝ)
      | some none => .error .valueError
      | none => .error .typeError) = .ok c := hx
    show wrapped lib cls s scale (List.ofFn x) = .ok (some c)
    rcases hval : wrapped lib cls s scale (List.ofFn x) with e | o
    · rw [hval] at hx'; cases hx'
    · rw [hval] at hx'
      rcases o with _ | _ | w
      · cases hx'
      · cases hx'
      · have : (Except.ok w : Except PyErr ℝ) = .ok c := hx'
        rw [Except.ok.inj this]
        rfl

example (hp : generatorClasses.Perm generatorClasses) := C123_level_lognormal (cls := .shapiroFrancia)
  scipyNorm_symmetric scipyNorm_measurable trivial (s := 1) (scale := 1) one_pos "SF" none
  generatorClasses hp 3 0 (sigma := 2) (sigma₀ := 1) two_pos one_pos (n := 20) (B := 1000) (by norm_num)
  (by norm_num) (fun h => absurd rfl h) (1 / 20)

/-! ### Statistics without ties -/

theorem kocharScore_ne {n : ℕ} (hn : 2 ≤ n) : kocharScore n 0 ≠ kocharScore n 1 := by
  have hn' : (2 : ℝ) ≤ n := by exact_mod_cast hn
  have hpos : (0 : ℝ) < n + 1 := by linarith
  set a : ℝ := 1 - (((1 : ℕ) : ℝ) + 1) / (n + 1) with ha
  set b : ℝ := 1 - (((0 : ℕ) : ℝ) + 1) / (n + 1) with hb
  have ha0 : 0 < a := by rw [ha, sub_pos, div_lt_one hpos]; push_cast; linarith
  have hab : a < b := by
    rw [ha, hb]
    have : (((0 : ℕ) : ℝ) + 1) / (n + 1) < (((1 : ℕ) : ℝ) + 1) / (n + 1) :=
      div_lt_div_of_pos_right (by push_cast; norm_num) hpos
    linarith
  have hb1 : b ≤ 1 := by
    rw [hb]; have : (0 : ℝ) ≤ (((0 : ℕ) : ℝ) + 1) / (n + 1) := by positivity
    linarith
  have hb0 : 0 < b := ha0.trans hab
  show 2 * b * (1 - Real.log b) - 1 ≠ 2 * a * (1 - Real.log a) - 1
  have h1 : Real.log (b / a) < b / a - 1 :=
    Real.log_lt_sub_one_of_pos (div_pos hb0 ha0) (by rw [ne_eq, div_eq_one_iff_eq ha0.ne']; exact hab.ne')
  have h2 : a * Real.log (b / a) < b - a := by
    have := mul_lt_mul_of_pos_left h1 ha0
    have e : a * (b / a - 1) = b - a := by field_simp
    linarith
  rw [Real.log_div hb0.ne' ha0.ne'] at h2
  have h3 : Real.log b ≤ 0 := Real.log_nonpos hb0.le hb1
  have h4 : 0 ≤ (b - a) * -Real.log b := mul_nonneg (by linarith) (by linarith)
  intro h
  nlinarith

theorem dot_take : ∀ (k : ℕ) (l : List ℝ), dot (fun i => if i < k then 1 else 0) l = (l.take k).sum
  | k, [] => by simp [dot]
  | 0, a :: l => by simpa using dot_ofFn_zero (a :: l)
  | k + 1, a :: l => by
    rw [dot_cons, List.take_succ_cons, List.sum_cons, ← dot_take k l]
    simp

section
variable {μ : Measure ℝ} [IsProbabilityMeasure μ] [NullSingletonClass μ] {n : ℕ}

theorem null_union {E F G : Set (Fin n → ℝ)} (hF : iid n μ F = 0) (hG : iid n μ G = 0) (h : E ⊆ F ∪ G) :
    iid n μ E = 0 := measure_mono_null h (measure_union_null hF hG)

/-- A quotient of two linear combinations of the order statistics takes no value with positive probability,
unless the numerator is a multiple of the denominator. -/
theorem ratio_null {a b : ℕ → ℝ} {c : ℝ} {k l : ℕ} (hk : k < n) (hk' : a k - c * b k ≠ 0) (hl : l < n)
    (hl' : b l ≠ 0) : iid n μ {x | dot a (sort (List.ofFn x)) / dot b (sort (List.ofFn x)) = c} = 0 := by
  refine null_union (dot_null (c := fun i => 1 * a i + -c * b i) hk (by simpa [sub_eq_add_neg] using hk') 0)
    (dot_null (c := b) hl hl' 0) fun x hx => ?_
  simp only [Set.mem_union, Set.mem_ofPred_eq] at hx ⊢
  by_cases h0 : dot b (sort (List.ofFn x)) = 0
  · exact .inr h0
  · rw [div_eq_iff h0] at hx
    refine .inl ?_
    rw [dot_lin, hx]
    ring

/-- Two weights that differ cannot both be the value times a constant. -/
theorem ratio_null' {a : ℕ → ℝ} {k l : ℕ} {b : ℝ} (hb : b ≠ 0) (hk : k < n) (hl : l < n) (hne : a k ≠ a l) (c : ℝ) :
    iid n μ {x | dot a (sort (List.ofFn x)) / (b * (sort (List.ofFn x)).sum) = c} = 0 := by
  have e : ∀ x : Fin n → ℝ, b * (sort (List.ofFn x)).sum = dot (fun _ => b) (sort (List.ofFn x)) := fun x => by
    have := dot_lin b 0 (fun _ => 1) (fun _ => 0) (sort (List.ofFn x))
    rw [dot_one] at this
    simpa using this.symm
  simp only [e]
  by_cases h : a k - c * b = 0
  · exact ratio_null hl (by intro h'; apply hne; linarith) hl hb
  · exact ratio_null hk h hk hb

theorem no_ties_kochar (hn : 2 ≤ n) (c : ℝ) : iid n μ {x | ExpStat.kochar.value (List.ofFn x) = .ok c} = 0 := by
  have hn0 : (0 : ℝ) < n := by exact_mod_cast (by omega : 0 < n)
  have hκ : 0 < √(108 * (n : ℝ) / 17) := Real.sqrt_pos.2 (by positivity)
  refine measure_mono_null (fun x hx => ?_) (ratio_null' (μ := μ) (a := kocharScore n) one_ne_zero
    (by omega : 0 < n) (by omega : 1 < n) (kocharScore_ne hn) (c / √(108 * (n : ℝ) / 17)))
  have hx' : kochar (List.ofFn x) = c := by
    have : (Except.ok (kochar (List.ofFn x)) : Except PyErr ℝ) = .ok c := hx
    exact Except.ok.inj this
  simp only [kochar, List.length_ofFn] at hx'
  simp only [Set.mem_ofPred_eq, one_mul]
  rw [eq_div_iff hκ.ne', ← hx']
  simp only [dot]
  ring

theorem no_ties_gini (hn : 2 ≤ n) (c : ℝ) : iid n μ {x | ExpStat.gini.value (List.ofFn x) = .ok c} = 0 := by
  have hn' : (2 : ℝ) ≤ n := by exact_mod_cast hn
  refine measure_mono_null (fun x hx => ?_) (ratio_null' (μ := μ)
    (a := fun i => (i : ℝ) + 1 - 0.5 * (n + 1)) (b := ((n : ℝ) - 1) / 2) (by
      have : (0 : ℝ) < ((n : ℝ) - 1) / 2 := by linarith
      exact this.ne')
    (by omega : 0 < n) (by omega : 1 < n) (by push_cast; norm_num) c)
  have hx' : gini (List.ofFn x) = c := by
    have : (Except.ok (gini (List.ofFn x)) : Except PyErr ℝ) = .ok c := hx
    exact Except.ok.inj this
  have h := rank_sum (sort (List.ofFn x))
  rw [(sort_perm _).length_eq, List.length_ofFn] at h
  rw [pairSum_congr (R := (· ≤ ·)) (g' := fun x y => |x - y|) (fun a b h => by
      rw [abs_sub_comm, abs_of_nonneg (sub_nonneg.2 h)]) (sort_pairwise _),
    pairSum_perm (fun a b => abs_sub_comm a b) (sort_perm _)] at h
  simp only [Set.mem_ofPred_eq]
  rw [h, (sort_perm _).sum_eq, ← hx', gini_pairs, List.length_ofFn]
  field_simp

theorem no_ties_lorenz {p : ℝ} (h1 : 1 ≤ ⌊(n : ℝ) * p⌋₊) (h2 : ⌊(n : ℝ) * p⌋₊ < n) (c : ℝ) :
    iid n μ {x | (ExpStat.lorenz p).value (List.ofFn x) = .ok c} = 0 := by
  set k := ⌊(n : ℝ) * p⌋₊ with hk
  refine measure_mono_null (fun x hx => ?_) (ratio_null' (μ := μ)
    (a := fun i => if i < k then 1 else 0) one_ne_zero (by omega : 0 < n) h2 (by simp; omega) c)
  have hx' : lorenz p (List.ofFn x) = .ok c := hx
  have hne : List.ofFn x ≠ [] := by rw [Ne, List.ofFn_eq_nil_iff]; omega
  simp only [lorenz, if_neg hne, List.length_ofFn, Except.ok.injEq] at hx'
  simp only [Set.mem_ofPred_eq, one_mul]
  rw [← hx', ← hk]
  congr 1
  exact dot_take _ _

theorem no_ties_wongWong (hn : 2 ≤ n) (c : ℝ) : iid n μ {x | ExpStat.wongWong.value (List.ofFn x) = .ok c} = 0 := by
  have hz : ∀ᵐ x ∂(iid n μ), ∀ i, x i ≠ 0 := iid_ae (p := fun t => t ≠ 0) (by rw [ae_iff]; simp)
  have hd : ∀ᵐ x ∂(iid n μ), ∀ i j : Fin n, i ≠ j → x i ≠ c * x j := by
    simp only [ae_all_iff]
    intro i j hij
    have := hyperplane_null (μ := μ) (c := fun l => if l = i then 1 else if l = j then -c else 0) (k := i) (by simp) 0
    refine measure_mono_null (fun x hx => ?_) this
    simp only [Set.mem_compl_iff, Set.mem_ofPred_eq, not_not] at hx ⊢
    have e : ∀ l, (if l = i then (1 : ℝ) else if l = j then -c else 0) * x l =
        (if l = i then x l else 0) - if l = j then c * x l else 0 := by
      intro l
      by_cases h1 : l = i
      · simp [h1, hij]
      · by_cases h2 : l = j <;> simp [h1, h2, hij.symm]
    simp only [e, Finset.sum_sub_distrib, Finset.sum_ite_eq', Finset.mem_univ, if_true, hx, sub_self]
  have hi : ∀ᵐ x ∂(iid n μ), Function.Injective x := ae_injective
  have : ∀ᵐ x ∂(iid n μ), ExpStat.wongWong.value (List.ofFn x) ≠ .ok c := by
    filter_upwards [hz, hd, hi] with x hz hd hi hx
    have hx' : (Edf.npMax (List.ofFn x) >>= fun a => pyMin (List.ofFn x) >>= fun b => pure (a / b)) = .ok c := hx
    rcases ha : Edf.npMax (List.ofFn x) with e | a
    · rw [ha] at hx'; cases hx'
    · rcases hb : pyMin (List.ofFn x) with e | b
      · rw [ha, hb] at hx'; cases hx'
      · rw [ha, hb] at hx'
        have hc : a / b = c := Except.ok.inj hx'
        rw [Edf.npMax_eq_ok] at ha
        rw [pyMin_eq_ok] at hb
        obtain ⟨i, rfl⟩ := (List.mem_ofFn' _ _).1 ha.1
        obtain ⟨j, rfl⟩ := (List.mem_ofFn' _ _).1 hb.1
        by_cases hij : i = j
        · subst hij
          have heq : ∀ l, x l = x i := fun l => le_antisymm (ha.2 _ (by simp)) (hb.2 _ (by simp))
          have := hi ((heq ⟨0, by omega⟩).trans (heq ⟨1, by omega⟩).symm)
          simp at this
        · rw [div_eq_iff (hz j)] at hc
          exact hd i j hij hc
  exact measure_mono_null (fun x hx => by simpa using hx) this

/-- D'Agostino's statistic takes no value with positive probability. -/
theorem no_ties_dagostino (lib : NormLib) (hn : 3 ≤ n) (c : ℝ) :
    iid n μ {x | NormStat.dagostino.value lib (List.ofFn x) = .ok (some c)} = 0 := by
  have hn0 : (0 : ℝ) < n := by exact_mod_cast (by omega : 0 < n)
  set q : ℝ := c * 0.02998598 / √n + 0.28209479 with hq
  refine null_union (dot_quadric_null (μ := μ) hn (c := fun i => (i : ℝ) + 1 - 0.5 * (n + 1))
    (K := q ^ 2 * (n : ℝ) ^ 4 / n) (.inl ⟨0, by omega, ?_⟩)) (sumsq_null (μ := μ) hn) fun x hx => ?_
  · push_cast
    have : (3 : ℝ) ≤ n := by exact_mod_cast hn
    have : (0 : ℝ) + 1 - 0.5 * (n + 1) < 0 := by norm_num; linarith
    exact this.ne
  · simp only [Set.mem_union, Set.mem_ofPred_eq, NormStat.value, guarded, List.length_ofFn] at hx ⊢
    by_cases h0 : ((List.ofFn x).map fun t => (t - mean (List.ofFn x)) ^ 2).sum = 0
    · exact .inr h0
    · left
      split_ifs at hx with h3
      · have hx' : Normal.dagostino (List.ofFn x) = c := by
          have : (Except.ok (some (Normal.dagostino (List.ofFn x))) : Except PyErr (Option ℝ)) = .ok (some c) := hx
          exact Option.some.inj (Except.ok.inj this)
        have hS := sumsq_eq (List.ofFn x)
        rw [List.length_ofFn] at hS
        have hSpos : 0 < ((List.ofFn x).map fun t => (t - mean (List.ofFn x)) ^ 2).sum :=
          lt_of_le_of_ne (List.sum_nonneg (by simp only [List.mem_map]; rintro _ ⟨t, _, rfl⟩; positivity)) (Ne.symm h0)
        have hv : ((sort (List.ofFn x)).map (· ^ 2)).sum / (n : ℝ) - mean (sort (List.ofFn x)) ^ 2 =
            ((List.ofFn x).map fun t => (t - mean (List.ofFn x)) ^ 2).sum / n := by
          rw [hS, mean, ((sort_perm (List.ofFn x)).map _).sum_eq, (sort_perm (List.ofFn x)).sum_eq,
            (sort_perm (List.ofFn x)).length_eq, List.length_ofFn]
          field_simp
        simp only [Normal.dagostino, List.length_ofFn, hv] at hx'
        generalize ((List.ofFn x).map fun t => (t - mean (List.ofFn x)) ^ 2).sum = S at *
        generalize dot (fun i => (i : ℝ) + 1 - 0.5 * (n + 1)) (sort (List.ofFn x)) = t at *
        have hs : 0 < √(S / n) := Real.sqrt_pos.2 (div_pos hSpos hn0)
        have hsn : 0 < √(n : ℝ) := Real.sqrt_pos.2 hn0
        have ht : t / ((n : ℝ) ^ 2 * √(S / n)) = q := by
          rw [hq, ← hx']
          field_simp
          ring
        rw [div_eq_iff (by positivity)] at ht
        rw [ht, mul_pow, mul_pow, Real.sq_sqrt (div_pos hSpos hn0).le]
        field_simp
      · cases hx

end

/-- **C123, without a condition on ties.** Normal family: D'Agostino's test from four observations on, and the
five tests of the regression type (rejecting for small values) for every sample size. -/
theorem C123_level_dagostino (code : String) (params : Option (List (String × ℝ)))
    (classes : List GeneratorClass) (hp : classes.Perm generatorClasses)
    (m m₀ : ℝ) {v v₀ : ℝ} (hv : 0 < v) (hv₀ : 0 < v₀) {n B : ℕ} (hn : 4 ≤ n) (hB : 0 < B) (α : ℝ) :
    ∃ G M, getAvailableGenerator classes .normal (some [("mean", m₀), ("var", v₀)]) = .ok G ∧
      G.generate n = .ok M ∧
      ((iid n (gaussianReal m v.toNNReal)).prod (Measure.pi fun _ : Fin B => M))
        {ω | TestRejects (NormStat.dagostino.statistic scipyNorm code params) α ω.1 ω.2} ≤
        ((2 * (⌊α / 2 * B⌋₊ + 1) : ℕ) : ENNReal) / (B + 1 : ℕ) := by
  have : NullSingletonClass (gaussianReal m₀ v₀.toNNReal) := by
    have h : v₀.toNNReal ≠ 0 := by simpa using hv₀
    exact nullSingletonClass_gaussianReal h
  exact C123_level_normal (s := .dagostino) scipyNorm_symmetric scipyNorm_measurable trivial code params classes hp
    m m₀ hv hv₀ (by omega) hB (fun _ c => no_ties_dagostino scipyNorm (by omega) c) α

theorem C123_level_regression {s : NormStat} (hs : s.alternative = .left) (hs' : LocationScaleFree s)
    (code : String) (params : Option (List (String × ℝ)))
    (classes : List GeneratorClass) (hp : classes.Perm generatorClasses)
    (m m₀ : ℝ) {v v₀ : ℝ} (hv : 0 < v) (hv₀ : 0 < v₀) {n B : ℕ} (hn : 0 < n) (hB : 0 < B) (α : ℝ) :
    ∃ G M, getAvailableGenerator classes .normal (some [("mean", m₀), ("var", v₀)]) = .ok G ∧
      G.generate n = .ok M ∧
      ((iid n (gaussianReal m v.toNNReal)).prod (Measure.pi fun _ : Fin B => M))
        {ω | TestRejects (s.statistic scipyNorm code params) α ω.1 ω.2} ≤
        ((⌊α * B⌋₊ + 1 : ℕ) : ENNReal) / (B + 1 : ℕ) := by
  have := C123_level_normal scipyNorm_symmetric scipyNorm_measurable hs' code params classes hp
    m m₀ hv hv₀ hn hB (fun h => absurd hs h) α
  rw [hs] at this
  exact this

example (hp : generatorClasses.Perm generatorClasses) := C123_level_regression (s := .shapiroWilk) rfl trivial "SW" none
  generatorClasses hp 170 0 (v := 49) (v₀ := 1) (by norm_num) one_pos (n := 20) (B := 1000) (by norm_num)
  (by norm_num) (1 / 20)

/-- The exponentiality statistics for which the absence of ties is proved: Gini, Kochar, Wong-Wong, and Lorenz when
the ordinate lies strictly between the ends. -/
inductive TieFree (n : ℕ) : ExpStat → Prop
  | gini : TieFree n .gini
  | kochar : TieFree n .kochar
  | wongWong : TieFree n .wongWong
  | lorenz {p : ℝ} : 1 ≤ ⌊(n : ℝ) * p⌋₊ → ⌊(n : ℝ) * p⌋₊ < n → TieFree n (.lorenz p)

/-- **C123, without a condition on ties.** Exponential family: these four from two observations on, and the
Kimber-Michael and Shapiro-Wilk tests (rejecting for small values). -/
theorem C123_level_gini_kochar {s : ExpStat} {n B : ℕ}
    (hs : TieFree n s ∨ s = .kimberMichael ∨ s = .shapiroWilk) (code : String)
    (params : Option (List (String × ℝ))) (classes : List GeneratorClass) (hp : classes.Perm generatorClasses)
    {r r₀ : ℝ} (hr : 0 < r) (hr₀ : 0 < r₀) (hn : 2 ≤ n) (hB : 0 < B) (α : ℝ) :
    ∃ G M, getAvailableGenerator classes .exponential (some [("lam", r₀)]) = .ok G ∧ G.generate n = .ok M ∧
      ((iid n (expMeasure r)).prod (Measure.pi fun _ : Fin B => M))
        {ω | TestRejects (s.statistic code params) α ω.1 ω.2} ≤
        (rankBound s.alternative α B : ENNReal) / (B + 1 : ℕ) := by
  have : IsProbabilityMeasure (expMeasure r₀) := isProbabilityMeasure_expMeasure hr₀
  have hfree : ScaleFree s := by
    rcases hs with h | rfl | rfl
    · cases h <;> trivial
    · trivial
    · trivial
  refine C123_level_exponential hfree code params classes hp hr hr₀ (by omega) hB (fun hl c => ?_) α
  rcases hs with h | rfl | rfl
  · cases h with
    | gini => exact no_ties_gini hn c
    | kochar => exact no_ties_kochar hn c
    | wongWong => exact no_ties_wongWong hn c
    | lorenz h1 h2 => exact no_ties_lorenz h1 h2 c
  · exact absurd rfl hl
  · exact absurd rfl hl

/-! ### What does not hold -/

theorem ahsanullah_le (rvs : List ℝ) {c : ℝ} (h : ExpStat.ahsanullah.value rvs = .ok c) : c ≤ 1 := by
  have h' : Exponent.ahsanullah rvs = .ok c := h
  unfold Exponent.ahsanullah at h'
  split_ifs at h' with h0
  have hn : (0 : ℝ) < rvs.length := by exact_mod_cast Nat.pos_of_ne_zero h0
  rw [← Except.ok.inj h', div_le_one (by positivity)]
  have hH : (ahsH rvs : ℝ) ≤ (rvs.length : ℝ) ^ 3 := by
    have : ahsH rvs ≤ rvs.length ^ 3 := by
      calc ahsH rvs ≤ ∑ _k ∈ Finset.range rvs.length, ∑ _i ∈ Finset.range rvs.length,
            ∑ _j ∈ Finset.range rvs.length, 1 :=
            Finset.sum_le_sum fun k _ => Finset.sum_le_sum fun i _ => Finset.sum_le_sum fun j _ => by
              split_ifs <;> simp
        _ = rvs.length ^ 3 := by simp; ring
    exact_mod_cast this
  have : (0 : ℝ) ≤ ahsG rvs := by positivity
  linarith

theorem ahsanullah_box {x : Fin 2 → ℝ} (h : ∀ i, x i ∈ Set.Ioc (Real.log 2) (2 * Real.log 2)) :
    ExpStat.ahsanullah.value (List.ofFn x) = .ok 1 := by
  have hpos : 0 < Real.log 2 := Real.log_pos (by norm_num)
  have h0 := h 0
  have h1 := h 1
  rw [Set.mem_Ioc] at h0 h1
  have e : List.ofFn x = [x 0, x 1] := by simp
  have a1 : |x 0 - x 1| < x 0 := by rw [abs_lt]; constructor <;> linarith
  have a2 : |x 0 - x 1| < x 1 := by rw [abs_lt]; constructor <;> linarith
  have a3 : |x 1 - x 0| < x 0 := by rw [abs_sub_comm]; exact a1
  have a4 : |x 1 - x 0| < x 1 := by rw [abs_sub_comm]; exact a2
  have p0 : 0 < x 0 := by linarith
  have p1 : 0 < x 1 := by linarith
  have b0 : ¬ 2 * x 0 < x 0 := by linarith
  have b1 : ¬ 2 * x 0 < x 1 := by linarith
  have b2 : ¬ 2 * x 1 < x 0 := by linarith
  have b3 : ¬ 2 * x 1 < x 1 := by linarith
  have c0 : ∀ y, y = x 0 ∨ y = x 1 → ¬ 2 * min (x 0) (x 1) < y := by
    intro y hy
    rcases min_choice (x 0) (x 1) with h | h <;> rw [h] <;> rcases hy with rfl | rfl <;> assumption
  have c1 : ∀ y, y = x 0 ∨ y = x 1 → ¬ 2 * min (x 1) (x 0) < y := by rw [min_comm]; exact c0
  show Exponent.ahsanullah (List.ofFn x) = .ok 1
  rw [e]
  simp only [Exponent.ahsanullah, ahsH, ahsG, List.length_cons, List.length_nil, Finset.sum_range_succ,
    Finset.sum_range_zero, at_, List.getD_cons_zero, List.getD_cons_succ, sub_self, abs_zero, min_self,
    if_pos p0, if_pos p1, if_pos a1, if_pos a2, if_pos a3, if_pos a4, if_neg b0, if_neg b1, if_neg b2, if_neg b3,
    if_neg (c0 _ (.inl rfl)), if_neg (c0 _ (.inr rfl)), if_neg (c1 _ (.inl rfl)), if_neg (c1 _ (.inr rfl))]
  norm_num

/-- **C123, refuted (ties).** The Ahsanullah test of two exponential observations with 99 simulations at level
`1/20` rejects with probability at least `1/16`, more than `5/100`: the statistic takes its largest value with
positive probability and a tie with a simulated value counts as rejection. -/
theorem C123_refuted_ties (code : String) (params : Option (List (String × ℝ))) :
    (rankBound .right (1 / 20) 99 : ENNReal) / (99 + 1 : ℕ) <
      ((iid 2 (expMeasure 1)).prod (Measure.pi fun _ : Fin 99 => iid 2 (expMeasure 1)))
        {ω | TestRejects (ExpStat.ahsanullah.statistic code params) (1 / 20) ω.1 ω.2} := by
  have : IsProbabilityMeasure (expMeasure 1) := isProbabilityMeasure_expMeasure one_pos
  have hlog : 0 < Real.log 2 := Real.log_pos (by norm_num)
  set S : Set ℝ := Set.Ioc (Real.log 2) (2 * Real.log 2) with hS
  have hbox : expMeasure 1 S = ENNReal.ofReal (1 / 4) := by
    have h := (cdf (expMeasure 1)).measure_Ioc (Real.log 2) (2 * Real.log 2)
    rw [measure_cdf] at h
    rw [hS, h, cdf_expMeasure_eq one_pos, cdf_expMeasure_eq one_pos, if_pos (by linarith), if_pos hlog.le]
    congr 1
    rw [one_mul, one_mul, Real.exp_neg, Real.exp_neg, Real.exp_log (by norm_num),
      show 2 * Real.log 2 = Real.log 2 + Real.log 2 by ring, Real.exp_add, Real.exp_log (by norm_num)]
    norm_num
  have hsub : (Set.univ.pi fun _ : Fin 2 => S) ×ˢ (Set.univ : Set (Fin 99 → Fin 2 → ℝ)) ⊆
      {ω | TestRejects (ExpStat.ahsanullah.statistic code params) (1 / 20) ω.1 ω.2} := by
    rintro ⟨x, y⟩ ⟨hx, -⟩
    have hx' : ∀ i, x i ∈ S := fun i => hx i (Set.mem_univ i)
    have hval : ∀ z : Fin 2 → ℝ, (ExpStat.ahsanullah.statistic code params).execute (List.ofFn z) =
        Exponent.ahsanullah (List.ofFn z) := fun _ => rfl
    have hok : ∀ z : Fin 2 → ℝ, ∃ d, Exponent.ahsanullah (List.ofFn z) = .ok d := by
      intro z
      unfold Exponent.ahsanullah
      rw [if_neg (by simp)]
      exact ⟨_, rfl⟩
    show TestRejects _ _ x y
    rw [testRejects_iff (by norm_num)]
    simp only [hval]
    refine ⟨hok _, fun j => hok _, 0, ?_, by norm_num⟩
    have hbx : Exponent.ahsanullah (List.ofFn x) = .ok 1 := ahsanullah_box hx'
    rw [hbx]
    have hne : (List.ofFn fun j => outcomeVal (Exponent.ahsanullah (List.ofFn (y j)))) ≠ [] := by
      rw [Ne, List.ofFn_eq_nil_iff]; norm_num
    show rightPValue _ 1 = .ok 0
    rw [rightPValue_eq hne, fracGt]
    have : (List.ofFn fun j => outcomeVal (Exponent.ahsanullah (List.ofFn (y j)))).filter
        (fun t => decide (1 < t)) = [] := by
      rw [List.filter_eq_nil_iff]
      intro t ht
      obtain ⟨j, rfl⟩ := (List.mem_ofFn' _ _).1 ht
      obtain ⟨d, hd⟩ := hok (y j)
      have := ahsanullah_le _ (c := d) hd
      beta_reduce
      rw [hd, decide_eq_true_eq]
      exact not_lt.2 this
    rw [this, List.length_nil, Nat.cast_zero, zero_div]
  refine lt_of_lt_of_le ?_ (measure_mono hsub)
  rw [Measure.prod_prod, measure_univ, mul_one, iid, Measure.pi_pi]
  simp only [Finset.prod_const, Finset.card_univ, Fintype.card_fin, hbox]
  have hfl : ⌊(1 / 20 : ℝ) * (99 : ℕ)⌋₊ = 4 := by
    rw [Nat.floor_eq_iff (by norm_num)]; norm_num
  rw [rankBound, hfl, ← ENNReal.ofReal_pow (by norm_num)]
  have : (((4 + 1 : ℕ) : ENNReal)) / ((99 + 1 : ℕ) : ENNReal) = ENNReal.ofReal (5 / 100) := by
    rw [ENNReal.ofReal_div_of_pos (by norm_num)]
    norm_num
  rw [this]
  exact (ENNReal.ofReal_lt_ofReal_iff (by norm_num)).2 (by norm_num)

theorem unit_interval_shrinks : gaussianReal 0 (Real.toNNReal 4) (Set.Icc (-1) 1) <
    gaussianReal 0 (Real.toNNReal 1) (Set.Icc (-1) 1) := by
  have e : gaussianReal 0 (Real.toNNReal 4) = stdNormal.map fun z => 0 + 2 * z := by
    rw [stdNormal, gaussian_affine]; norm_num
  have e' : gaussianReal 0 (Real.toNNReal 1) = stdNormal := by simp [stdNormal]
  rw [e, e', Measure.map_apply (by fun_prop) measurableSet_Icc]
  have hpre : (fun z : ℝ => 0 + 2 * z) ⁻¹' Set.Icc (-1) 1 = Set.Icc (-(1 / 2)) (1 / 2) := by
    ext z
    simp only [Set.mem_preimage, Set.mem_Icc]
    constructor <;> rintro ⟨h1, h2⟩ <;> constructor <;> linarith
  rw [hpre]
  have hpos : 0 < stdNormal (Set.Ioc (1 / 2 : ℝ) 1) := by
    have h := (cdf stdNormal).measure_Ioc (1 / 2) 1
    rw [measure_cdf] at h
    rw [h, ENNReal.ofReal_pos, sub_pos]
    exact Phi_strictMono (by norm_num)
  calc stdNormal (Set.Icc (-(1 / 2)) (1 / 2)) < stdNormal (Set.Icc (-(1 / 2)) (1 / 2)) + stdNormal (Set.Ioc (1 / 2) 1) :=
        ENNReal.lt_add_right (measure_ne_top _ _) hpos.ne'
    _ = stdNormal (Set.Icc (-(1 / 2)) (1 / 2) ∪ Set.Ioc (1 / 2) 1) := by
        refine (measure_union ?_ measurableSet_Ioc).symm
        rw [Set.disjoint_left]
        exact fun z h1 h2 => absurd h1.2 (not_le.2 h2.1)
    _ ≤ stdNormal (Set.Icc (-1) 1) := by
        refine measure_mono fun z hz => ?_
        rcases hz with h | h
        · exact ⟨by linarith [h.1], by linarith [h.2]⟩
        · exact ⟨by linarith [h.1], h.2⟩

/-- **C123, refuted.** Kolmogorov-Smirnov (two-tailed) and Cramér-von Mises for normality compare with `N(0, 1)`:
already for one observation their law under `N(0, 4)` is not their law under `N(0, 1)`. -/
theorem C123_refuted_ks (s : NormStat) (hs : s = .ks .twoTailed ∨ s = .cvm) :
    ∃ A : Set (Except PyErr (Option ℝ)),
      iid 1 (gaussianReal 0 (Real.toNNReal 4)) {x | s.value scipyNorm (List.ofFn x) ∈ A} <
        iid 1 (gaussianReal 0 (Real.toNNReal 1)) {x | s.value scipyNorm (List.ofFn x) ∈ A} := by
  have key : ∀ (v : NNReal), iid 1 (gaussianReal 0 v) {x | x 0 ∈ Set.Icc (-1 : ℝ) 1} =
      gaussianReal 0 v (Set.Icc (-1) 1) := fun v =>
    (measurePreserving_eval (fun _ : Fin 1 => gaussianReal 0 v) 0).measure_preimage
      measurableSet_Icc.nullMeasurableSet
  have hIcc : ∀ t : ℝ, (Phi t ≤ Phi 1 ∧ 1 - Phi t ≤ Phi 1) ↔ t ∈ Set.Icc (-1 : ℝ) 1 := by
    intro t
    rw [← Phi_neg, Phi_strictMono.le_iff_le, Phi_strictMono.le_iff_le, Set.mem_Icc]
    constructor <;> rintro ⟨h1, h2⟩ <;> constructor <;> linarith
  have fin : ∀ A : Set (Except PyErr (Option ℝ)),
      (∀ x : Fin 1 → ℝ, s.value scipyNorm (List.ofFn x) ∈ A ↔ Phi (x 0) ≤ Phi 1 ∧ 1 - Phi (x 0) ≤ Phi 1) →
      iid 1 (gaussianReal 0 (Real.toNNReal 4)) {x | s.value scipyNorm (List.ofFn x) ∈ A} <
        iid 1 (gaussianReal 0 (Real.toNNReal 1)) {x | s.value scipyNorm (List.ofFn x) ∈ A} := by
    intro A hA
    have : {x : Fin 1 → ℝ | s.value scipyNorm (List.ofFn x) ∈ A} = {x | x 0 ∈ Set.Icc (-1 : ℝ) 1} := by
      ext x
      rw [Set.mem_ofPred_eq, hA, hIcc]; rfl
    rw [this, key, key]
    exact unit_interval_shrinks
  rcases hs with rfl | rfl
  · refine ⟨{o | ∃ d, o = .ok (some d) ∧ d ≤ Phi 1}, fin _ fun x => ?_⟩
    have e : List.ofFn x = [x 0] := by simp
    have hv : (NormStat.ks .twoTailed).value scipyNorm (List.ofFn x) =
        .ok (some (if 1 - Phi (x 0) > Phi (x 0) then 1 - Phi (x 0) else Phi (x 0))) := by
      rw [e]
      show (Edf.ksOf .twoTailed Phi [x 0]).map some = _
      have hp : Edf.dPlus [Phi (x 0)] = .ok (1 - Phi (x 0)) := by
        simp [Edf.dPlus, Edf.npMax, Edf.plusGaps]
      have hm : Edf.dMinus [Phi (x 0)] = .ok (Phi (x 0)) := by
        simp [Edf.dMinus, Edf.npMax, Edf.minusGaps]
      simp [Edf.ksOf, Edf.ks, hp, hm, sort, Except.map, Bind.bind, Except.bind]
      rfl
    rw [hv]
    simp only [Set.mem_ofPred_eq, Except.ok.injEq, Option.some.injEq, exists_eq_left']
    split_ifs with h
    · exact ⟨fun h' => ⟨by linarith, h'⟩, fun h' => h'.2⟩
    · exact ⟨fun h' => ⟨h', by linarith⟩, fun h' => h'.1⟩
  · refine ⟨{o | ∃ d, o = .ok (some d) ∧ d ≤ 1 / 12 + (Phi 1 - 1 / 2) ^ 2}, fin _ fun x => ?_⟩
    have e : List.ofFn x = [x 0] := by simp
    have hv : NormStat.cvm.value scipyNorm (List.ofFn x) = .ok (some (1 / 12 + (Phi (x 0) - 1 / 2) ^ 2)) := by
      rw [e]
      show Except.ok (some (Edf.cvmOf Phi [x 0])) = _
      simp [Edf.cvmOf, Edf.cvm, sort]
      ring
    rw [hv]
    simp only [Set.mem_ofPred_eq, Except.ok.injEq, Option.some.injEq, exists_eq_left', add_le_add_iff_left]
    have h1 : 0 ≤ Phi 1 - 1 / 2 := by
      have h := Phi_strictMono.monotone (show (-1 : ℝ) ≤ 1 by norm_num)
      rw [Phi_neg] at h
      linarith
    rw [sq_le_sq, abs_of_nonneg h1, abs_le]
    constructor <;> rintro ⟨h1, h2⟩ <;> constructor <;> linarith

end Pysatl.Props
