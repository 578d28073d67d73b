import Verif.Lemmas.EmpiricalCdf
import Verif.Props.ConsistencyNormal
import Verif.Props.SamplingLaws
import Verif.Props.Edf
import Mathlib.Topology.Algebra.Module.Cardinality

/-! # C137: the Lilliefors criterion of normality detects every law with a finite variance that is not normal -/

namespace Pysatl.Props

open Pysatl.Decision Pysatl.Resolver Pysatl.Spec Pysatl.Edf Pysatl.Graph Pysatl.Gen Pysatl.Normal Pysatl.Exponent
open MeasureTheory ProbabilityTheory Filter Topology

/-- Distribution functions that agree wherever the first is continuous agree everywhere. -/
theorem cdf_ext {μ ν : Measure ℝ} [IsProbabilityMeasure μ] [IsProbabilityMeasure ν]
    (h : ∀ x, ContinuousAt (cdf μ) x → cdf μ x = cdf ν x) : μ = ν := by
  refine Measure.eq_of_cdf μ ν ?_
  ext x
  have hd : Dense {y | ¬ ContinuousAt (cdf μ) y}ᶜ := 
    Set.Countable.dense_compl ℝ (monotone_cdf μ).countable_not_continuousAt
  have h1 : Tendsto (cdf μ) (𝓝[>] x) (𝓝 (cdf μ x)) := ((cdf μ).right_continuous x).mono_left
    (nhdsWithin_mono _ Set.Ioi_subset_Ici_self)
  have h2 : Tendsto (cdf ν) (𝓝[>] x) (𝓝 (cdf ν x)) := ((cdf ν).right_continuous x).mono_left
    (nhdsWithin_mono _ Set.Ioi_subset_Ici_self)
  refine tendsto_nhds_unique_of_frequently_eq h1 h2 ?_
  rw [Filter.frequently_iff]
  intro U hU
  obtain ⟨b, hb, hbU⟩ := mem_nhdsGT_iff_exists_Ioo_subset.1 hU
  obtain ⟨y, hy, hyI⟩ := hd.exists_mem_open isOpen_Ioo (Set.nonempty_Ioo.2 hb)
  exact ⟨y, hbU hyI, h y (by simpa using hy)⟩

theorem mean_empirical (xs : List ℝ) : mean xs = lawMean (empiricalLaw xs) := by
  rw [lawMean, integral_empirical, mean]
  simp

theorem settles_sampleMean {μ : Measure ℝ} [IsProbabilityMeasure μ] (h : Integrable (fun x => |x| ^ 2) μ) :
    ∀ᵐ ω ∂seqLaw μ, Tendsto (fun n => mean (List.ofFn (firsts n ω))) atTop (𝓝 (lawMean μ)) := by
  have hi : Integrable (fun x => x) μ := by simpa using integrable_power h (j := 1) (by norm_num) 0
  filter_upwards [settles_mean hi] with ω a
  simpa only [mean_empirical] using a

theorem sd1_eq {xs : List ℝ} (h : xs.length ≠ 0) : sd1 xs = stdDev xs / √(((xs.length : ℝ) - 1) / xs.length) := by
  have hn : (xs.length : ℝ) ≠ 0 := by exact_mod_cast h
  have h0 : 0 ≤ Spec.centralMoment 2 xs := by
    rw [Spec.centralMoment, meanOf]
    refine div_nonneg (List.sum_nonneg fun a ha => ?_) (by positivity)
    obtain ⟨b, _, rfl⟩ := List.mem_map.1 ha
    positivity
  rw [sd1, stdDev, ← Real.sqrt_div h0]
  congr 1
  rw [var1, Spec.centralMoment, meanOf, meanOf, mean, List.map_id]
  generalize (List.map (fun x => (x - xs.sum / ↑xs.length) ^ 2) xs).sum = A
  rw [div_div_div_cancel_right₀ hn]

theorem settles_sd1 {μ : Measure ℝ} [IsProbabilityMeasure μ] (h : Integrable (fun x => |x| ^ 2) μ) :
    ∀ᵐ ω ∂seqLaw μ, Tendsto (fun n => sd1 (List.ofFn (firsts n ω))) atTop (𝓝 √(lawVariance μ)) := by
  filter_upwards [settles_stdDev h] with ω a
  have := a.div ratio_tendsto.sqrt (by simp)
  rw [Real.sqrt_one, div_one] at this
  refine this.congr' ?_
  filter_upwards [eventually_gt_atTop 0] with n hn
  rw [sd1_eq (by simpa using hn.ne'), List.length_ofFn, Pi.div_apply]

theorem Phi_unit (x : ℝ) : 0 ≤ Phi x ∧ Phi x ≤ 1 := ⟨(Phi_pos x).le, (Phi_lt_one x).le⟩

theorem cdf_law_gaussian {μ : Measure ℝ} (hv : 0 < lawVariance μ) (z : ℝ) :
    cdf (gaussianReal (lawMean μ) (lawVariance μ).toNNReal) (lawMean μ + √(lawVariance μ) * z) = Phi z := by
  have hs := Real.sqrt_pos.2 hv
  have := cdf_gaussian (lawMean μ) hs (lawMean μ + √(lawVariance μ) * z)
  rw [Real.sq_sqrt hv.le] at this
  rw [this]
  congr 1
  field_simp
  ring

/-- The empirical distribution function of the standardised sample settles at that of the standardised law. -/
theorem settles_standardised_cdf {μ : Measure ℝ} [IsProbabilityMeasure μ] (h : Integrable (fun x => |x| ^ 2) μ)
    (hv : 0 < lawVariance μ) : ∀ᵐ ω ∂seqLaw μ, ∀ z, ContinuousAt (cdf μ) (lawMean μ + √(lawVariance μ) * z) →
      Tendsto (fun n => fracLe (standardised (List.ofFn (firsts n ω))) z) atTop
        (𝓝 (cdf μ (lawMean μ + √(lawVariance μ) * z))) := by
  filter_upwards [settles_sampleMean h, settles_sd1 h, empirical_cdf (μ := μ)] with ω a b c z hz
  refine (empirical_cdf_at c (a.add (b.mul_const z)) hz).congr' ?_
  filter_upwards [b.eventually (lt_mem_nhds (Real.sqrt_pos.2 hv))] with n hn
  rw [standardised, fracLe_map_affine _ _ hn]

variable (code : String) (params : Option (List (String × ℝ)))

theorem lilliefors_value {xs : List ℝ} (h : xs ≠ []) :
    ∃ d, (NormStat.lilliefors.statistic scipyNorm code params).execute xs = .ok d ∧
      IsLUB (Set.range fun x => |fracLe (standardised xs) x - Phi x|) d := by
  obtain ⟨d, _, _, hd, _, _, hl, _⟩ := C55_sup_distance Phi_continuous Phi_strictMono.monotone Phi_unit
    (rvs := standardised xs) (by simpa [standardised] using h)
  refine ⟨d, normal_value ?_, hl⟩
  have e : Normal.lilliefors scipyNorm xs = .ok d := hd
  simp only [NormStat.value, e, Except.map]

variable (classes : List GeneratorClass) (hp : classes.Perm generatorClasses) (m : ℝ) {v : ℝ} (hv : 0 < v)

include hp hv in
/-- **C137, Lilliefors**: every law with a finite variance that is not a normal law (nor a constant) is rejected in the long
run, whatever its shape. -/
theorem C137_lilliefors : ∃ G, (Gen.Family.normal m v).simulator classes = .ok G ∧
    (∀ n, G.generate n = .ok (iid n (gaussianReal m v.toNNReal))) ∧
    ∀ Q : Measure ℝ, IsProbabilityMeasure Q → Integrable (fun x => |x| ^ 2) Q → (∀ m' v', Q ≠ gaussianReal m' v') →
      Consistent (NormStat.lilliefors.statistic scipyNorm code params) Q (gaussianReal m v.toNNReal) := by
  refine with_normal hp m hv fun Q _ h2 hQ => ?_
  have hV := (lawVariance_pos h2).2 fun c hc => hQ c 0 (by rw [hc, gaussianReal_zero_var])
  obtain ⟨x₀, hx, hne⟩ : ∃ x, ContinuousAt (cdf Q) x ∧
      cdf Q x ≠ cdf (gaussianReal (lawMean Q) (lawVariance Q).toNNReal) x := by
    by_contra hcon
    push Not at hcon
    exact hQ _ _ (cdf_ext hcon)
  have hs := Real.sqrt_pos.2 hV
  obtain ⟨z, rfl⟩ : ∃ z, x₀ = lawMean Q + √(lawVariance Q) * z := ⟨(x₀ - lawMean Q) / √(lawVariance Q), by field_simp; ring⟩
  rw [cdf_law_gaussian hV] at hne
  have hη := abs_pos.2 (sub_ne_zero.2 hne)
  refine limit_consistent (normal_meas _ code params)
    (t := fun _ => |cdf Q (lawMean Q + √(lawVariance Q) * z) - Phi z| / 2) (Or.inl ⟨(fun h => by cases h), ?_, ?_⟩)
  · filter_upwards [settles_standardised_cdf h2 hV] with ω a
    have := ((a z hx).sub_const (Phi z)).abs
    filter_upwards [this.eventually (lt_mem_nhds (half_lt_self hη)), eventually_gt_atTop 0] with n hn h0
    obtain ⟨d, hd, hl⟩ := lilliefors_value code params (xs := List.ofFn (firsts n ω)) (by simpa using h0.ne')
    exact ⟨d, hd, hn.trans_le (hl.1 ⟨z, rfl⟩)⟩
  · have hPv := gaussian_variance_pos m hv
    have hPc : Continuous (cdf (gaussianReal m v.toNNReal)) := by
      have e : ⇑(cdf (gaussianReal m v.toNNReal)) = fun x => Phi ((x - m) / √v) := by
        funext x
        have := cdf_gaussian m (Real.sqrt_pos.2 hv) x
        rwa [Real.sq_sqrt hv.le] at this
      rw [e]
      exact Phi_continuous.comp (by fun_prop)
    filter_upwards [settles_standardised_cdf (gaussian_moment_finite m v.toNNReal 2) hPv] with ω a
    have hlim : ∀ x, Tendsto (fun n => fracLe (standardised (List.ofFn (firsts n ω))) x) atTop (𝓝 (Phi x)) := fun x => by
      have := a x hPc.continuousAt
      have e := cdf_law_gaussian hPv x
      rw [lawMean_gaussian, lawVariance_gaussian] at e this
      rw [Real.toNNReal_coe] at e
      rwa [e] at this
    filter_upwards [polya Phi_continuous Phi_strictMono.monotone Phi_atBot Phi_atTop
      (G := fun n x => fracLe (standardised (List.ofFn (firsts n ω))) x) (fun n x y hxy => fracLe_mono _ hxy)
      (fun n x => fracLe_unit _ x) hlim
      (show 0 < |cdf Q (lawMean Q + √(lawVariance Q) * z) - Phi z| / 4 by linarith), eventually_gt_atTop 0] with n hn h0
    obtain ⟨d, hd, hl⟩ := lilliefors_value code params (xs := List.ofFn (firsts n ω)) (by simpa using h0.ne')
    refine ⟨d, hd, lt_of_le_of_lt (hl.2 ?_) (show |cdf Q (lawMean Q + √(lawVariance Q) * z) - Phi z| / 4 < _ by linarith)⟩
    rintro _ ⟨x, rfl⟩
    exact hn x

end Pysatl.Props
