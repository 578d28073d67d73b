import Verif.Lemmas.Legendre
import Verif.Spec.Uniform
import Verif.Lemmas.NullLaw
import Verif.Props.Uniform

/-! # C87: expectations of uniformity statistics under the hypothesis -/

namespace Pysatl.Props

open Pysatl.Decision Pysatl.Graph Pysatl.Edf Pysatl.Exponent Pysatl.Normal Pysatl.Uniform
open Pysatl.Spec
open MeasureTheory ProbabilityTheory

variable {Ω : Type} [MeasurableSpace Ω] {P : Measure Ω} {a b : ℝ} {n : ℕ} {X : Fin n → Ω → ℝ}

theorem volume_Icc_ne {a b : ℝ} (hab : a < b) :
    volume (Set.Icc a b) ≠ 0 ∧ volume (Set.Icc a b) ≠ ⊤ := by
  rw [Real.volume_Icc]
  exact ⟨by simpa using hab, ENNReal.ofReal_ne_top⟩

theorem _root_.Pysatl.Spec.UniformSample.aemeasurable (h : UniformSample P a b X) (hab : a < b) (i : Fin n) :
    AEMeasurable (X i) P :=
  (h.law i).aemeasurable (volume_Icc_ne hab).1 (volume_Icc_ne hab).2

theorem uniform_mem {Y : Ω → ℝ} (h : pdf.IsUniform Y (Set.Icc a b) P volume) (hab : a < b) :
    ∀ᵐ ω ∂P, Y ω ∈ Set.Icc a b := by
  have hm := h.aemeasurable (volume_Icc_ne hab).1 (volume_Icc_ne hab).2
  have : ∀ᵐ x ∂(P.map Y), x ∈ Set.Icc a b := by
    rw [show P.map Y = _ from h]
    exact ae_cond_mem measurableSet_Icc
  exact ae_of_ae_map hm this

/-- The standardised observation. -/
noncomputable def unit (a b x : ℝ) : ℝ := (x - a) / (b - a)

theorem unit_mem {a b x : ℝ} (hab : a < b) (h : x ∈ Set.Icc a b) : unit a b x ∈ Set.Icc (0 : ℝ) 1 := by
  have : 0 < b - a := sub_pos.2 hab
  unfold unit
  exact ⟨div_nonneg (sub_nonneg.2 h.1) this.le, (div_le_one this).2 (by linarith [h.2])⟩

theorem unit_continuous (a b : ℝ) : Continuous (unit a b) := by unfold unit; fun_prop

theorem integral_uniform {Y : Ω → ℝ} (h : pdf.IsUniform Y (Set.Icc a b) P volume) (hab : a < b)
    {f : ℝ → ℝ} (hf : Measurable f) : ∫ ω, f (unit a b (Y ω)) ∂P = ∫ x in (0 : ℝ)..1, f x := by
  have hm := h.aemeasurable (volume_Icc_ne hab).1 (volume_Icc_ne hab).2
  have hpos : 0 < b - a := sub_pos.2 hab
  have hfm : Measurable fun x => f (unit a b x) := hf.comp (unit_continuous a b).measurable
  rw [← integral_map (f := fun x => f (unit a b x)) hm hfm.aestronglyMeasurable,
    show P.map Y = _ from h, ProbabilityTheory.cond, integral_smul_measure, integral_Icc_eq_integral_Ioc,
    ← intervalIntegral.integral_of_le hab.le, Real.volume_Icc]
  have e : ∀ x, f (unit a b x) = f ((b - a)⁻¹ * x - a / (b - a)) := fun x => by
    congr 1; unfold unit; field_simp
  simp only [e]
  rw [intervalIntegral.integral_comp_mul_sub f (inv_ne_zero hpos.ne')]
  have e0 : (b - a)⁻¹ * a - a / (b - a) = 0 := by field_simp; ring
  have e1 : (b - a)⁻¹ * b - a / (b - a) = 1 := by field_simp
  rw [e0, e1, ENNReal.toReal_inv, ENNReal.toReal_ofReal hpos.le, inv_inv, smul_smul,
    inv_mul_cancel₀ hpos.ne', one_smul]

theorem bounded_of_mem {Y : Ω → ℝ} (h : pdf.IsUniform Y (Set.Icc a b) P volume) (hab : a < b)
    {f : ℝ → ℝ} (hf : Continuous f) : ∃ M, ∀ᵐ ω ∂P, ‖f (unit a b (Y ω))‖ ≤ M := by
  obtain ⟨M, hM⟩ := (isCompact_Icc (a := (0 : ℝ)) (b := 1)).exists_bound_of_continuousOn hf.continuousOn
  exact ⟨M, (uniform_mem h hab).mono fun ω hω => hM _ (unit_mem hab hω)⟩

theorem integrable_uniform [IsFiniteMeasure P] {Y : Ω → ℝ}
    (h : pdf.IsUniform Y (Set.Icc a b) P volume) (hab : a < b)
    {f : ℝ → ℝ} (hf : Continuous f) : Integrable (fun ω => f (unit a b (Y ω))) P := by
  obtain ⟨M, hM⟩ := bounded_of_mem h hab hf
  have hm := h.aemeasurable (volume_Icc_ne hab).1 (volume_Icc_ne hab).2
  exact Integrable.of_bound
    ((hf.comp (unit_continuous a b)).measurable.comp_aemeasurable hm).aestronglyMeasurable M hM

theorem _root_.Pysatl.Spec.UniformSample.isProbability (h : UniformSample P a b X) (hab : a < b) (i : Fin n) :
    IsProbabilityMeasure P :=
  (h.law i).isProbabilityMeasure (volume_Icc_ne hab).1 (volume_Icc_ne hab).2

/-- The expectation of a product of two functions of the observations. -/
theorem _root_.Pysatl.Spec.UniformSample.integral_mul (h : UniformSample P a b X) (hab : a < b) {f g : ℝ → ℝ}
    (hf : Continuous f) (hg : Continuous g) (i j : Fin n) :
    Integrable (fun ω => f (unit a b (X i ω)) * g (unit a b (X j ω))) P ∧
    ∫ ω, f (unit a b (X i ω)) * g (unit a b (X j ω)) ∂P =
      if i = j then ∫ x in (0 : ℝ)..1, f x * g x
      else (∫ x in (0 : ℝ)..1, f x) * ∫ x in (0 : ℝ)..1, g x := by
  have := h.isProbability hab i
  split
  · rename_i hij
    subst j
    exact ⟨integrable_uniform (h.law i) hab (hf.mul hg),
      integral_uniform (h.law i) hab (hf.mul hg).measurable⟩
  · rename_i hij
    have hind : IndepFun (fun ω => f (unit a b (X i ω))) (fun ω => g (unit a b (X j ω))) P := by
      have := h.indep.indepFun hij
      exact this.comp (φ := fun x => f (unit a b x)) (ψ := fun x => g (unit a b x))
        (hf.comp (unit_continuous a b)).measurable (hg.comp (unit_continuous a b)).measurable
    have h1 := integrable_uniform (h.law i) hab hf
    have h2 := integrable_uniform (h.law j) hab hg
    refine ⟨hind.integrable_mul h1 h2, ?_⟩
    rw [hind.integral_fun_mul_eq_mul_integral h1.1 h2.1,
      integral_uniform (h.law i) hab hf.measurable, integral_uniform (h.law j) hab hg.measurable]

/-- The square of a sum of centred functions. -/
theorem _root_.Pysatl.Spec.UniformSample.integral_sum_sq (h : UniformSample P a b X) (hab : a < b) {f : ℝ → ℝ}
    (hf : Continuous f) (h0 : ∫ x in (0 : ℝ)..1, f x = 0) :
    Integrable (fun ω => (∑ i, f (unit a b (X i ω))) ^ 2) P ∧
    ∫ ω, (∑ i, f (unit a b (X i ω))) ^ 2 ∂P = n * ∫ x in (0 : ℝ)..1, f x * f x := by
  have e : ∀ ω, (∑ i, f (unit a b (X i ω))) ^ 2 =
      ∑ i, ∑ j, f (unit a b (X i ω)) * f (unit a b (X j ω)) := fun ω => by
    rw [pow_two, Finset.sum_mul_sum]
  simp only [e]
  have hi : ∀ i, Integrable (fun ω => ∑ j, f (unit a b (X i ω)) * f (unit a b (X j ω))) P :=
    fun i => integrable_finsetSum _ fun j _ => (h.integral_mul hab hf hf i j).1
  refine ⟨integrable_finsetSum _ fun i _ => hi i, ?_⟩
  rw [integral_finsetSum _ fun i _ => hi i]
  have : ∀ i : Fin n, ∫ ω, ∑ j, f (unit a b (X i ω)) * f (unit a b (X j ω)) ∂P =
      ∫ x in (0 : ℝ)..1, f x * f x := fun i => by
    rw [integral_finsetSum _ fun j _ => (h.integral_mul hab hf hf i j).1]
    simp only [(h.integral_mul hab hf hf i _).2, h0, mul_zero]
    simp
  simp [this]

theorem observed_valid (h : UniformSample P a b X) (hab : a < b) :
    ∀ᵐ ω ∂P, validateUniform a b (observed X ω) = .ok (observed X ω) := by
  have : ∀ᵐ ω ∂P, ∀ i, X i ω ∈ Set.Icc a b := ae_all_iff.2 fun i => uniform_mem (h.law i) hab
  refine this.mono fun ω hω => validateUniform_ok fun x hx => ?_
  obtain ⟨i, rfl⟩ := (List.mem_ofFn' _ _).1 hx
  exact hω i

omit [MeasurableSpace Ω] in
theorem standard_observed (ω : Ω) :
    standard a b (observed X ω) = List.ofFn fun i => unit a b (X i ω) := by
  unfold standard observed
  rw [List.map_ofFn]; rfl

/-- **C87**, Neyman: for independent uniform observations the expectation of the smooth statistic with
`k` components is `k`. -/
theorem C87_neyman (h : UniformSample P a b X) (hab : a < b) (hn : 0 < n) (k : ℕ) :
    HasExpectation P (fun ω => UniStat.value (.neyman k) a b (observed X ω)) k := by
  refine ⟨fun ω => Uniform.neyman k (standard a b (observed X ω)), ?_, ?_⟩
  · refine (observed_valid h hab).mono fun ω hω => ?_
    simp only [UniStat.value, hω, bind, Except.bind]; rfl
  · have hn' : (0 : ℝ) < n := by exact_mod_cast hn
    have e : ∀ ω, Uniform.neyman k (standard a b (observed X ω)) =
        ∑ j ∈ Finset.range k, (∑ i, phi (j + 1) (unit a b (X i ω))) ^ 2 * (n : ℝ)⁻¹ := fun ω => by
      rw [standard_observed, Uniform.neyman, sum_list_range]
      refine Finset.sum_congr rfl fun j _ => ?_
      rw [List.map_ofFn, List.sum_ofFn, List.length_ofFn, div_pow, Real.sq_sqrt hn'.le, div_eq_mul_inv]
      rfl
    simp only [e]
    have hj : ∀ j : ℕ, Integrable (fun ω => (∑ i, phi (j + 1) (unit a b (X i ω))) ^ 2 * (n : ℝ)⁻¹) P ∧
        ∫ ω, (∑ i, phi (j + 1) (unit a b (X i ω))) ^ 2 * (n : ℝ)⁻¹ ∂P = 1 := fun j => by
      obtain ⟨h1, h2⟩ := h.integral_sum_sq hab (phi_continuous (by omega : 1 ≤ j + 1))
        (phi_mean (by omega))
      refine ⟨h1.mul_const _, ?_⟩
      rw [integral_mul_const, h2, phi_orthonormal (by omega) (by omega), if_pos rfl, mul_one,
        mul_inv_cancel₀ hn'.ne']
    refine ⟨integrable_finsetSum _ fun j _ => (hj j).1, ?_⟩
    rw [integral_finsetSum _ fun j _ => (hj j).1]
    simp [(hj _).2]

end Pysatl.Props
