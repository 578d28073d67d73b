import Verif.Lemmas.MeanDeviation
import Mathlib.MeasureTheory.Measure.Portmanteau
import Mathlib.MeasureTheory.Measure.FiniteMeasureProd

/-! # Empirical laws tend weakly to the law of the observations; proportions of pairs and triples -/

namespace Pysatl.Props

open Pysatl.Decision Pysatl.Spec Pysatl.Graph Pysatl.Gen
open MeasureTheory ProbabilityTheory Filter Topology

/-- The empirical law of the first observations (any law for no observations). -/
noncomputable def empiricalProb (n : ℕ) (ω : ℕ → ℝ) : ProbabilityMeasure ℝ :=
  if h : List.ofFn (firsts n ω) ≠ [] then ⟨empiricalLaw (List.ofFn (firsts n ω)), empirical_probability h⟩
  else ⟨Measure.dirac 0, inferInstance⟩

theorem empiricalProb_coe {n : ℕ} (hn : 0 < n) (ω : ℕ → ℝ) :
    (empiricalProb n ω : Measure ℝ) = empiricalLaw (List.ofFn (firsts n ω)) := by
  have h : List.ofFn (firsts n ω) ≠ [] := by simpa using hn.ne'
  have e : empiricalProb n ω = ⟨empiricalLaw (List.ofFn (firsts n ω)), empirical_probability h⟩ := dif_pos h
  rw [e]
  rfl

section
variable {μ : Measure ℝ} [IsProbabilityMeasure μ]

/-- Along almost every sequence the empirical laws tend weakly to the law. -/
theorem empirical_weakly : ∀ᵐ ω ∂seqLaw μ, Tendsto (fun n => empiricalProb n ω) atTop
    (𝓝 (⟨μ, inferInstance⟩ : ProbabilityMeasure ℝ)) := by
  have h : ∀ᵐ ω ∂seqLaw μ, ∀ p q : ℚ, Tendsto (fun n => ∫ x, (Set.Ioo (p : ℝ) q).indicator (fun _ => (1 : ℝ)) x
      ∂empiricalLaw (List.ofFn (firsts n ω))) atTop (𝓝 (∫ x, (Set.Ioo (p : ℝ) q).indicator (fun _ => (1 : ℝ)) x ∂μ)) :=
    ae_all_iff.2 fun p => ae_all_iff.2 fun q => settles_integral (measurable_const.indicator measurableSet_Ioo)
      ((integrable_const 1).indicator measurableSet_Ioo)
  filter_upwards [h] with ω hω
  have hpi : IsPiSystem {s : Set ℝ | ∃ p q : ℚ, s = Set.Ioo (p : ℝ) q} := by
    rintro _ ⟨p, q, rfl⟩ _ ⟨p', q', rfl⟩ _
    refine ⟨max p p', min q q', ?_⟩
    rw [Set.Ioo_inter_Ioo]
    push_cast
    rfl
  refine hpi.tendsto_probabilityMeasure_of_tendsto_of_mem ?_ ?_ ?_
  · rintro _ ⟨p, q, rfl⟩
    exact measurableSet_Ioo
  · intro u hu x hx
    obtain ⟨a, b, hab, hsub⟩ := mem_nhds_iff_exists_Ioo_subset.1 (hu.mem_nhds hx)
    obtain ⟨p, hp1, hp2⟩ := exists_rat_btwn hab.1
    obtain ⟨q, hq1, hq2⟩ := exists_rat_btwn hab.2
    exact ⟨_, ⟨p, q, rfl⟩, Ioo_mem_nhds hp2 hq1, (Set.Ioo_subset_Ioo hp1.le hq2.le).trans hsub⟩
  · rintro _ ⟨p, q, rfl⟩
    have := hω p q
    rw [integral_indicator_const _ measurableSet_Ioo, smul_eq_mul, mul_one] at this
    rw [← NNReal.tendsto_coe]
    refine this.congr' ?_
    filter_upwards [eventually_gt_atTop 0] with n hn
    rw [integral_indicator_const _ measurableSet_Ioo, smul_eq_mul, mul_one, ← empiricalProb_coe hn]
    rfl

/-- The proportion of the ordered pairs of observations in a set with a null boundary. -/
theorem pairs_settle {E : Set (ℝ × ℝ)} (h0 : μ.prod μ (frontier E) = 0) : ∀ᵐ ω ∂seqLaw μ,
    Tendsto (fun n => ((empiricalLaw (List.ofFn (firsts n ω))).prod (empiricalLaw (List.ofFn (firsts n ω)))).real E)
      atTop (𝓝 ((μ.prod μ).real E)) := by
  filter_upwards [empirical_weakly (μ := μ)] with ω h
  have h2 := (ProbabilityMeasure.continuous_prod.tendsto _).comp (h.prodMk_nhds h)
  have h3 := ProbabilityMeasure.tendsto_measure_of_null_frontier_of_tendsto' h2 (E := E) h0
  have h4 := (ENNReal.tendsto_toReal (measure_ne_top _ _)).comp h3
  refine h4.congr' ?_
  filter_upwards [eventually_gt_atTop 0] with n hn
  simp only [Function.comp, ProbabilityMeasure.toMeasure_prod, empiricalProb_coe hn]
  rfl

/-- The proportion of the ordered triples of observations in a set with a null boundary. -/
theorem triples_settle {E : Set ((ℝ × ℝ) × ℝ)} (h0 : (μ.prod μ).prod μ (frontier E) = 0) : ∀ᵐ ω ∂seqLaw μ,
    Tendsto (fun n => (((empiricalLaw (List.ofFn (firsts n ω))).prod (empiricalLaw (List.ofFn (firsts n ω)))).prod
      (empiricalLaw (List.ofFn (firsts n ω)))).real E) atTop (𝓝 (((μ.prod μ).prod μ).real E)) := by
  filter_upwards [empirical_weakly (μ := μ)] with ω h
  have h2 := (ProbabilityMeasure.continuous_prod.tendsto _).comp (h.prodMk_nhds h)
  have h2' := (ProbabilityMeasure.continuous_prod.tendsto _).comp (h2.prodMk_nhds h)
  have h3 := ProbabilityMeasure.tendsto_measure_of_null_frontier_of_tendsto' h2' (E := E) h0
  have h4 := (ENNReal.tendsto_toReal (measure_ne_top _ _)).comp h3
  refine h4.congr' ?_
  filter_upwards [eventually_gt_atTop 0] with n hn
  simp only [Function.comp, ProbabilityMeasure.toMeasure_prod, empiricalProb_coe hn]
  rfl

end

/-! ### Counts -/

open Classical in
theorem prod_empirical {n : ℕ} (hn : 0 < n) (x : Fin n → ℝ) {E : Set (ℝ × ℝ)} (hE : MeasurableSet E) :
    ((empiricalLaw (List.ofFn x)).prod (empiricalLaw (List.ofFn x))).real E =
      (∑ i, ∑ j, if (x i, x j) ∈ E then (1 : ℝ) else 0) / (n : ℝ) ^ 2 := by
  have hne : List.ofFn x ≠ [] := by simpa using hn.ne'
  have := empirical_probability hne
  have e : ∀ f : ℝ → ℝ, ∫ y, f y ∂empiricalLaw (List.ofFn x) = (∑ i, f (x i)) / n := fun f => by
    rw [integral_empirical, List.length_ofFn, List.map_ofFn, List.sum_ofFn]
    rfl
  rw [← integral_indicator_one hE, integral_prod _ (show Integrable (E.indicator 1) _ from (integrable_const (1 : ℝ)).indicator hE), e]
  simp only [e, Set.indicator_apply, Pi.one_apply]
  rw [← Finset.sum_div, div_div, sq]

open Classical in
theorem prod3_empirical {n : ℕ} (hn : 0 < n) (x : Fin n → ℝ) {E : Set ((ℝ × ℝ) × ℝ)} (hE : MeasurableSet E) :
    (((empiricalLaw (List.ofFn x)).prod (empiricalLaw (List.ofFn x))).prod (empiricalLaw (List.ofFn x))).real E =
      (∑ k, ∑ i, ∑ j, if ((x i, x j), x k) ∈ E then (1 : ℝ) else 0) / (n : ℝ) ^ 3 := by
  have hne : List.ofFn x ≠ [] := by simpa using hn.ne'
  have := empirical_probability hne
  have e : ∀ f : ℝ → ℝ, ∫ y, f y ∂empiricalLaw (List.ofFn x) = (∑ i, f (x i)) / n := fun f => by
    rw [integral_empirical, List.length_ofFn, List.map_ofFn, List.sum_ofFn]
    rfl
  rw [← integral_indicator_one hE, integral_prod_symm _ (show Integrable (E.indicator 1) _ from (integrable_const (1 : ℝ)).indicator hE), e]
  have e2 : ∀ z : ℝ, ∫ p, E.indicator 1 (p, z) ∂(empiricalLaw (List.ofFn x)).prod (empiricalLaw (List.ofFn x)) =
      (∑ i, ∑ j, if ((x i, x j), z) ∈ E then (1 : ℝ) else 0) / (n : ℝ) ^ 2 := fun z => by
    have hm : MeasurableSet {p : ℝ × ℝ | (p, z) ∈ E} := (by fun_prop : Measurable fun p : ℝ × ℝ => (p, z)) hE
    refine Eq.trans ?_ (prod_empirical hn x hm)
    rw [← integral_indicator_one hm]
    rfl
  simp only [e2]
  rw [← Finset.sum_div, div_div]
  ring

end Pysatl.Props
