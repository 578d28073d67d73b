import Verif.Spec.Laws
import Mathlib.Probability.CDF
import Mathlib.Order.Monotone.Union
import Mathlib.MeasureTheory.Integral.IntegralEqImproper

/-! # A law with a density, from its distribution function -/

namespace Pysatl.Props

open MeasureTheory ProbabilityTheory Set Filter Topology
open Pysatl.Spec

theorem lintegral_Ioi_deriv {f F : ℝ → ℝ} {a l : ℝ} (hF : Continuous F)
    (hd : ∀ x ∈ Ioi a, HasDerivAt F (f x) x) (hf : ∀ x, 0 ≤ f x) (ht : Tendsto F atTop (𝓝 l)) :
    density f (Ioi a) = ENNReal.ofReal (l - F a) := by
  have hi := integrableOn_Ioi_deriv_of_nonneg hF.continuousWithinAt hd (fun x _ => hf x) ht
  rw [density, withDensity_apply _ measurableSet_Ioi,
    ← ofReal_integral_eq_lintegral_ofReal hi (Eventually.of_forall hf),
    integral_Ioi_of_hasDerivAt_of_nonneg hF.continuousWithinAt hd (fun x _ => hf x) ht]

theorem lintegral_Iic_deriv {f F : ℝ → ℝ} {a l : ℝ} (hF : Continuous F)
    (hd : ∀ x ∈ Iio a, HasDerivAt F (f x) x) (hf : ∀ x, 0 ≤ f x) (ht : Tendsto F atBot (𝓝 l)) :
    density f (Iic a) = ENNReal.ofReal (F a - l) := by
  have hd' : ∀ x ∈ Ioi (-a), HasDerivAt (fun x => -F (-x)) (f (-x)) x := by
    intro x hx
    have h := ((hd (-x) (by rw [mem_Iio]; linarith [mem_Ioi.1 hx])).comp x (hasDerivAt_neg x)).neg
    have e : -(f (-x) * -1) = f (-x) := by ring
    rw [e] at h
    exact h
  have ht' : Tendsto (fun x => -F (-x)) atTop (𝓝 (-l)) := (ht.comp tendsto_neg_atTop_atBot).neg
  have hi := integrableOn_Ioi_deriv_of_nonneg (g := fun x => -F (-x)) (a := -a)
    (hF.comp continuous_neg).neg.continuousWithinAt hd' (fun x _ => hf (-x)) ht'
  have hi' : IntegrableOn f (Iic a) := by
    have := (integrableOn_Iic_iff_integrableOn_Iio (f := f) (b := a) (μ := volume)).2
      (by simpa using hi.comp_neg_Iio)
    exact this
  rw [density, withDensity_apply _ measurableSet_Iic,
    ← ofReal_integral_eq_lintegral_ofReal hi' (Eventually.of_forall hf),
    integral_Iic_of_hasDerivAt_of_tendsto hF.continuousWithinAt hd hi' ht]

/-- A continuous function that runs from 0 to 1 and whose derivative, except at one point, is the
non-negative `f`, is the distribution function of the law with density `f`. -/
theorem law_of_cdf {f F : ℝ → ℝ} (c : ℝ) (hF : Continuous F) (hd : ∀ x, x ≠ c → HasDerivAt F (f x) x)
    (hf : ∀ x, 0 ≤ f x) (hb : Tendsto F atBot (𝓝 0)) (ht : Tendsto F atTop (𝓝 1)) :
    IsProbabilityMeasure (density f) ∧ ∀ x, cdf (density f) x = F x := by
  have low : ∀ x ≤ c, density f (Iic x) = ENNReal.ofReal (F x) := fun x hx => by
    rw [lintegral_Iic_deriv hF (fun y hy => hd y (ne_of_lt (lt_of_lt_of_le hy hx))) hf hb, sub_zero]
  have high : ∀ x ≥ c, density f (Ioi x) = ENNReal.ofReal (1 - F x) := fun x hx =>
    lintegral_Ioi_deriv hF (fun y hy => hd y (ne_of_gt (lt_of_le_of_lt hx hy))) hf ht
  -- `F` is monotone on both sides, so its values are between 0 and 1
  have mono : Monotone F := by
    have m1 : MonotoneOn F (Iic c) := monotoneOn_of_deriv_nonneg (convex_Iic c) hF.continuousOn
      (fun x hx => by
        rw [interior_Iic] at hx
        exact (hd x (ne_of_lt hx)).differentiableAt.differentiableWithinAt)
      (fun x hx => by
        rw [interior_Iic] at hx
        rw [(hd x (ne_of_lt hx)).deriv]; exact hf x)
    have m2 : MonotoneOn F (Ici c) := monotoneOn_of_deriv_nonneg (convex_Ici c) hF.continuousOn
      (fun x hx => by
        rw [interior_Ici] at hx
        exact (hd x (ne_of_gt hx)).differentiableAt.differentiableWithinAt)
      (fun x hx => by
        rw [interior_Ici] at hx
        rw [(hd x (ne_of_gt hx)).deriv]; exact hf x)
    exact MonotoneOn.Iic_union_Ici m1 m2
  have h0 : ∀ x, 0 ≤ F x := fun x => mono.le_of_tendsto hb x
  have h1 : ∀ x, F x ≤ 1 := fun x => mono.ge_of_tendsto ht x
  have hp : IsProbabilityMeasure (density f) := ⟨by
    rw [← Iic_union_Ioi (a := c), measure_union (Iic_disjoint_Ioi le_rfl) measurableSet_Ioi, low c le_rfl,
      high c le_rfl, ← ENNReal.ofReal_add (h0 c) (by linarith [h1 c])]
    simp⟩
  refine ⟨hp, fun x => ?_⟩
  rw [cdf_eq_real]
  rcases le_total x c with hx | hx
  · rw [measureReal_def, low x hx, ENNReal.toReal_ofReal (h0 x)]
  · have h := probReal_compl_eq_one_sub (μ := density f) (measurableSet_Ioi (a := x))
    rw [compl_Ioi] at h
    rw [h, measureReal_def, high x hx, ENNReal.toReal_ofReal (by linarith [h1 x])]
    ring

/-- Location and scale. -/
theorem cdf_map_affine {μ : Measure ℝ} [IsProbabilityMeasure μ] (t : ℝ) {s : ℝ} (hs : 0 < s) (x : ℝ) :
    IsProbabilityMeasure (μ.map fun z => t + s * z) ∧
    cdf (μ.map fun z => t + s * z) x = cdf μ ((x - t) / s) := by
  have hm : Measurable fun z : ℝ => t + s * z := by fun_prop
  have hp : IsProbabilityMeasure (μ.map fun z => t + s * z) := Measure.isProbabilityMeasure_map hm.aemeasurable
  refine ⟨hp, ?_⟩
  rw [cdf_eq_real, cdf_eq_real, measureReal_def, measureReal_def, Measure.map_apply hm measurableSet_Iic]
  congr 2
  ext z
  simp only [mem_preimage, mem_Iic]
  rw [le_div_iff₀ hs]
  constructor <;> intro h <;> linarith

end Pysatl.Props
