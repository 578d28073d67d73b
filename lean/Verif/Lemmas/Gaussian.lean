import Verif.Lemmas.Normal
import Mathlib.Probability.Distributions.Gaussian.Real
import Mathlib.Probability.CDF

/-!
# The standard normal distribution

The functions `scipy.stats.norm.cdf`, `pdf`, `ppf`, `logcdf`, `logsf` in exact arithmetic, and the
facts about them that the theorems assume.
-/

namespace Pysatl.Normal

open MeasureTheory ProbabilityTheory Set Filter Topology

/-- The standard normal law. -/
noncomputable abbrev stdNormal : Measure ℝ := gaussianReal 0 1

/-- The standard normal distribution function. -/
noncomputable def Phi (x : ℝ) : ℝ := cdf stdNormal x

/-- The standard normal quantile function. -/
noncomputable def PhiInv (p : ℝ) : ℝ := sInf {x | p ≤ Phi x}

theorem Phi_eq (x : ℝ) : Phi x = stdNormal.real (Iic x) := cdf_eq_real _ x

instance : NullSingletonClass stdNormal :=
  nullSingletonClass_gaussianReal (μ := 0) (v := 1) one_ne_zero

theorem Phi_neg (x : ℝ) : Phi (-x) = 1 - Phi x := by
  rw [Phi_eq, Phi_eq]
  have h1 : stdNormal.real (Iic (-x)) = stdNormal.real (Ici x) := by
    have hm : stdNormal.map (fun y => -y) = stdNormal := by
      have := gaussianReal_map_neg (μ := 0) (v := 1)
      simpa using this
    conv_lhs => rw [← hm]
    rw [Measure.real, Measure.map_apply measurable_neg measurableSet_Iic, Measure.real]
    congr 2
    ext y
    simp
  have h2 : stdNormal.real (Ici x) = stdNormal.real (Ioi x) := by
    unfold Measure.real
    rw [measure_congr Ioi_ae_eq_Ici]
  rw [h1, h2, ← compl_Iic, probReal_compl_eq_one_sub measurableSet_Iic]

theorem Phi_strictMono : StrictMono Phi := by
  intro x y hxy
  rw [Phi_eq, Phi_eq]
  have hpos : 0 < stdNormal.real (Ioc x y) := by
    rw [Measure.real, ENNReal.toReal_pos_iff]
    refine ⟨?_, measure_lt_top _ _⟩
    rw [pos_iff_ne_zero]
    intro h0
    have := gaussianReal_absolutelyContinuous' 0 (v := 1) one_ne_zero h0
    simp only [Real.volume_Ioc, ENNReal.ofReal_eq_zero] at this
    linarith
  have hu : Iic y = Iic x ∪ Ioc x y := (Iic_union_Ioc_eq_Iic hxy.le).symm
  rw [hu, measureReal_union (Iic_disjoint_Ioc le_rfl) measurableSet_Ioc]
  linarith

theorem Phi_continuous : Continuous Phi := by
  rw [continuous_iff_continuousAt]
  intro x
  have hmono : Monotone Phi := monotone_cdf stdNormal
  rw [hmono.continuousAt_iff_leftLim_eq_rightLim]
  have h1 : Function.rightLim Phi x = Phi x := (cdf stdNormal).rightLim_eq x
  have h2 : Function.leftLim Phi x = Phi x := by
    have h := (cdf stdNormal).measure_singleton x
    rw [measure_cdf, measure_singleton] at h
    have h' := ENNReal.ofReal_eq_zero.mp h.symm
    have h3 : Function.leftLim Phi x ≤ Phi x := hmono.leftLim_le le_rfl
    have h4 : Phi x ≤ Function.leftLim Phi x := by
      have : Phi x - Function.leftLim Phi x ≤ 0 := h'
      linarith
    exact le_antisymm h3 h4
  rw [h1, h2]

theorem Phi_surj {p : ℝ} (h0 : 0 < p) (h1 : p < 1) : ∃ x, Phi x = p := by
  have hb : Tendsto Phi atBot (𝓝 0) := tendsto_cdf_atBot stdNormal
  have ht : Tendsto Phi atTop (𝓝 1) := tendsto_cdf_atTop stdNormal
  obtain ⟨a, ha⟩ := (hb.eventually (gt_mem_nhds h0)).exists
  obtain ⟨b, hb'⟩ := (ht.eventually (lt_mem_nhds h1)).exists
  have hab : a ≤ b := by
    by_contra hcon
    have := Phi_strictMono (lt_of_not_ge hcon)
    linarith
  obtain ⟨x, -, hx⟩ := intermediate_value_Icc hab Phi_continuous.continuousOn ⟨ha.le, hb'.le⟩
  exact ⟨x, hx⟩

theorem PhiInv_Phi (x : ℝ) : PhiInv (Phi x) = x := by
  unfold PhiInv
  have : {y | Phi x ≤ Phi y} = Ici x := by
    ext y
    exact Phi_strictMono.le_iff_le
  rw [this, csInf_Ici]

theorem Phi_PhiInv {p : ℝ} (h0 : 0 < p) (h1 : p < 1) : Phi (PhiInv p) = p := by
  obtain ⟨x, rfl⟩ := Phi_surj h0 h1
  rw [PhiInv_Phi]

theorem PhiInv_symm {p : ℝ} (h0 : 0 < p) (h1 : p < 1) : PhiInv (1 - p) = -PhiInv p := by
  obtain ⟨x, rfl⟩ := Phi_surj h0 h1
  rw [PhiInv_Phi, ← Phi_neg, PhiInv_Phi]

/-- The regularised incomplete beta function with integer parameters: the distribution function of
the beta distribution on `[0, 1]`. -/
noncomputable def incBeta (p : ℝ) (a b : ℕ) : ℝ :=
  (∫ x in (0 : ℝ)..p, x ^ (a - 1) * (1 - x) ^ (b - 1)) /
    ∫ x in (0 : ℝ)..1, x ^ (a - 1) * (1 - x) ^ (b - 1)

/-- The functions of `scipy.stats` in exact arithmetic. -/
noncomputable def scipyNorm : NormLib where
  cdf := Phi
  pdf := gaussianPDFReal 0 1
  ppf := PhiInv
  logcdf x := Real.log (Phi x)
  logsf x := Real.log (1 - Phi x)
  betaCdf := incBeta

theorem scipyNorm_symmetric : scipyNorm.Symmetric where
  ppf _ h0 h1 := PhiInv_symm h0 h1
  pdf x := by simp [scipyNorm, gaussianPDFReal]

end Pysatl.Normal
