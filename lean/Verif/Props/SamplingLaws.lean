import Verif.Spec.SamplingLaws
import Verif.Lemmas.StandardLaws
import Verif.Props.Sampling
import Verif.Model.Weibull

/-! # C122: the distribution functions of the sampled laws -/

namespace Pysatl.Props

open Pysatl Pysatl.Gen Pysatl.Spec Pysatl.Decision Pysatl.Normal
open MeasureTheory ProbabilityTheory Set Filter Topology

theorem normalCdf_eq : normalCdf = Phi := rfl

theorem cdf_gaussian (m : ℝ) {s : ℝ} (hs : 0 < s) (x : ℝ) :
    cdf (gaussianReal m (s ^ 2).toNNReal) x = Phi ((x - m) / s) := by
  rw [← gaussian_affine, (cdf_map_affine m hs x).2]
  rfl

/-- Student's density integrates to 1. -/
theorem student_probability {k : ℝ} (hk : 0 < k) : IsProbabilityMeasure (density fun x =>
    Real.Gamma ((k + 1) / 2) / (√(Real.pi * k) * Real.Gamma (k / 2)) * (1 + x ^ 2 / k) ^ (-(k + 1) / 2)) := by
  set s := (k + 1) / 2 with hs
  have hs0 : 0 < s := by positivity
  set C := Real.Gamma s / (√(Real.pi * k) * Real.Gamma (k / 2)) with hC
  have hG := Real.Gamma_pos_of_pos hs0
  have hG2 := Real.Gamma_pos_of_pos (half_pos hk)
  have hpk : 0 < √(Real.pi * k) := Real.sqrt_pos.2 (mul_pos Real.pi_pos hk)
  have hC0 : 0 < C := by positivity
  have hr : ∀ x : ℝ, 0 < 1 + x ^ 2 / k := fun x => by positivity
  refine ⟨?_⟩
  rw [density, withDensity_apply _ MeasurableSet.univ, Measure.restrict_univ]
  have e1 : ∀ x : ℝ, ENNReal.ofReal (C * (1 + x ^ 2 / k) ^ (-(k + 1) / 2)) =
      ∫⁻ t, ENNReal.ofReal (C * (1 + x ^ 2 / k) ^ (-(k + 1) / 2)) * gammaPDF s (1 + x ^ 2 / k) t := by
    intro x
    rw [lintegral_const_mul _ (by exact (measurable_gammaPDFReal s _).ennreal_ofReal), lintegral_gammaPDF_eq_one hs0 (hr x), mul_one]
  rw [lintegral_congr e1, lintegral_lintegral_swap]
  · have e2 : ∀ t : ℝ, t ≠ 0 → (∫⁻ x, ENNReal.ofReal (C * (1 + x ^ 2 / k) ^ (-(k + 1) / 2)) * gammaPDF s (1 + x ^ 2 / k) t) =
        gammaPDF (k / 2) 1 t := by
      intro t ht
      rcases lt_or_gt_of_ne ht with h | h
      · simp only [gammaPDF, gammaPDFReal, if_neg (not_le.2 h), ENNReal.ofReal_zero, mul_zero, lintegral_zero]
      · have hv : (0 : ℝ) < k / (2 * t) := by positivity
        set v : NNReal := ⟨k / (2 * t), hv.le⟩ with hvd
        have hv0 : v ≠ 0 := by
          intro h0
          have : (v : ℝ) = 0 := by rw [h0]; rfl
          exact hv.ne' this
        have e3 : ∀ x : ℝ, ENNReal.ofReal (C * (1 + x ^ 2 / k) ^ (-(k + 1) / 2)) * gammaPDF s (1 + x ^ 2 / k) t =
            gammaPDF (k / 2) 1 t * gaussianPDF 0 v x := by
          intro x
          have hrx := hr x
          rw [gammaPDF, gammaPDF, gaussianPDF, ← ENNReal.ofReal_mul (by positivity),
            ← ENNReal.ofReal_mul (gammaPDFReal_nonneg (half_pos hk) one_pos t)]
          congr 1
          simp only [gammaPDFReal, if_pos h.le, gaussianPDFReal, sub_zero]
          have hvv : (v : ℝ) = k / (2 * t) := rfl
          rw [hvv]
          have hn : (1 + x ^ 2 / k) ^ (-(k + 1) / 2) = ((1 + x ^ 2 / k) ^ s)⁻¹ := by
            rw [← Real.rpow_neg hrx.le, hs, neg_div]
          have ht1 : t ^ (s - 1) = t ^ (k / 2 - 1) * √t := by
            rw [Real.sqrt_eq_rpow, ← Real.rpow_add h]
            congr 1
            rw [hs]; ring
          have hsq : √(2 * Real.pi * (k / (2 * t))) = √(Real.pi * k) / √t := by
            rw [← Real.sqrt_div' _ h.le]
            congr 1
            field_simp
          have hexp : Real.exp (-((1 + x ^ 2 / k) * t)) = Real.exp (-(1 * t)) * Real.exp (-x ^ 2 / (2 * (k / (2 * t)))) := by
            rw [← Real.exp_add]
            congr 1
            field_simp
            ring
          rw [hn, ht1, hsq, hexp, Real.one_rpow, hC]
          have h4 := Real.rpow_pos_of_pos hrx s
          have h5 := Real.sqrt_pos.2 h
          generalize (1 + x ^ 2 / k) ^ s = R at *
          generalize Real.exp (-x ^ 2 / (2 * (k / (2 * t)))) = E1
          generalize Real.exp (-(1 * t)) = E2
          generalize t ^ (k / 2 - 1) = T
          generalize √t = q at *
          generalize √(Real.pi * k) = w at *
          generalize Real.Gamma s = g at *
          generalize Real.Gamma (k / 2) = g2 at *
          field_simp
        rw [lintegral_congr e3, lintegral_const_mul _ (measurable_gaussianPDF 0 v), lintegral_gaussianPDF_eq_one 0 hv0, mul_one]
    have e4 : (fun t => ∫⁻ x, ENNReal.ofReal (C * (1 + x ^ 2 / k) ^ (-(k + 1) / 2)) * gammaPDF s (1 + x ^ 2 / k) t)
        =ᵐ[volume] gammaPDF (k / 2) 1 := by
      filter_upwards [compl_mem_ae_iff.2 (measure_singleton (0 : ℝ))] with t ht
      exact e2 t ht
    rw [lintegral_congr_ae e4, lintegral_gammaPDF_eq_one (half_pos hk) one_pos]
  · have m1 : Measurable fun z : ℝ × ℝ => ENNReal.ofReal (C * (1 + z.1 ^ 2 / k) ^ (-(k + 1) / 2)) := by fun_prop
    have m2 : Measurable fun z : ℝ × ℝ => if 0 ≤ z.2 then
        (1 + z.1 ^ 2 / k) ^ s / Real.Gamma s * z.2 ^ (s - 1) * Real.exp (-((1 + z.1 ^ 2 / k) * z.2)) else 0 :=
      Measurable.ite (measurableSet_le measurable_const measurable_snd) (by fun_prop) measurable_const
    exact (m1.mul m2.ennreal_ofReal).aemeasurable

theorem tukey_strictMono (lam : ℝ) {u v : ℝ} (hu : 0 < u) (huv : u < v) (hv : v < 1) :
    tukeyQuantile lam u < tukeyQuantile lam v := by
  unfold tukeyQuantile
  split_ifs with h
  · refine Real.log_lt_log (div_pos hu (by linarith)) ?_
    rw [div_lt_div_iff₀ (by linarith) (by linarith)]
    nlinarith
  · rcases lt_or_gt_of_ne h with h | h
    · rw [div_lt_div_right_of_neg h]
      have h1 := Real.rpow_lt_rpow_of_neg hu huv h
      have h2 := Real.rpow_lt_rpow_of_neg (show 0 < 1 - v by linarith) (show 1 - v < 1 - u by linarith) h
      linarith
    · rw [div_lt_div_iff_of_pos_right h]
      have h1 := Real.rpow_lt_rpow hu.le huv h
      have h2 := Real.rpow_lt_rpow (show 0 ≤ 1 - v by linarith) (show 1 - v < 1 - u by linarith) h
      linarith

theorem tukey_measurable (lam : ℝ) : Measurable (tukeyQuantile lam) := by
  unfold tukeyQuantile
  by_cases h : lam = 0
  · simp only [if_pos h]; fun_prop
  · simp only [if_neg h]; fun_prop

theorem tukey_cdf (lam : ℝ) :
    IsProbabilityMeasure ((volume.restrict (Ioo (0 : ℝ) 1)).map (tukeyQuantile lam)) ∧
    ∀ u, 0 < u → u < 1 → cdf ((volume.restrict (Ioo (0 : ℝ) 1)).map (tukeyQuantile lam)) (tukeyQuantile lam u) = u := by
  have h0 : IsProbabilityMeasure (volume.restrict (Ioo (0 : ℝ) 1)) := ⟨by simp⟩
  have hp := Measure.isProbabilityMeasure_map (μ := volume.restrict (Ioo (0 : ℝ) 1)) (tukey_measurable lam).aemeasurable
  refine ⟨hp, fun u hu hu1 => ?_⟩
  rw [cdf_eq_real, measureReal_def, Measure.map_apply (tukey_measurable lam) measurableSet_Iic,
    Measure.restrict_apply (tukey_measurable lam measurableSet_Iic)]
  have : tukeyQuantile lam ⁻¹' Iic (tukeyQuantile lam u) ∩ Ioo 0 1 = Ioc 0 u := by
    ext v
    simp only [mem_inter_iff, mem_preimage, mem_Iic, mem_Ioo, mem_Ioc]
    constructor
    · rintro ⟨h1, h2, h3⟩
      exact ⟨h2, not_lt.1 fun h => absurd (tukey_strictMono lam hu h h3) (not_lt.2 h1)⟩
    · rintro ⟨h1, h2⟩
      refine ⟨?_, h1, by linarith⟩
      rcases h2.lt_or_eq with h | h
      · exact (tukey_strictMono lam h1 h hu1).le
      · rw [h]
  rw [this, Real.volume_Ioc, sub_zero, ENNReal.toReal_ofReal hu.le]

theorem truncnorm_cdf {a b : ℝ} (hab : a < b) :
    IsProbabilityMeasure (ProbabilityTheory.cond (gaussianReal 0 1) (Icc a b)) ∧
    ∀ x, cdf (ProbabilityTheory.cond (gaussianReal 0 1) (Icc a b)) x =
      if x < a then 0 else if b < x then 1 else (Phi x - Phi a) / (Phi b - Phi a) := by
  have hI : ∀ x, a ≤ x → (gaussianReal 0 1).real (Icc a x) = Phi x - Phi a := by
    intro x hx
    have h1 : (gaussianReal 0 1).real (Icc a x) = (gaussianReal 0 1).real (Ioc a x) := by
      unfold Measure.real
      rw [measure_congr (Ioc_ae_eq_Icc (μ := stdNormal)).symm]
    rw [h1, Phi_eq, Phi_eq, ← Iic_union_Ioc_eq_Iic hx, measureReal_union (Iic_disjoint_Ioc le_rfl) measurableSet_Ioc]
    ring
  have hpos : 0 < Phi b - Phi a := sub_pos.2 (Phi_strictMono hab)
  have hne : gaussianReal 0 1 (Icc a b) ≠ 0 := by
    intro h
    have := hI b hab.le
    rw [measureReal_def, h] at this
    simp only [ENNReal.toReal_zero] at this
    linarith
  have hp : IsProbabilityMeasure (ProbabilityTheory.cond (gaussianReal 0 1) (Icc a b)) := cond_isProbabilityMeasure hne
  refine ⟨hp, fun x => ?_⟩
  rw [cdf_eq_real, measureReal_def, cond_apply measurableSet_Icc, ENNReal.toReal_mul, ENNReal.toReal_inv,
    ← measureReal_def, ← measureReal_def]
  split_ifs with h1 h2
  · have : Icc a b ∩ Iic x = ∅ := by
      ext y; simp only [mem_inter_iff, mem_Icc, mem_Iic, mem_empty_iff_false, iff_false]
      rintro ⟨⟨h, _⟩, h'⟩; linarith
    rw [this, measureReal_empty, mul_zero]
  · have : Icc a b ∩ Iic x = Icc a b := by
      ext y; simp only [mem_inter_iff, mem_Icc, mem_Iic, and_iff_left_iff_imp]
      rintro ⟨_, h⟩; linarith
    rw [this, hI b hab.le, inv_mul_cancel₀ hpos.ne']
  · have : Icc a b ∩ Iic x = Icc a x := by
      ext y; simp only [mem_inter_iff, mem_Icc, mem_Iic]
      constructor
      · rintro ⟨⟨h, _⟩, h'⟩; exact ⟨h, h'⟩
      · rintro ⟨h, h'⟩; exact ⟨⟨h, by linarith⟩, h'⟩
    rw [this, hI b hab.le, hI x (not_lt.1 h1), inv_mul_eq_div]

theorem lognormal_cdf {s : ℝ} (hs : 0 < s) :
    IsProbabilityMeasure ((gaussianReal 0 (s ^ 2).toNNReal).map Real.exp) ∧
    ∀ x, cdf ((gaussianReal 0 (s ^ 2).toNNReal).map Real.exp) x = if 0 < x then Phi (Real.log x / s) else 0 := by
  have hp := Measure.isProbabilityMeasure_map (μ := gaussianReal 0 (s ^ 2).toNNReal) Real.measurable_exp.aemeasurable
  refine ⟨hp, fun x => ?_⟩
  rw [cdf_eq_real, measureReal_def, Measure.map_apply Real.measurable_exp measurableSet_Iic]
  split_ifs with h
  · have : Real.exp ⁻¹' Iic x = Iic (Real.log x) := by
      ext y
      simp only [mem_preimage, mem_Iic]
      exact (Real.le_log_iff_exp_le h).symm
    have e := cdf_gaussian 0 hs (Real.log x)
    rw [sub_zero] at e
    rw [this, ← e, cdf_eq_real, measureReal_def]
  · have : Real.exp ⁻¹' Iic x = ∅ := by
      ext y
      simp only [mem_preimage, mem_Iic, mem_empty_iff_false, iff_false, not_le]
      exact lt_of_le_of_lt (not_lt.1 h) (Real.exp_pos y)
    rw [this, measure_empty, ENNReal.toReal_zero]

/-- The truncated normal samples of the library only have the documented law for mean 0 and variance 1. -/
def UnitTruncation : Sampler → Prop
  | .truncnorm mean var _ _ => mean = 0 ∧ var = 1
  | _ => True

theorem replicate_law {d : Scipy} {n : ℕ} {l : List (Measure ℝ)} (h : d.rvs.map (List.replicate n) = .ok l)
    {μ : Measure ℝ} (hm : μ ∈ l) : μ = d.standard.map fun z => d.loc + d.scale * z := by
  unfold Scipy.rvs at h
  split_ifs at h with hc
  · cases h
    exact List.eq_of_mem_replicate hm
  · cases h

theorem replicate_cdf {d : Scipy} {n : ℕ} {l : List (Measure ℝ)} (h : d.rvs.map (List.replicate n) = .ok l)
    {G F : ℝ → ℝ} (hG : IsProbabilityMeasure d.standard ∧ ∀ x, cdf d.standard x = G x) (hs : 0 < d.scale)
    (hF : ∀ x, G ((x - d.loc) / d.scale) = F x) {μ : Measure ℝ} (hm : μ ∈ l) :
    IsProbabilityMeasure μ ∧ ∀ x, cdf μ x = F x := by
  rw [replicate_law h hm]
  have := hG.1
  exact ⟨(cdf_map_affine d.loc hs 0).1, fun x => by rw [(cdf_map_affine d.loc hs x).2, hG.2, hF]⟩

/-- **C122**: every observation has the documented distribution function. -/
theorem C122_cdf_partial {c : Sampler} (hp : c.Proper) (hs : UnitTruncation c) {F : ℝ → ℝ}
    (hF : c.closedCdf = some F) (choice : ℕ → Bool) (n : ℕ) {l : List (Measure ℝ)}
    (h : sample c choice n = .ok l) {μ : Measure ℝ} (hm : μ ∈ l) :
    IsProbabilityMeasure μ ∧ ∀ x, cdf μ x = F x := by
  cases c with
  | cauchy t s =>
    cases hF
    exact replicate_cdf h cauchy_cdf hp (fun x => rfl) hm
  | expon lam =>
    cases hF
    have hl : 0 < lam := hp
    simp only [sample, pyInv, if_neg hl.ne'] at h
    refine replicate_cdf h expon_cdf (one_div_pos.2 hl) (fun x => ?_) hm
    show (if 0 < (x - 0) / (1 / lam) then 1 - Real.exp (-((x - 0) / (1 / lam))) else 0) = _
    rw [sub_zero, show x / (1 / lam) = lam * x by field_simp]
    rcases lt_trichotomy x 0 with hx | rfl | hx
    · rw [if_neg (not_lt.2 (mul_nonpos_of_nonneg_of_nonpos hl.le hx.le)), if_neg (not_le.2 hx)]
    · simp
    · rw [if_pos (mul_pos hl hx), if_pos hx.le, neg_mul]
  | gompertz eta b =>
    cases hF
    refine replicate_cdf h (gompertz_cdf hp.1) hp.2 (fun x => ?_) hm
    show (if 0 < (x - 0) / b then 1 - Real.exp (-eta * (Real.exp ((x - 0) / b) - 1)) else 0) = _
    rw [sub_zero]
    rcases lt_trichotomy x 0 with hx | rfl | hx
    · rw [if_neg (not_lt.2 (div_nonpos_of_nonpos_of_nonneg hx.le hp.2.le)), if_neg (not_le.2 hx)]
    · simp
    · rw [if_pos (div_pos hx hp.2), if_pos hx.le]
  | gumbel mu scale =>
    cases hF
    exact replicate_cdf h gumbel_cdf hp (fun x => rfl) hm
  | invgauss mu scale =>
    cases hF
    refine replicate_cdf h (invgauss_cdf hp.1) hp.2 (fun x => ?_) hm
    obtain ⟨hm', hl⟩ := hp
    show (if 0 < (x - 0) / scale then Phi (((x - 0) / scale / mu - 1) / √((x - 0) / scale)) +
      Real.exp (2 / mu) * Phi (-(((x - 0) / scale / mu + 1) / √((x - 0) / scale))) else 0) = _
    rw [sub_zero, normalCdf_eq]
    by_cases hx : 0 < x
    · rw [if_pos (div_pos hx hl), if_pos hx, ← inv_div x scale, Real.sqrt_inv, div_div]
      congr 2
      · rw [div_eq_inv_mul]
      · congr 1
        rw [div_eq_inv_mul, neg_mul]
    · rw [if_neg (fun h => hx ((div_pos_iff_of_pos_right hl).1 h)), if_neg hx]
  | laplace t s =>
    cases hF
    have hs' : 0 < s := hp
    refine replicate_cdf h laplace_cdf hp (fun x => ?_) hm
    show (if (x - t) / s < 0 then 1 / 2 * Real.exp ((x - t) / s) else 1 - 1 / 2 * Real.exp (-((x - t) / s))) = _
    have e : (x - t) / s < 0 ↔ x < t := by rw [div_lt_iff₀ hs', zero_mul, sub_neg]
    simp only [e, neg_div]
  | logistic t s =>
    cases hF
    refine replicate_cdf h logistic_cdf hp (fun x => ?_) hm
    show 1 / (1 + Real.exp (-((x - t) / s))) = _
    simp only [neg_div]
  | lognorm mu s =>
    cases hF
    have hs' : 0 < s := hp
    refine replicate_cdf h (lognormal_cdf hp) (Real.exp_pos mu) (fun x => ?_) hm
    show (if 0 < (x - 0) / Real.exp mu then Phi (Real.log ((x - 0) / Real.exp mu) / s) else 0) = _
    rw [sub_zero, normalCdf_eq]
    by_cases hx : 0 < x
    · rw [if_pos (div_pos hx (Real.exp_pos mu)), if_pos hx, Real.log_div hx.ne' (Real.exp_pos mu).ne', Real.log_exp]
    · rw [if_neg (fun h => hx ((div_pos_iff_of_pos_right (Real.exp_pos mu)).1 h)), if_neg hx]
  | norm mean var =>
    cases hF
    have hv : 0 < var := hp
    rw [sample, show npSqrt var = some √var from if_neg (not_lt.2 hv.le)] at h
    exact replicate_cdf (d := { name := "norm", loc := mean, scale := √var }) h
      ⟨inferInstanceAs (IsProbabilityMeasure (gaussianReal 0 1)), fun x => rfl⟩ (Real.sqrt_pos.2 hv) (fun x => rfl) hm
  | truncnorm mean var a b =>
    obtain ⟨rfl, rfl⟩ := hs
    cases hF
    rw [sample, show npSqrt 1 = some √1 from if_neg (by norm_num)] at h
    refine replicate_cdf (d := { name := "truncnorm", shapes := [a, b], loc := 0, scale := √1 }) h
      (truncnorm_cdf hp.2) (by simp) (fun x => ?_) hm
    simp [normalCdf_eq]
  | uniform a b =>
    cases hF
    have hab : 0 < b - a := sub_pos.2 hp
    refine replicate_cdf h uniform_cdf hab (fun x => ?_) hm
    show max 0 (min 1 ((x - a) / (b - a))) = _
    by_cases h1 : x < a
    · rw [if_pos h1]
      have : (x - a) / (b - a) ≤ 0 := div_nonpos_of_nonpos_of_nonneg (by linarith) hab.le
      exact max_eq_left (le_trans (min_le_right _ _) this)
    · rw [if_neg h1]
      have h0 : 0 ≤ (x - a) / (b - a) := div_nonneg (by linarith) hab.le
      by_cases h2 : b < x
      · rw [if_pos h2, min_eq_left ((one_le_div hab).2 (by linarith)), max_eq_right zero_le_one]
      · rw [if_neg h2, min_eq_right ((div_le_one hab).2 (by linarith)), max_eq_right h0]
  | weibull a k =>
    cases hF
    refine replicate_cdf h (exponweib_cdf hp.1 hp.2) (zero_lt_one (α := ℝ)) (fun x => ?_) hm
    show (if 0 < (x - 0) / 1 then (1 - Real.exp (-((x - 0) / 1) ^ k)) ^ a else 0) = _
    rw [sub_zero, div_one]
  | _ => cases hF

theorem gamma_standard {a : ℝ} (ha : 0 < a) : IsProbabilityMeasure
    (density fun x => if 0 ≤ x then x ^ (a - 1) * Real.exp (-x) / Real.Gamma a else 0) := by
  have : (density fun x => if 0 ≤ x then x ^ (a - 1) * Real.exp (-x) / Real.Gamma a else 0) = gammaMeasure a 1 := by
    rw [density, gammaMeasure]
    congr 1
    funext x
    rw [gammaPDF, gammaPDFReal]
    congr 1
    split_ifs
    · rw [Real.one_rpow, one_mul]; ring
    · rfl
  rw [this]
  exact isProbabilityMeasure_gammaMeasure ha one_pos

theorem chi2_standard {k : ℝ} (hk : 0 < k) : IsProbabilityMeasure
    (density fun x => if 0 ≤ x then 1 / (2 ^ (k / 2) * Real.Gamma (k / 2)) * x ^ (k / 2 - 1) * Real.exp (-x / 2)
      else 0) := by
  have : (density fun x => if 0 ≤ x then 1 / (2 ^ (k / 2) * Real.Gamma (k / 2)) * x ^ (k / 2 - 1) *
      Real.exp (-x / 2) else 0) = gammaMeasure (k / 2) (1 / 2) := by
    rw [density, gammaMeasure]
    congr 1
    funext x
    rw [gammaPDF, gammaPDFReal]
    congr 1
    split_ifs with h
    · rw [Real.div_rpow zero_le_one zero_le_two, Real.one_rpow, div_div,
        show -(1 / 2 * x) = -x / 2 by ring]
    · rfl
  rw [this]
  exact isProbabilityMeasure_gammaMeasure (half_pos hk) one_half_pos

theorem beta_standard {a b : ℝ} (ha : 0 < a) (hb : 0 < b) : IsProbabilityMeasure
    (density fun x => if 0 < x ∧ x < 1 then Real.Gamma (a + b) * x ^ (a - 1) * (1 - x) ^ (b - 1) /
        (Real.Gamma a * Real.Gamma b) else 0) := by
  have : (density fun x => if 0 < x ∧ x < 1 then Real.Gamma (a + b) * x ^ (a - 1) * (1 - x) ^ (b - 1) /
        (Real.Gamma a * Real.Gamma b) else 0) = betaMeasure a b := by
    rw [density, betaMeasure]
    congr 1
    funext x
    rw [betaPDF, betaPDFReal]
    congr 1
    split_ifs
    · rw [beta]
      have h1 := Real.Gamma_pos_of_pos ha
      have h2 := Real.Gamma_pos_of_pos hb
      have h3 := Real.Gamma_pos_of_pos (add_pos ha hb)
      field_simp
    · rfl
  rw [this]
  exact isProbabilityMeasureBeta ha hb

theorem replicate_probability {d : Scipy} {n : ℕ} {l : List (Measure ℝ)}
    (h : d.rvs.map (List.replicate n) = .ok l) (hG : IsProbabilityMeasure d.standard)
    {μ : Measure ℝ} (hm : μ ∈ l) : IsProbabilityMeasure μ := by
  rw [replicate_law h hm]
  exact Measure.isProbabilityMeasure_map (by fun_prop : Measurable _).aemeasurable

theorem mixLoop_mem {p : ℝ} (hp : 0 ≤ p ∧ p ≤ 1) {d₁ d₂ : Scipy} {m₁ m₂ : Measure ℝ} {choice : ℕ → Bool}
    {n : ℕ} {l : List (Measure ℝ)} (h₁ : d₁.rvs = .ok m₁) (h₂ : d₂.rvs = .ok m₂)
    (h : mixLoop p d₁ d₂ choice n = .ok l) {μ : Measure ℝ} (hm : μ ∈ l) : μ = m₁ ∨ μ = m₂ := by
  rcases Nat.eq_zero_or_pos n with rfl | hn
  · cases h
  · rw [mixLoop_valid hp hn.ne' (fun _ => h₁) h₂] at h
    cases h
    obtain ⟨i, -, rfl⟩ := List.mem_map.1 hm
    split_ifs
    · exact Or.inl rfl
    · exact Or.inr rfl

theorem norm_rvs (t : ℝ) {s : ℝ} (hs : 0 ≤ s) :
    ({ name := "norm", loc := t, scale := s } : Scipy).rvs = .ok (gaussianReal t (s ^ 2).toNNReal) := by
  rw [rvs_ok (d := { name := "norm", loc := t, scale := s }) trivial hs]
  show Except.ok ((gaussianReal 0 1).map fun z => t + s * z) = _
  rw [gaussian_affine]

/-- **C122**: the laws of all observations of all 21 functions are probability laws; in particular the
densities of scipy that stand for them integrate to one. -/
theorem C122_probability {c : Sampler} (hp : c.Proper) (choice : ℕ → Bool) (n : ℕ) {l : List (Measure ℝ)}
    (h : sample c choice n = .ok l) {μ : Measure ℝ} (hm : μ ∈ l) : IsProbabilityMeasure μ := by
  have mix : ∀ {p t s : ℝ}, 0 ≤ p ∧ p ≤ 1 → 0 ≤ s →
      mixLoop p { name := "norm", loc := t, scale := s } { name := "norm" } choice n = .ok l →
      IsProbabilityMeasure μ := by
    intro p t s hp hs h
    rcases mixLoop_mem hp (norm_rvs t hs) (norm_rvs 0 zero_le_one) h hm with rfl | rfl <;> infer_instance
  cases c with
  | beta a b => exact replicate_probability h (beta_standard hp.1 hp.2) hm
  | chi2 df => exact replicate_probability h (chi2_standard hp) hm
  | gamma alfa rate =>
    have hr : 0 < rate := hp.2
    simp only [sample, pyInv, if_neg hr.ne'] at h
    exact replicate_probability h (gamma_standard hp.1) hm
  | loConNorm p a => exact mix hp zero_le_one h
  | mixConNorm p a b => exact mix hp.1 hp.2.le h
  | scaleConNorm p b => exact mix hp.1 hp.2.le h
  | rice nu sigma =>
    exact replicate_probability h (Measure.isProbabilityMeasure_map
      (μ := (gaussianReal 0 1).prod (gaussianReal 0 1)) (by fun_prop : Measurable _).aemeasurable) hm
  | student df => exact replicate_probability h (student_probability hp) hm
  | truncnorm mean var a b =>
    rw [sample, show npSqrt var = some √var from if_neg (not_lt.2 hp.1.le)] at h
    exact replicate_probability (d := { name := "truncnorm", shapes := [a, b], loc := mean, scale := √var }) h
      (truncnorm_cdf hp.2).1 hm
  | tukey lam => exact replicate_probability h (tukey_cdf lam).1 hm
  | cauchy t s => exact (C122_cdf_partial hp trivial rfl choice n h hm).1
  | expon lam => exact (C122_cdf_partial hp trivial rfl choice n h hm).1
  | gompertz eta b => exact (C122_cdf_partial hp trivial rfl choice n h hm).1
  | gumbel mu scale => exact (C122_cdf_partial hp trivial rfl choice n h hm).1
  | invgauss mu lam => exact (C122_cdf_partial hp trivial rfl choice n h hm).1
  | laplace t s => exact (C122_cdf_partial hp trivial rfl choice n h hm).1
  | logistic t s => exact (C122_cdf_partial hp trivial rfl choice n h hm).1
  | lognorm mu s => exact (C122_cdf_partial hp trivial rfl choice n h hm).1
  | norm mean var => exact (C122_cdf_partial hp trivial rfl choice n h hm).1
  | uniform a b => exact (C122_cdf_partial hp trivial rfl choice n h hm).1
  | weibull a k => exact (C122_cdf_partial hp trivial rfl choice n h hm).1

/-- **C122** (Tukey's lambda): the quantile of order `u` has probability `u`. -/
theorem C122_tukey (lam : ℝ) (choice : ℕ → Bool) (n : ℕ) {l : List (Measure ℝ)}
    (h : sample (.tukey lam) choice n = .ok l) {μ : Measure ℝ} (hm : μ ∈ l) {u : ℝ} (h0 : 0 < u) (h1 : u < 1) :
    cdf μ (tukeyQuantile lam u) = u := by
  rw [replicate_law h hm]
  show cdf (((volume.restrict (Ioo (0 : ℝ) 1)).map (tukeyQuantile lam)).map fun z => 0 + 1 * z) _ = _
  have := (tukey_cdf lam).1
  rw [(cdf_map_affine 0 one_pos _).2, sub_zero, div_one]
  exact (tukey_cdf lam).2 u h0 h1

/-- **C122** (mixtures): an observation has the distribution function of the component chosen. -/
theorem C122_mixture {p a b : ℝ} (hp : 0 ≤ p ∧ p ≤ 1) (hb : 0 < b) (choice : ℕ → Bool) {n : ℕ} {l : List (Measure ℝ)}
    (h : sample (.mixConNorm p a b) choice n = .ok l) {i : ℕ} (hi : i < n) :
    ∃ μ, l[i]? = some μ ∧ ∀ x, cdf μ x = if choice i then normalCdf ((x - a) / b) else normalCdf x := by
  rw [sample, mixLoop_valid hp (by omega) (fun _ => norm_rvs a hb.le) (norm_rvs 0 zero_le_one)] at h
  cases h
  refine ⟨if choice i then gaussianReal a (b ^ 2).toNNReal else gaussianReal 0 ((1 : ℝ) ^ 2).toNNReal,
    by simp [hi], fun x => ?_⟩
  split_ifs
  · exact cdf_gaussian a hb x
  · rw [cdf_gaussian 0 one_pos x, sub_zero, div_one]; rfl

/-- **C122**, what the truncated normal samples are: the bounds are in units of standard deviations
from the mean. -/
theorem C122_truncnorm {mean var a b : ℝ} (hv : 0 < var) (hab : a < b) (choice : ℕ → Bool) (n : ℕ)
    {l : List (Measure ℝ)} (h : sample (.truncnorm mean var a b) choice n = .ok l) {μ : Measure ℝ} (hm : μ ∈ l)
    (x : ℝ) : cdf μ x = if (x - mean) / √var < a then 0 else if b < (x - mean) / √var then 1 else
      (normalCdf ((x - mean) / √var) - normalCdf a) / (normalCdf b - normalCdf a) := by
  rw [sample, show npSqrt var = some √var from if_neg (not_lt.2 hv.le)] at h
  exact (replicate_cdf (d := { name := "truncnorm", shapes := [a, b], loc := mean, scale := √var }) h
      (truncnorm_cdf hab) (Real.sqrt_pos.2 hv) (fun x => rfl) hm).2 x

/-- **C122** is false of truncated normal samples: with mean 1, variance 1 and bounds -1 and 1, every
observation exceeds the upper bound with probability 1/2 or more. -/
theorem C122_refuted_truncnorm (choice : ℕ → Bool) (n : ℕ) {l : List (Measure ℝ)}
    (h : sample (.truncnorm 1 1 (-1) 1) choice n = .ok l) {μ : Measure ℝ} (hm : μ ∈ l) :
    cdf μ 1 = 1 / 2 ∧ ∀ F, (Sampler.truncnorm 1 1 (-1) 1).closedCdf = some F → F 1 = 1 := by
  constructor
  · rw [C122_truncnorm one_pos (by norm_num) choice n h hm]
    have h0 : Phi 0 = 1 / 2 := by
      have := Phi_neg 0
      rw [neg_zero] at this
      linarith
    have h1 := Phi_neg 1
    have h2 : Phi (-1) < Phi 1 := Phi_strictMono (by norm_num)
    rw [normalCdf_eq, Real.sqrt_one, sub_self, zero_div, if_neg (by norm_num), if_neg (by norm_num), h0, h1,
      div_eq_iff (by linarith)]
    ring
  · intro F hF
    cases hF
    show (if (1 : ℝ) < -1 then (0 : ℝ) else if (1 : ℝ) < 1 then 1 else
      (normalCdf ((1 - 1) / √1) - normalCdf ((-1 - 1) / √1)) / (normalCdf ((1 - 1) / √1) - normalCdf ((-1 - 1) / √1))) = 1
    rw [if_neg (by norm_num), if_neg (by norm_num), normalCdf_eq]
    refine div_self (sub_pos.2 (Phi_strictMono ?_)).ne'
    rw [Real.sqrt_one]; norm_num

/-- **C122**: `cdf_norm` and `pdf_norm` are distribution function and density of the observations of
`generate_norm` with the same parameters. -/
theorem C122_norm {mean var : ℝ} (hv : 0 < var) (choice : ℕ → Bool) (n : ℕ) {l : List (Measure ℝ)}
    (h : sample (.norm mean var) choice n = .ok l) {μ : Measure ℝ} (hm : μ ∈ l) :
    (∀ x, cdfNorm x mean var = some (cdf μ x)) ∧ ∃ f : ℝ → ℝ, (∀ x, pdfNorm x mean var = some (f x)) ∧ μ = density f := by
  have hs := Real.sqrt_pos.2 hv
  have hn : npSqrt var = some √var := if_neg (not_lt.2 hv.le)
  refine ⟨fun x => ?_, fun x => gaussianPDFReal 0 1 ((x - mean) / √var) / √var, fun x => ?_, ?_⟩
  · rw [(C122_cdf_partial (c := .norm mean var) hv trivial rfl choice n h hm).2 x, cdfNorm, hn]
    show Scipy.cdfAt _ x = _
    rw [Scipy.cdfAt, if_pos ⟨trivial, hs⟩]
    rfl
  · rw [pdfNorm, hn]
    show (if 0 < √var then _ else _) = _
    rw [if_pos hs]
    rfl
  · rw [sample, hn] at h
    rw [replicate_law (d := { name := "norm", loc := mean, scale := √var }) h hm]
    show (gaussianReal 0 1).map (fun z => mean + √var * z) = _
    have : gaussianReal 0 1 = ofDensity (gaussianPDFReal 0 1) := gaussianReal_of_var_ne_zero 0 one_ne_zero
    rw [this, map_affine_density mean hs (measurable_gaussianPDFReal 0 1) (gaussianPDFReal_nonneg 0 1)]
    exact density_congr fun x => (div_eq_inv_mul _ _).symm

/-- **C122**: `cdf_expon` is the distribution function of the observations of `generate_expon`. -/
theorem C122_expon {lam : ℝ} (hl : 0 < lam) (choice : ℕ → Bool) (n : ℕ) {l : List (Measure ℝ)}
    (h : sample (.expon lam) choice n = .ok l) {μ : Measure ℝ} (hm : μ ∈ l) (x : ℝ) :
    cdfExpon x lam = .ok (some (cdf μ x)) := by
  have hs : 0 < 1 / lam := one_div_pos.2 hl
  simp only [sample, pyInv, if_neg hl.ne'] at h
  rw [replicate_law h hm]
  have := expon_cdf.1
  show _ = Except.ok (some (cdf ((density fun x => if 0 ≤ x then Real.exp (-x) else 0).map fun z => 0 + 1 / lam * z) x))
  rw [(cdf_map_affine 0 hs x).2]
  simp only [cdfExpon, pyInv, if_neg hl.ne']
  simp only [Bind.bind, Except.bind]
  rw [Scipy.cdfAt, if_pos ⟨trivial, hs⟩]
  rfl

/-- **C122**: the three Weibull functions are distribution function, its logarithm, and the logarithm of
the survival function of the observations of `generate_weibull`; the first is the function which the
Weibull criteria use. -/
theorem C122_weibull {a k : ℝ} (ha : 0 < a) (hk : 0 < k) (choice : ℕ → Bool) (n : ℕ) {l : List (Measure ℝ)}
    (h : sample (.weibull a k) choice n = .ok l) {μ : Measure ℝ} (hm : μ ∈ l) (x : ℝ) :
    cdfWeibull x a k = some (cdf μ x) ∧ logcdfWeibull x a k = some (Real.log (μ.real (Iic x))) ∧
    logsfWeibull x a k = some (Real.log (μ.real (Ioi x))) ∧ Weibull.cdf a k x = cdf μ x := by
  have hF := C122_cdf_partial (c := .weibull a k) ⟨ha, hk⟩ trivial rfl choice n h hm
  have hp := hF.1
  have h1 : cdfWeibull x a k = some (cdf μ x) := by
    rw [cdfWeibull, Scipy.cdfAt, if_pos ⟨⟨ha, hk⟩, zero_lt_one⟩, hF.2 x]
    show some (cdf (density fun x => if 0 < x then
      a * k * (1 - Real.exp (-x ^ k)) ^ (a - 1) * Real.exp (-x ^ k) * x ^ (k - 1) else 0) ((x - 0) / 1)) = _
    rw [(exponweib_cdf ha hk).2, sub_zero, div_one]
  refine ⟨h1, ?_, ?_, ?_⟩
  · rw [logcdfWeibull, h1, ← cdf_eq_real]; rfl
  · rw [logsfWeibull, h1, ← compl_Iic, probReal_compl_eq_one_sub measurableSet_Iic, ← cdf_eq_real]; rfl
  · rw [hF.2 x, Weibull.cdf]
    by_cases hx : 0 < x
    · rw [if_neg (not_le.2 hx), if_pos hx]
    · rw [if_pos (not_lt.1 hx), if_neg hx]

example : ∃ l, sample (.invgauss 2 3) (fun _ => true) 4 = .ok l ∧ l.length = 4 ∧ ∀ μ ∈ l, IsProbabilityMeasure μ := by
  obtain ⟨l, h1, h2⟩ := C121_valid (c := .invgauss 2 3) (by norm_num [Sampler.DocumentedInvalid]) id
    (fun _ => true) (n := 4) (by norm_num)
  exact ⟨l, h1, h2, fun μ hm => C122_probability (c := .invgauss 2 3) (by norm_num [Sampler.Proper]) _ _ h1 hm⟩

example : ∃ l, sample (.truncnorm 1 1 (-1) 1) (fun _ => true) 4 = .ok l ∧ l.length = 4 :=
  C121_valid (c := .truncnorm 1 1 (-1) 1) (by norm_num [Sampler.DocumentedInvalid]) id _ (by norm_num)

example : ∃ l, sample (.weibull 2 3) (fun _ => true) 4 = .ok l ∧ l.length = 4 :=
  C121_valid (c := .weibull 2 3) id (by norm_num [Undocumented]) _ (by norm_num)

end Pysatl.Props
