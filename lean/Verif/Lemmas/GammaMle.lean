import Verif.Lemmas.Likelihood
import Verif.Spec.LikelihoodFit
import Verif.Props.Likelihood
import Mathlib.Analysis.SpecialFunctions.Gamma.Deriv
import Mathlib.MeasureTheory.Integral.ExpDecay
import Mathlib.Analysis.SpecialFunctions.ImproperIntegrals

/-! # The maximum likelihood estimate of the gamma family exists -/

namespace Pysatl.Props

open Pysatl.Spec Pysatl.Likelihood MeasureTheory

/-- A lower bound for the gamma function. -/
theorem gamma_lower {a : ℝ} (ha : 0 < a) : a ^ a * Real.exp (-a) ≤ a * Real.Gamma a := by
  rw [← Real.Gamma_add_one ha.ne', Real.Gamma_eq_integral (by linarith)]
  have hI := Real.GammaIntegral_convergent (s := a + 1) (by linarith)
  have h1 : ∫ x in Set.Ioi a, Real.exp (-x) * a ^ a = a ^ a * Real.exp (-a) := by
    rw [integral_mul_const, integral_exp_neg_Ioi, mul_comm]
  rw [← h1]
  refine (setIntegral_mono_on ?_ (hI.mono_set (Set.Ioi_subset_Ioi ha.le)) measurableSet_Ioi fun x hx => ?_).trans
    (setIntegral_mono_set hI ?_ (Set.Ioi_subset_Ioi ha.le).eventuallyLE)
  · exact (integrableOn_exp_neg_Ioi a).mul_const _
  · have hx' : a < x := hx
    rw [add_sub_cancel_right]
    gcongr
  · refine (ae_restrict_mem measurableSet_Ioi).mono fun x hx => ?_
    have hx' : (0 : ℝ) < x := hx
    simp only [Pi.zero_apply]
    positivity

theorem gammaPdf_pos {θ : ℝ × ℝ} (h : 0 < θ.1 ∧ 0 < θ.2) {x : ℝ} (hx : 0 < x) : 0 < gammaPdf θ x := by
  have := Real.Gamma_pos_of_pos h.1
  have := h.2
  rw [gammaPdf, if_pos hx]
  positivity

theorem sum_log_gammaPdf {θ : ℝ × ℝ} (h : 0 < θ.1 ∧ 0 < θ.2) {d : List ℝ} (hpos : ∀ x ∈ d, 0 < x) :
    (d.map fun x => Real.log (gammaPdf θ x)).sum =
      (θ.1 - 1) * (d.map Real.log).sum - d.sum / θ.2 -
        d.length * (Real.log (Real.Gamma θ.1) + θ.1 * Real.log θ.2) := by
  have hG := Real.Gamma_pos_of_pos h.1
  have h2 := h.2
  rw [sum_eq_lin Real.log (fun x => x) (θ.1 - 1) (-(1 / θ.2)) (-(Real.log (Real.Gamma θ.1) + θ.1 * Real.log θ.2))]
  · simp only [List.map_id']
    ring
  · intro x hx
    have hx' := hpos x hx
    rw [gammaPdf, if_pos hx', Real.log_div (by positivity) (by positivity), Real.log_mul (by positivity) (by positivity),
      Real.log_mul (by positivity) (by positivity), Real.log_exp, Real.log_rpow hx', Real.log_rpow h2]
    ring

/-- The mean of the logarithms is below the logarithm of the mean. -/
theorem mean_log_lt {d : List ℝ} (hpos : ∀ x ∈ d, 0 < x) (hd : Varies d) :
    (d.map Real.log).sum < d.length * Real.log (d.sum / d.length) := by
  have hn : (0 : ℝ) < d.length := by exact_mod_cast List.length_pos_iff.2 hd.ne_nil
  have hS : 0 < d.sum := List.sum_pos _ hpos hd.ne_nil
  set m := d.sum / d.length with hm
  have hm0 : 0 < m := div_pos hS hn
  have h1 : (d.map Real.log).sum < (d.map fun x => Real.log m + (x / m - 1)).sum := by
    apply List.sum_lt_sum
    · intro x hx
      exact log_ratio (hpos x hx) hm0
    · obtain ⟨x, hx, hxm⟩ : ∃ x ∈ d, x ≠ m := by
        obtain ⟨x, hx, y, hy, hxy⟩ := hd
        by_cases h : x = m
        · exact ⟨y, hy, fun h' => hxy (h.trans h'.symm)⟩
        · exact ⟨x, hx, h⟩
      refine ⟨x, hx, ?_⟩
      have hx0 := hpos x hx
      have := Real.log_lt_sub_one_of_pos (div_pos hx0 hm0) (by rw [Ne, div_eq_one_iff_eq hm0.ne']; exact hxm)
      rw [Real.log_div hx0.ne' hm0.ne'] at this
      linarith
  have h2 : (d.map fun x => Real.log m + (x / m - 1)).sum = d.length * Real.log m := by
    rw [sum_eq_lin (fun x => x) (fun x => x) (1 / m) 0 (Real.log m - 1) fun x _ => by ring]
    simp only [List.map_id']
    have : 1 / m * d.sum = d.length := by rw [hm]; field_simp
    rw [this]; ring
  linarith

/-- **Existence.** Every sample of positive numbers that are not all equal has a maximum likelihood estimate in the gamma
family. -/
theorem gamma_mle_exists {d : List ℝ} (hpos : ∀ x ∈ d, 0 < x) (hd : Varies d) :
    ∃ θ, IsMle (fun θ : ℝ × ℝ => 0 < θ.1 ∧ 0 < θ.2) gammaPdf d θ := by
  have hn : (0 : ℝ) < d.length := by exact_mod_cast List.length_pos_iff.2 hd.ne_nil
  have hS : 0 < d.sum := List.sum_pos _ hpos hd.ne_nil
  have hml := mean_log_lt hpos hd
  set n : ℝ := (d.length : ℝ) with hn'
  set S := d.sum
  set T := (d.map Real.log).sum
  set δ : ℝ := Real.log (S / n) - T / n with hδ
  have hδ0 : 0 < δ := by
    have : T / n < Real.log (S / n) := by rw [div_lt_iff₀ hn]; linarith
    linarith
  -- the profile
  set g : ℝ → ℝ := fun a => -T + n * (a * Real.log a - a - Real.log (Real.Gamma a) - δ * a) with hg
  have hbest : ∀ a s : ℝ, 0 < a → 0 < s → (d.map fun x => Real.log (gammaPdf (a, s) x)).sum ≤ g a := by
    intro a s ha hs
    rw [sum_log_gammaPdf ⟨ha, hs⟩ hpos]
    have h1 := log_ratio (a := S / (n * a)) (b := s) (by positivity) hs
    have e1 : Real.log (S / (n * a)) = Real.log (S / n) - Real.log a := by
      rw [← Real.log_div (by positivity) ha.ne']; congr 1; field_simp
    have e2 : n * a * (S / (n * a) / s) = S / s := by field_simp
    have h2 := mul_le_mul_of_nonneg_left h1 (mul_pos hn ha).le
    rw [e1] at h2
    have e3 : n * δ = n * Real.log (S / n) - T := by rw [hδ]; field_simp
    show (a - 1) * T - S / s - n * (Real.log (Real.Gamma a) + a * Real.log s) ≤ g a
    have e4 : g a = -T + n * (a * Real.log a - a - Real.log (Real.Gamma a)) - a * (n * δ) := by rw [hg]; ring
    rw [e4, e3]
    nlinarith [h2, e2]
  have hat : ∀ a : ℝ, 0 < a → (d.map fun x => Real.log (gammaPdf (a, S / (n * a)) x)).sum = g a := by
    intro a ha
    rw [sum_log_gammaPdf ⟨ha, by positivity⟩ hpos]
    have e1 : Real.log (S / (n * a)) = Real.log (S / n) - Real.log a := by
      rw [← Real.log_div (by positivity) ha.ne']; congr 1; field_simp
    have e2 : S / (S / (n * a)) = n * a := by field_simp
    have e3 : n * δ = n * Real.log (S / n) - T := by rw [hδ]; field_simp
    have e4 : g a = -T + n * (a * Real.log a - a - Real.log (Real.Gamma a)) - a * (n * δ) := by rw [hg]; ring
    show (a - 1) * T - S / (S / (n * a)) - n * (Real.log (Real.Gamma a) + a * Real.log (S / (n * a))) = g a
    rw [e4, e3, e1, e2]
    ring
  have hup : ∀ a : ℝ, 0 < a → g a ≤ -T + n * (Real.log a - δ * a) := by
    intro a ha
    have hG := Real.Gamma_pos_of_pos ha
    have h1 := Real.log_le_log (by positivity) (gamma_lower ha)
    rw [Real.log_mul (by positivity) (by positivity), Real.log_exp, Real.log_rpow ha,
      Real.log_mul ha.ne' hG.ne'] at h1
    have : n * (a * Real.log a - a - Real.log (Real.Gamma a) - δ * a) ≤ n * (Real.log a - δ * a) :=
      mul_le_mul_of_nonneg_left (by linarith) hn.le
    linarith
  -- outside a compact interval the profile is below its value at 1
  set A : ℝ := min 1 (Real.exp ((g 1 + T) / n)) with hA
  have hA0 : 0 < A := lt_min one_pos (Real.exp_pos _)
  set C : ℝ := max 1 (2 / δ * (-(g 1 + T) / n - 1 - Real.log (δ / 2))) with hC
  have hC1 : 1 ≤ C := le_max_left _ _
  have hlow : ∀ a : ℝ, 0 < a → a < A → g a ≤ g 1 := by
    intro a ha haA
    refine (hup a ha).trans ?_
    have h1 : Real.log a ≤ (g 1 + T) / n := by
      have := Real.log_le_log ha (haA.le.trans (min_le_right _ _))
      rwa [Real.log_exp] at this
    have h2 : n * Real.log a ≤ g 1 + T := by
      rw [le_div_iff₀ hn] at h1; linarith
    nlinarith [mul_pos hn (mul_pos hδ0 ha)]
  have hhigh : ∀ a : ℝ, C < a → g a ≤ g 1 := by
    intro a haC
    have ha : 0 < a := by linarith
    refine (hup a ha).trans ?_
    have h1 : Real.log a ≤ δ / 2 * a - 1 - Real.log (δ / 2) := by
      have := Real.log_le_sub_one_of_pos (mul_pos (half_pos hδ0) ha)
      rw [Real.log_mul (half_pos hδ0).ne' ha.ne'] at this
      linarith
    have h2 : 2 / δ * (-(g 1 + T) / n - 1 - Real.log (δ / 2)) < a := (le_max_right _ _).trans_lt haC
    have h3 : -(g 1 + T) / n - 1 - Real.log (δ / 2) < δ / 2 * a := by
      have := mul_lt_mul_of_pos_left h2 (half_pos hδ0)
      have e : δ / 2 * (2 / δ * (-(g 1 + T) / n - 1 - Real.log (δ / 2))) =
          -(g 1 + T) / n - 1 - Real.log (δ / 2) := by field_simp
      rwa [e] at this
    have h4 : n * (Real.log a - δ * a) ≤ n * ((g 1 + T) / n) := by
      refine mul_le_mul_of_nonneg_left ?_ hn.le
      have : -(g 1 + T) / n = -((g 1 + T) / n) := by ring
      rw [this] at h3
      linarith
    have e : n * ((g 1 + T) / n) = g 1 + T := by field_simp
    linarith
  have hcont : ContinuousOn g (Set.Icc A C) := by
    intro a ha
    have ha0 : 0 < a := hA0.trans_le ha.1
    have hG := Real.Gamma_pos_of_pos ha0
    have h1 : ContinuousAt Real.Gamma a :=
      (Real.differentiableAt_Gamma fun m => by
        have : (0 : ℝ) ≤ m := Nat.cast_nonneg m
        linarith).continuousAt
    refine ContinuousAt.continuousWithinAt ?_
    have h2 : ContinuousAt (fun a => Real.log (Real.Gamma a)) a := h1.log hG.ne'
    have h3 : ContinuousAt (fun a : ℝ => Real.log a) a := Real.continuousAt_log ha0.ne'
    exact continuousAt_const.add (continuousAt_const.mul
      ((((continuousAt_id.mul h3).sub continuousAt_id).sub h2).sub (continuousAt_const.mul continuousAt_id)))
  have hA1 : A ≤ 1 := min_le_left _ _
  obtain ⟨a, haI, hmax⟩ := isCompact_Icc.exists_isMaxOn ⟨1, hA1, hC1⟩ hcont
  have ha0 : 0 < a := hA0.trans_le haI.1
  have hall : ∀ b : ℝ, 0 < b → g b ≤ g a := by
    intro b hb
    have h1 : g 1 ≤ g a := hmax ⟨hA1, hC1⟩
    rcases lt_or_ge b A with h | h
    · exact (hlow b hb h).trans h1
    · rcases lt_or_ge C b with h' | h'
      · exact (hhigh b h').trans h1
      · exact hmax ⟨h, h'⟩
  have hs : 0 < S / (n * a) := by positivity
  refine ⟨(a, S / (n * a)), ⟨ha0, hs⟩, fun θ hθ => ?_⟩
  refine likelihood_le (fun x hx => gammaPdf_pos hθ (hpos x hx)) (fun x hx => gammaPdf_pos (θ := (a, S / (n * a))) ⟨ha0, hs⟩ (hpos x hx)) ?_
  rw [hat a ha0]
  exact (hbest θ.1 θ.2 hθ.1 hθ.2).trans (hall _ hθ.1)

end Pysatl.Props
