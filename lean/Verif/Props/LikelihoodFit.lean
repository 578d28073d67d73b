import Verif.Model.LikelihoodFit
import Verif.Lemmas.GammaMle
import Mathlib.Probability.Distributions.Beta
import Mathlib.Analysis.SpecialFunctions.Integrals.Basic

/-! # C78: the likelihood functions that call `fit` -/

namespace Pysatl.Props

open Pysatl Pysatl.Spec Pysatl.Likelihood

theorem anyNonpos_pos {d : List ℝ} (hpos : ∀ x ∈ d, 0 < x) : anyNonpos d = false := by
  rw [anyNonpos, List.any_eq_false]
  intro x hx
  simpa using hpos x hx

theorem allEqualFirst_varies {d : List ℝ} (hd : Varies d) : allEqualFirst d = .ok false := by
  cases d with
  | nil => obtain ⟨x, hx, _⟩ := hd; simp at hx
  | cons z d =>
    simp only [allEqualFirst, Except.ok.injEq, List.all_eq_false]
    obtain ⟨x, hx, y, hy, hxy⟩ := hd
    by_cases h : x = z
    · exact ⟨y, hy, by simpa using fun h' => hxy (h.trans h'.symm)⟩
    · exact ⟨x, hx, by simpa using h⟩

/-- The exponential of a sum of log densities is the likelihood. -/
theorem expSum_eq {f lf : ℝ → ℝ} {d : List ℝ} (h : ∀ x ∈ d, 0 < f x ∧ lf x = Real.log (f x)) :
    expSum lf d = ((likelihood f d : ℝ) : Num) := by
  rw [expSum, ← exp_sum_log fun x hx => (h x hx).1, List.map_congr_left fun x hx => (h x hx).2]

/-- The value at a maximum likelihood estimate is the largest likelihood. -/
theorem _root_.Pysatl.Spec.IsMle.greatest {Θ : Type} {valid : Θ → Prop} {pdf : Θ → ℝ → ℝ} {d : List ℝ} {θ : Θ} (h : IsMle valid pdf d θ) :
    IsGreatest (likelihoods valid pdf d) (likelihood (pdf θ) d) :=
  ⟨⟨θ, h.1, rfl⟩, by rintro _ ⟨θ', h', rfl⟩; exact h.2 θ' h'⟩

/-! ### Gamma -/

theorem gammaLogpdf_eq {a s x : ℝ} (ha : 0 < a) (hs : 0 < s) (hx : 0 < x) :
    locScale (gammaLogpdf a) 0 s x = Real.log (gammaPdf (a, s) x) := by
  have hG := Real.Gamma_pos_of_pos ha
  rw [locScale, gammaLogpdf, gammaPdf, if_pos hx, sub_zero, Real.log_div hx.ne' hs.ne']
  simp only
  rw [Real.log_div (by positivity) (by positivity),
    Real.log_mul (by positivity) (by positivity), Real.log_mul (by positivity) (by positivity), Real.log_exp,
    Real.log_rpow hx, Real.log_rpow hs]
  ring

/-- **C78**, gamma: with a fit that maximises the likelihood, which exists for every sample of positive numbers that are
not all equal, the value is the largest likelihood. -/
theorem C78_gamma {d : List ℝ} (hpos : ∀ x ∈ d, 0 < x) (hd : Varies d) :
    (∃ θ, IsMle (fun θ : ℝ × ℝ => 0 < θ.1 ∧ 0 < θ.2) gammaPdf d θ) ∧
    ∀ fit : List ℝ → ℝ × ℝ, IsMle (fun θ : ℝ × ℝ => 0 < θ.1 ∧ 0 < θ.2) gammaPdf d (fit d) →
      ∃ r : ℝ, gamma fit d = .ok (r : Num) ∧
        IsGreatest (likelihoods (fun θ : ℝ × ℝ => 0 < θ.1 ∧ 0 < θ.2) gammaPdf d) r := by
  refine ⟨gamma_mle_exists hpos hd, fun fit hfit => ⟨_, ?_, hfit.greatest⟩⟩
  unfold gamma
  simp only [anyNonpos_pos hpos, allEqualFirst_varies hd, bind, Except.bind, pure, Except.pure, Bool.false_eq_true,
    if_false]
  rw [expSum_eq fun x hx => ⟨gammaPdf_pos hfit.1 (hpos x hx), gammaLogpdf_eq hfit.1.1 hfit.1.2 (hpos x hx)⟩]

example : (∀ x ∈ [(1 : ℝ), 2, 5], 0 < x) ∧ Varies [(1 : ℝ), 2, 5] :=
  ⟨by simp, 1, by simp, 2, by simp, by norm_num⟩

/-! ### Chi-squared -/

theorem chi_eq_gamma {k s x : ℝ} (hk : 0 < k) (hs : 0 < s) (hx : 0 < x) :
    scaled (chiSquaredPdf k) s x = gammaPdf (k / 2, 2 * s) x := by
  have hG := Real.Gamma_pos_of_pos (half_pos hk)
  rw [scaled, chiSquaredPdf, if_pos (div_pos hx hs), gammaPdf, if_pos hx]
  simp only
  rw [Real.div_rpow hx.le hs.le, Real.mul_rpow two_pos.le hs.le, Real.rpow_sub_one hs.ne']
  have e : -(x / s) / 2 = -x / (2 * s) := by field_simp
  rw [e]
  have h1 := Real.rpow_pos_of_pos hs (k / 2)
  have h2 := Real.rpow_pos_of_pos two_pos (k / 2)
  generalize s ^ (k / 2) = P at *
  generalize (2 : ℝ) ^ (k / 2) = Q at *
  generalize x ^ (k / 2 - 1) = R
  field_simp

theorem chi2Logpdf_eq {k s x : ℝ} (hk : 0 < k) (hs : 0 < s) (hx : 0 < x) :
    locScale (chi2Logpdf k) 0 s x = Real.log (gammaPdf (k / 2, 2 * s) x) := by
  rw [← gammaLogpdf_eq (half_pos hk) (by positivity) hx, locScale, locScale, chi2Logpdf, gammaLogpdf, sub_zero,
    Real.log_div hx.ne' hs.ne', Real.log_div hx.ne' (by positivity), Real.log_mul two_ne_zero hs.ne']
  have e : x / (2 * s) = x / s / 2 := by field_simp
  rw [e]
  ring

/-- The families of gamma laws and of scaled chi-squared laws are the same. -/
theorem chi_mle {d : List ℝ} (hpos : ∀ x ∈ d, 0 < x) {θ : ℝ × ℝ} :
    IsMle (fun θ : ℝ × ℝ => 0 < θ.1 ∧ 0 < θ.2) (fun θ => scaled (chiSquaredPdf θ.1) θ.2) d θ ↔
      IsMle (fun θ : ℝ × ℝ => 0 < θ.1 ∧ 0 < θ.2) gammaPdf d (θ.1 / 2, 2 * θ.2) := by
  have hl : ∀ θ : ℝ × ℝ, 0 < θ.1 ∧ 0 < θ.2 →
      likelihood (scaled (chiSquaredPdf θ.1) θ.2) d = likelihood (gammaPdf (θ.1 / 2, 2 * θ.2)) d := fun θ h => by
    unfold likelihood
    rw [List.map_congr_left fun x hx => chi_eq_gamma h.1 h.2 (hpos x hx)]
  constructor
  · rintro ⟨hv, h⟩
    refine ⟨⟨by have := hv.1; simp only; positivity, by have := hv.2; simp only; positivity⟩, fun θ' hv' => ?_⟩
    have hv2 : 0 < 2 * θ'.1 ∧ 0 < θ'.2 / 2 := ⟨by linarith [hv'.1], by linarith [hv'.2]⟩
    have := h (2 * θ'.1, θ'.2 / 2) hv2
    rw [hl _ hv2, hl _ hv] at this
    simp only at this
    rwa [show 2 * θ'.1 / 2 = θ'.1 by ring, show 2 * (θ'.2 / 2) = θ'.2 by ring] at this
  · rintro ⟨hv, h⟩
    have hv0 : 0 < θ.1 ∧ 0 < θ.2 := ⟨by have := hv.1; simp only at this; linarith, by have := hv.2; simp only at this; linarith⟩
    refine ⟨hv0, fun θ' hv' => ?_⟩
    simp only
    rw [hl _ hv', hl _ hv0]
    exact h _ ⟨by have := hv'.1; simp only; linarith, by have := hv'.2; simp only; linarith⟩

/-- **C78**, chi-squared, what holds: the scale is fitted too, so the value is the largest likelihood in the *gamma*
family, the same as that of the gamma function.  Missing: the chi-squared family (`C78_refuted_chiSquared`). -/
theorem C78_chiSquared_partial {d : List ℝ} (hpos : ∀ x ∈ d, 0 < x) (hd : Varies d) :
    (∃ θ, IsMle (fun θ : ℝ × ℝ => 0 < θ.1 ∧ 0 < θ.2) (fun θ => scaled (chiSquaredPdf θ.1) θ.2) d θ) ∧
    ∀ fit : List ℝ → ℝ × ℝ,
      IsMle (fun θ : ℝ × ℝ => 0 < θ.1 ∧ 0 < θ.2) (fun θ => scaled (chiSquaredPdf θ.1) θ.2) d (fit d) →
      ∃ r : ℝ, chiSquared fit d = .ok (r : Num) ∧
        IsGreatest (likelihoods (fun θ : ℝ × ℝ => 0 < θ.1 ∧ 0 < θ.2) gammaPdf d) r := by
  constructor
  · obtain ⟨θ, h⟩ := gamma_mle_exists hpos hd
    refine ⟨(2 * θ.1, θ.2 / 2), (chi_mle hpos).2 ?_⟩
    simp only
    rwa [show 2 * θ.1 / 2 = θ.1 by ring, show 2 * (θ.2 / 2) = θ.2 by ring]
  · intro fit hfit
    have hg := (chi_mle hpos).1 hfit
    refine ⟨_, ?_, hg.greatest⟩
    unfold chiSquared
    simp only [anyNonpos_pos hpos, bind, Except.bind, pure, Except.pure, Bool.false_eq_true, if_false]
    rw [expSum_eq fun x hx => ⟨gammaPdf_pos hg.1 (hpos x hx), chi2Logpdf_eq hfit.1.1 hfit.1.2 (hpos x hx)⟩]

/-- Functions of the same sample: gamma and chi-squared never differ. -/
theorem C78_chiSquared_gamma {d : List ℝ} (hpos : ∀ x ∈ d, 0 < x) (hd : Varies d) {fitC fitG : List ℝ → ℝ × ℝ}
    (hC : IsMle (fun θ : ℝ × ℝ => 0 < θ.1 ∧ 0 < θ.2) (fun θ => scaled (chiSquaredPdf θ.1) θ.2) d (fitC d))
    (hG : IsMle (fun θ : ℝ × ℝ => 0 < θ.1 ∧ 0 < θ.2) gammaPdf d (fitG d)) :
    chiSquared fitC d = gamma fitG d := by
  obtain ⟨r, h1, g1⟩ := (C78_chiSquared_partial hpos hd).2 fitC hC
  obtain ⟨r', h2, g2⟩ := (C78_gamma hpos hd).2 fitG hG
  rw [h1, h2, g1.unique g2]

/-- **C78, refuted** for the chi-squared family: on the sample `[1/100, 399/100]` the value is not the largest
chi-squared likelihood. -/
theorem C78_refuted_chiSquared {fit : List ℝ → ℝ × ℝ} {r : ℝ}
    (hfit : IsMle (fun θ : ℝ × ℝ => 0 < θ.1 ∧ 0 < θ.2) (fun θ => scaled (chiSquaredPdf θ.1) θ.2)
      [1 / 100, 399 / 100] (fit [1 / 100, 399 / 100]))
    (hr : chiSquared fit [1 / 100, 399 / 100] = .ok (r : Num)) :
    ¬ IsGreatest (likelihoods (fun k : ℝ => 0 < k) chiSquaredPdf [1 / 100, 399 / 100]) r := by
  intro hgr
  have hpos : ∀ x ∈ [(1 / 100 : ℝ), 399 / 100], 0 < x := by simp
  have hd : Varies [(1 / 100 : ℝ), 399 / 100] := ⟨1 / 100, by simp, 399 / 100, by simp, by norm_num⟩
  obtain ⟨r', h1, g1⟩ := (C78_chiSquared_partial hpos hd).2 fit hfit
  rw [hr] at h1
  have hrr : r = r' := by simpa using h1
  subst hrr
  obtain ⟨⟨k, hk, hrk⟩, hub⟩ := hgr
  have hlik : ∀ k : ℝ, 0 < k → likelihood (chiSquaredPdf k) [(1 / 100 : ℝ), 399 / 100] =
      likelihood (gammaPdf (k / 2, 2)) [(1 / 100 : ℝ), 399 / 100] := fun k hk => by
    unfold likelihood
    rw [List.map_congr_left fun x hx => ?_]
    have := chi_eq_gamma hk one_pos (hpos x hx)
    rwa [scaled, div_one, div_one, mul_one] at this
  -- the degrees of freedom must be the mean, 2
  have hk2 : k = 2 := by
    by_contra hne
    have hk2 : 0 < k / 2 := half_pos hk
    have hs : 0 < 4 / k := by positivity
    have hlt : likelihood (gammaPdf (k / 2, 2)) [(1 / 100 : ℝ), 399 / 100] <
        likelihood (gammaPdf (k / 2, 4 / k)) [(1 / 100 : ℝ), 399 / 100] := by
      rw [← exp_sum_log fun x hx => gammaPdf_pos (θ := (k / 2, 2)) ⟨hk2, two_pos⟩ (hpos x hx),
        ← exp_sum_log fun x hx => gammaPdf_pos (θ := (k / 2, 4 / k)) ⟨hk2, hs⟩ (hpos x hx), Real.exp_lt_exp,
        sum_log_gammaPdf (θ := (k / 2, 2)) ⟨hk2, two_pos⟩ hpos, sum_log_gammaPdf (θ := (k / 2, 4 / k)) ⟨hk2, hs⟩ hpos]
      have hsum : [(1 / 100 : ℝ), 399 / 100].sum = 4 := by norm_num
      have hlen : (([(1 / 100 : ℝ), 399 / 100].length : ℕ) : ℝ) = 2 := by norm_num
      rw [hsum, hlen]
      simp only
      have h4 : Real.log (2 / k) < 2 / k - 1 :=
        Real.log_lt_sub_one_of_pos (by positivity) (by rw [Ne, div_eq_one_iff_eq hk.ne']; exact fun h => hne h.symm)
      have e1 : Real.log (4 / k) = Real.log 2 + Real.log (2 / k) := by
        rw [← Real.log_mul two_ne_zero (by positivity)]; congr 1; ring
      have e2 : (4 : ℝ) / (4 / k) = k := by field_simp
      have e3 : k * (2 / k) = 2 := by field_simp
      rw [e1, e2]
      have := mul_lt_mul_of_pos_left h4 hk
      nlinarith
    have := g1.2 ⟨(k / 2, 4 / k), ⟨hk2, hs⟩, rfl⟩
    rw [hrk, hlik k hk] at this
    exact absurd hlt (not_lt.2 this)
  subst hk2
  have h1 := hub ⟨1, one_pos, rfl⟩
  rw [hrk] at h1
  refine absurd h1 (not_le.2 ?_)
  have c2 : ∀ x : ℝ, 0 < x → chiSquaredPdf 2 x = Real.exp (-x / 2) / 2 := fun x hx => by
    rw [chiSquaredPdf, if_pos hx, div_self two_ne_zero, sub_self, Real.rpow_zero, Real.rpow_one, Real.Gamma_one]
    ring
  have c1 : ∀ x : ℝ, 0 < x → chiSquaredPdf 1 x = Real.exp (-x / 2) / (√x * (√2 * √Real.pi)) := fun x hx => by
    rw [chiSquaredPdf, if_pos hx, Real.Gamma_one_half_eq, show (1 / 2 : ℝ) - 1 = -(1 / 2) by norm_num,
      Real.rpow_neg hx.le, ← Real.sqrt_eq_rpow, ← Real.sqrt_eq_rpow]
    have := Real.sqrt_pos.2 hx
    field_simp
  simp only [likelihood, List.map_cons, List.map_nil, List.prod_cons, List.prod_nil, mul_one]
  rw [c2 _ (by norm_num), c2 _ (by norm_num), c1 _ (by norm_num), c1 _ (by norm_num), div_mul_div_comm,
    div_mul_div_comm]
  have e1 := Real.exp_pos (-(1 / 100 : ℝ) / 2)
  have e2 := Real.exp_pos (-(399 / 100 : ℝ) / 2)
  have hpi := Real.pi_pos
  have hpi4 := Real.pi_le_four
  have hd1 : √(1 / 100 : ℝ) = 1 / 10 := by
    rw [show (1 / 100 : ℝ) = (1 / 10) ^ 2 by norm_num, Real.sqrt_sq (by norm_num)]
  have hd2 : √(399 / 100 : ℝ) ≤ 2 := by
    rw [Real.sqrt_le_left (by norm_num)]; norm_num
  have hd3 : 0 < √(399 / 100 : ℝ) := Real.sqrt_pos.2 (by norm_num)
  have h2 : √(2 : ℝ) * √2 = 2 := Real.mul_self_sqrt two_pos.le
  have hp : √Real.pi * √Real.pi = Real.pi := Real.mul_self_sqrt hpi.le
  have hs2 : 0 < √(2 : ℝ) := Real.sqrt_pos.2 two_pos
  have hsp : 0 < √Real.pi := Real.sqrt_pos.2 hpi
  apply div_lt_div_of_pos_left (mul_pos e1 e2) (by rw [hd1]; positivity)
  have e : √(1 / 100 : ℝ) * (√2 * √Real.pi) * (√(399 / 100) * (√2 * √Real.pi)) =
      1 / 10 * √(399 / 100) * ((√2 * √2) * (√Real.pi * √Real.pi)) := by rw [hd1]; ring
  rw [e, h2, hp]
  nlinarith [mul_nonneg (sub_nonneg.2 hd2) hpi.le]

/-! ### Student -/

theorem pow_le_prod {f : ℝ → ℝ} {c : ℝ} (hc : 0 ≤ c) : ∀ {d : List ℝ}, (∀ x ∈ d, c ≤ f x) →
    c ^ d.length ≤ (d.map f).prod
  | [], _ => by simp
  | x :: d, h => by
    have ih := pow_le_prod hc (d := d) fun y hy => h y (by simp [hy])
    have h1 := h x (by simp)
    rw [List.length_cons, pow_succ, List.map_cons, List.prod_cons, mul_comm]
    exact mul_le_mul h1 ih (pow_nonneg hc _) (hc.trans h1)

theorem studentPdf_pos {θ : ℝ × ℝ × ℝ} (hk : 0 < θ.1) (hs : 0 < θ.2.2) (x : ℝ) : 0 < studentPdf θ x := by
  have h1 := Real.Gamma_pos_of_pos (show 0 < (θ.1 + 1) / 2 by linarith)
  have h2 := Real.Gamma_pos_of_pos (half_pos hk)
  have := Real.pi_pos
  unfold studentPdf
  positivity

theorem tLogpdf_eq {θ : ℝ × ℝ × ℝ} (hk : 0 < θ.1) (hs : 0 < θ.2.2) (x : ℝ) :
    locScale (tLogpdf θ.1) θ.2.1 θ.2.2 x = Real.log (studentPdf θ x) := by
  have h1 := Real.Gamma_pos_of_pos (show 0 < (θ.1 + 1) / 2 by linarith)
  have h2 := Real.Gamma_pos_of_pos (half_pos hk)
  have hpi := Real.pi_pos
  have h3 : 0 < 1 + ((x - θ.2.1) / θ.2.2) ^ 2 / θ.1 := by positivity
  have h4 : 0 < √(θ.1 * Real.pi) := Real.sqrt_pos.2 (by positivity)
  have e : Real.log (studentPdf θ x) = Real.log (Real.Gamma ((θ.1 + 1) / 2)) -
      (1 / 2 * Real.log (θ.1 * Real.pi) + Real.log (Real.Gamma (θ.1 / 2)) + Real.log θ.2.2) -
      (θ.1 + 1) / 2 * Real.log (1 + ((x - θ.2.1) / θ.2.2) ^ 2 / θ.1) := by
    rw [studentPdf, Real.log_mul (by positivity) (by positivity), Real.log_div h1.ne' (by positivity),
      Real.log_mul (by positivity) hs.ne', Real.log_mul h4.ne' h2.ne', Real.log_sqrt (by positivity), Real.log_rpow h3]
    ring
  rw [e, locScale, tLogpdf, ← pow_two]
  ring

/-- **C78, refuted** for the Student family: location, scale and degrees of freedom are fitted, and then every sample has
likelihoods larger than any bound; whatever the fit returns, the value is not the largest likelihood. -/
theorem C78_refuted_student {d : List ℝ} (hd : Varies d) (fit : List ℝ → ℝ × ℝ × ℝ) (hk : 0 < (fit d).1)
    (hs : 0 < (fit d).2.2) :
    (∃ r : ℝ, tDistribution fit d = .ok (r : Num) ∧ r = likelihood (studentPdf (fit d)) d) ∧
    ∀ B : ℝ, ∃ L ∈ likelihoods (fun θ : ℝ × ℝ × ℝ => 0 < θ.1 ∧ 0 < θ.2.2) studentPdf d, B < L := by
  constructor
  · refine ⟨_, ?_, rfl⟩
    unfold tDistribution
    simp only [allEqualFirst_varies hd, bind, Except.bind, pure, Except.pure, Bool.false_eq_true, if_false]
    rw [expSum_eq fun x _ => ⟨studentPdf_pos hk hs x, tLogpdf_eq hk hs x⟩]
  · intro B
    obtain ⟨x₀, d, rfl⟩ := List.exists_cons_of_ne_nil hd.ne_nil
    clear hd hk hs
    -- degrees of freedom so small that the other observations cost less than the first one gains
    set n : ℝ := (d.length : ℝ) with hn
    have hn0 : 0 ≤ n := Nat.cast_nonneg _
    set k : ℝ := 1 / (2 * (n + 1)) with hk
    have hk0 : 0 < k := by positivity
    have hkn : k * n ≤ 1 / 2 := by
      rw [hk, div_mul_eq_mul_div, div_le_div_iff₀ (by positivity) two_pos]; nlinarith
    obtain ⟨D, hD0, hD⟩ : ∃ D : ℝ, 0 ≤ D ∧ ∀ x ∈ d, (x - x₀) ^ 2 ≤ D := by
      clear_value n
      clear hn hk hkn
      induction d with
      | nil => exact ⟨0, le_rfl, by simp⟩
      | cons y d ih =>
        obtain ⟨D, hD0, hD⟩ := ih
        refine ⟨D + (y - x₀) ^ 2, by positivity, fun x hx => ?_⟩
        rcases List.mem_cons.1 hx with rfl | hx
        · linarith
        · have := hD x hx; nlinarith [sq_nonneg (y - x₀)]
    set c : ℝ := Real.Gamma ((k + 1) / 2) / (√(k * Real.pi) * Real.Gamma (k / 2)) with hc
    have hc0 : 0 < c := by
      have h1 := Real.Gamma_pos_of_pos (show 0 < (k + 1) / 2 by linarith)
      have h2 := Real.Gamma_pos_of_pos (half_pos hk0)
      have := Real.pi_pos
      positivity
    set E : ℝ := 1 + D / k with hE
    have hE0 : 0 < E := by positivity
    set C : ℝ := c * E ^ (-((k + 1) / 2)) with hC
    have hC0 : 0 < C := by positivity
    have hval : ∀ s : ℝ, 0 < s → ∀ x, studentPdf (k, x₀, s) x =
        c / s * (1 + ((x - x₀) / s) ^ 2 / k) ^ (-((k + 1) / 2)) := fun s hs x => by
      rw [studentPdf, hc]; simp only; rw [div_div (Real.Gamma ((k + 1) / 2))]
    have hrest : ∀ s : ℝ, 0 < s → s ≤ 1 → ∀ x ∈ d, C * s ^ k ≤ studentPdf (k, x₀, s) x := by
      intro s hs hs1 x hx
      rw [hval s hs]
      have h1 : 1 + ((x - x₀) / s) ^ 2 / k ≤ E / s ^ 2 := by
        rw [hE, div_pow, le_div_iff₀ (by positivity)]
        have e : (1 + (x - x₀) ^ 2 / s ^ 2 / k) * s ^ 2 = s ^ 2 + (x - x₀) ^ 2 / k := by field_simp
        rw [e]
        have h2 := div_le_div_of_nonneg_right (hD x hx) hk0.le
        nlinarith
      have h2 := Real.rpow_le_rpow_of_nonpos (z := -((k + 1) / 2)) (by positivity) h1 (by linarith)
      have h3 : (E / s ^ 2) ^ (-((k + 1) / 2)) = E ^ (-((k + 1) / 2)) * s ^ (k + 1) := by
        rw [Real.div_rpow hE0.le (by positivity), ← Real.rpow_natCast s 2, ← Real.rpow_mul hs.le, div_eq_mul_inv,
          ← Real.rpow_neg hs.le]
        congr 2
        push_cast
        ring
      rw [h3] at h2
      calc C * s ^ k = c / s * (E ^ (-((k + 1) / 2)) * s ^ (k + 1)) := by
            rw [hC, Real.rpow_add hs, Real.rpow_one]; field_simp
        _ ≤ _ := mul_le_mul_of_nonneg_left h2 (by positivity)
    set K : ℝ := c * C ^ d.length with hK
    have hK0 : 0 < K := by positivity
    set t : ℝ := K / (|B| + 1 + K) with ht
    have hden : 0 < |B| + 1 + K := by positivity
    have ht0 : 0 < t := by positivity
    have ht1 : t ≤ 1 := by
      rw [ht, div_le_one hden]; nlinarith [abs_nonneg B]
    have hs0 : 0 < t ^ 2 := by positivity
    have hs1 : t ^ 2 ≤ 1 := by nlinarith
    refine ⟨_, ⟨(k, x₀, t ^ 2), ⟨hk0, hs0⟩, rfl⟩, ?_⟩
    have hfirst : studentPdf (k, x₀, t ^ 2) x₀ = c / t ^ 2 := by rw [hval _ hs0]; simp
    have h1 := pow_le_prod (by positivity) (hrest _ hs0 hs1)
    have h2 : t ≤ ((t ^ 2) ^ k) ^ d.length := by
      rw [← Real.rpow_natCast, ← Real.rpow_mul hs0.le, ← Real.rpow_natCast t 2, ← Real.rpow_mul ht0.le]
      refine le_trans (le_of_eq (Real.rpow_one t).symm)
        (Real.rpow_le_rpow_of_exponent_ge ht0 ht1 ?_)
      push_cast
      rw [← hn]
      linarith
    rw [likelihood, List.map_cons, List.prod_cons, hfirst]
    calc B < |B| + 1 + K := by have := le_abs_self B; linarith
      _ = c / t ^ 2 * (C ^ d.length * t) := by
          rw [show c / t ^ 2 * (C ^ d.length * t) = K / t by rw [hK]; field_simp, ht]; field_simp
      _ ≤ c / t ^ 2 * (C * (t ^ 2) ^ k) ^ d.length := by
          rw [mul_pow C]
          exact mul_le_mul_of_nonneg_left (mul_le_mul_of_nonneg_left h2 (pow_nonneg hC0.le _)) (by positivity)
      _ ≤ _ := mul_le_mul_of_nonneg_left h1 (by positivity)

example : ∃ r : ℝ, tDistribution (fun _ => (3, 2, 1)) [1, 2, 5] = .ok (r : Num) ∧
    r = likelihood (studentPdf (3, 2, 1)) [1, 2, 5] :=
  (C78_refuted_student ⟨1, by simp, 2, by simp, by norm_num⟩ (fun _ => (3, 2, 1)) (by norm_num) (by norm_num)).1

/-! ### Cauchy -/

theorem cauchyPdf_pos {θ : ℝ × ℝ} (hs : 0 < θ.2) (x : ℝ) : 0 < cauchyPdf θ x := by
  have := Real.pi_pos
  unfold cauchyPdf
  positivity

theorem cauchyLogpdf_eq {θ : ℝ × ℝ} (hs : 0 < θ.2) (x : ℝ) :
    locScale cauchyLogpdf θ.1 θ.2 x = Real.log (cauchyPdf θ x) := by
  have hpi := Real.pi_pos
  have h : 0 < 1 + (x - θ.1) / θ.2 * ((x - θ.1) / θ.2) := by nlinarith [mul_self_nonneg ((x - θ.1) / θ.2)]
  rw [locScale, cauchyLogpdf, cauchyPdf, ← Real.log_div (by positivity) hs.ne', pow_two]
  congr 1
  generalize 1 + (x - θ.1) / θ.2 * ((x - θ.1) / θ.2) = Q at *
  field_simp

/-- **C78**, Cauchy, what holds: with a fit that maximises the likelihood the value is the largest likelihood.  Missing:
samples without a maximum (`C78_refuted_cauchy`). -/
theorem C78_cauchy_partial {d : List ℝ} (hd : Varies d) {fit : List ℝ → ℝ × ℝ}
    (hfit : IsMle (fun θ : ℝ × ℝ => 0 < θ.2) cauchyPdf d (fit d)) :
    ∃ r : ℝ, cauchy fit d = .ok (r : Num) ∧
      IsGreatest (likelihoods (fun θ : ℝ × ℝ => 0 < θ.2) cauchyPdf d) r := by
  refine ⟨_, ?_, hfit.greatest⟩
  unfold cauchy
  simp only [allEqualFirst_varies hd, bind, Except.bind, pure, Except.pure, Bool.false_eq_true, if_false,
    if_neg (not_le.2 hfit.1)]
  rw [expSum_eq fun x _ => ⟨cauchyPdf_pos hfit.1 x, cauchyLogpdf_eq hfit.1 x⟩]

example : Varies [(-1 : ℝ), 1] ∧ IsMle (fun θ : ℝ × ℝ => 0 < θ.2) cauchyPdf [-1, 1] (0, 1) := by
  refine ⟨⟨-1, by simp, 1, by simp, by norm_num⟩, one_pos, ?_⟩
  rintro ⟨m, s⟩ hs
  have hs' : 0 < s := hs
  have hpi := Real.pi_pos
  simp only [likelihood, List.map_cons, List.map_nil, List.prod_cons, List.prod_nil, cauchyPdf, mul_one]
  rw [div_mul_div_comm, div_mul_div_comm]
  refine div_le_div_of_nonneg_left (by norm_num) (by positivity) ?_
  have e : Real.pi * s * (1 + ((-1 - m) / s) ^ 2) * (Real.pi * s * (1 + ((1 - m) / s) ^ 2)) =
      Real.pi ^ 2 * ((s ^ 2 + (1 + m) ^ 2) * (s ^ 2 + (1 - m) ^ 2) / s ^ 2) := by
    field_simp; ring
  rw [e]
  have h4 : 4 ≤ (s ^ 2 + (1 + m) ^ 2) * (s ^ 2 + (1 - m) ^ 2) / s ^ 2 := by
    rw [le_div_iff₀ (by positivity)]
    nlinarith [sq_nonneg (s ^ 2 + m ^ 2 - 1)]
  have := mul_le_mul_of_nonneg_left h4 (sq_nonneg Real.pi)
  norm_num
  nlinarith

theorem count_le_prod {f : ℝ → ℝ} {a b c : ℝ} (ha : 0 ≤ a) (hb : 0 ≤ b) : ∀ {d : List ℝ}, (a ≤ f c) →
    (∀ x ∈ d, x ≠ c → b ≤ f x) → a ^ d.count c * b ^ (d.length - d.count c) ≤ (d.map f).prod
  | [], _, _ => by simp
  | x :: d, h1, h2 => by
    have ih := count_le_prod ha hb (d := d) h1 fun y hy => h2 y (by simp [hy])
    have hcl := List.count_le_length (a := c) (l := d)
    rw [List.map_cons, List.prod_cons, List.length_cons]
    have hnn : 0 ≤ a ^ d.count c * b ^ (d.length - d.count c) := by positivity
    by_cases hx : x = c
    · subst hx
      rw [List.count_cons_self, Nat.add_sub_add_right, pow_succ]
      calc a ^ d.count x * a * b ^ (d.length - d.count x) = a * (a ^ d.count x * b ^ (d.length - d.count x)) := by ring
        _ ≤ _ := mul_le_mul h1 ih hnn (ha.trans h1)
    · rw [List.count_cons_of_ne hx, Nat.sub_add_comm hcl, pow_succ]
      have h3 := h2 x (by simp) hx
      calc a ^ d.count c * (b ^ (d.length - d.count c) * b) = b * (a ^ d.count c * b ^ (d.length - d.count c)) := by ring
        _ ≤ _ := mul_le_mul h3 ih hnn (hb.trans h3)

/-- **C78, refuted** for the Cauchy family when more than half of the observations are equal: there are likelihoods
larger than any bound, and the function returns a number. -/
theorem C78_refuted_cauchy {d : List ℝ} {c : ℝ} (hd : Varies d) (hc : d.length < 2 * d.count c)
    (fit : List ℝ → ℝ × ℝ) :
    (∃ r : ℝ, cauchy fit d = .ok (r : Num)) ∧
    ∀ B : ℝ, ∃ L ∈ likelihoods (fun θ : ℝ × ℝ => 0 < θ.2) cauchyPdf d, B < L := by
  constructor
  · by_cases hs : (fit d).2 ≤ 0
    · refine ⟨0, ?_⟩
      unfold cauchy
      simp [allEqualFirst_varies hd, bind, Except.bind, pure, Except.pure, hs]
    · refine ⟨likelihood (cauchyPdf (fit d)) d, ?_⟩
      unfold cauchy
      simp only [allEqualFirst_varies hd, bind, Except.bind, pure, Except.pure, Bool.false_eq_true, if_false, if_neg hs]
      rw [expSum_eq fun x _ => ⟨cauchyPdf_pos (not_le.1 hs) x, cauchyLogpdf_eq (not_le.1 hs) x⟩]
  · intro B
    have hpi := Real.pi_pos
    obtain ⟨D, hD0, hD⟩ : ∃ D : ℝ, 0 ≤ D ∧ ∀ x ∈ d, (x - c) ^ 2 ≤ D := by
      clear hd hc
      induction d with
      | nil => exact ⟨0, le_rfl, by simp⟩
      | cons y d ih =>
        obtain ⟨D, hD0, hD⟩ := ih
        refine ⟨D + (y - c) ^ 2, by positivity, fun x hx => ?_⟩
        rcases List.mem_cons.1 hx with rfl | hx
        · linarith
        · have := hD x hx; nlinarith [sq_nonneg (y - c)]
    set j := d.count c with hj
    set i := d.length - j with hi
    have hij : i < j := by have := List.count_le_length (a := c) (l := d); omega
    set C : ℝ := 1 / (Real.pi * (1 + D)) with hC
    have hC0 : 0 < C := by positivity
    set K : ℝ := (1 / Real.pi) ^ j * C ^ i with hK
    have hK0 : 0 < K := by positivity
    set s : ℝ := K / (|B| + 1 + K) with hs
    have hden : 0 < |B| + 1 + K := by positivity
    have hs0 : 0 < s := by positivity
    have hs1 : s ≤ 1 := by
      rw [hs, div_le_one hden]; nlinarith [abs_nonneg B]
    have h1 : 1 / Real.pi / s ≤ cauchyPdf (c, s) c := by
      rw [cauchyPdf]; simp only [sub_self, zero_div]; rw [div_div]; simp
    have h2 : ∀ x ∈ d, x ≠ c → C * s ≤ cauchyPdf (c, s) x := by
      intro x hx _
      rw [cauchyPdf, hC, div_mul_eq_mul_div, one_mul, div_le_div_iff₀ (by positivity) (by positivity)]
      simp only
      have e : s * (Real.pi * s * (1 + ((x - c) / s) ^ 2)) = Real.pi * (s ^ 2 + (x - c) ^ 2) := by field_simp
      rw [e, one_mul]
      have := hD x hx
      have hs2 : s ^ 2 ≤ 1 := by nlinarith
      exact mul_le_mul_of_nonneg_left (by linarith) hpi.le
    refine ⟨_, ⟨(c, s), hs0, rfl⟩, ?_⟩
    refine lt_of_lt_of_le ?_ (count_le_prod (a := 1 / Real.pi / s) (b := C * s) (by positivity) (by positivity) h1 h2)
    rw [← hj, ← hi, div_pow, mul_pow]
    have e : (1 / Real.pi) ^ j / s ^ j * (C ^ i * s ^ i) = K / s ^ (j - i) := by
      rw [hK, ← Nat.sub_add_cancel hij.le, pow_add s (j - i) i]
      simp only [Nat.add_sub_cancel]
      field_simp
    rw [e]
    calc B < |B| + 1 + K := by have := le_abs_self B; linarith
      _ = K / s := by rw [hs]; field_simp
      _ ≤ K / s ^ (j - i) := by
          refine div_le_div_of_nonneg_left hK0.le (by positivity) ?_
          exact (pow_le_pow_of_le_one hs0.le hs1 (show 1 ≤ j - i by omega)).trans_eq (pow_one s)

example : Varies [(1 : ℝ), 1, 1, 4] ∧ [(1 : ℝ), 1, 1, 4].length < 2 * [(1 : ℝ), 1, 1, 4].count 1 := by
  refine ⟨⟨1, by simp, 4, by simp, by norm_num⟩, ?_⟩
  rw [List.count_cons_self, List.count_cons_self, List.count_cons_self]
  simp

/-! ### Beta -/

theorem betaPdf_pos {θ : ℝ × ℝ} (h : 0 < θ.1 ∧ 0 < θ.2) {x : ℝ} (h0 : 0 < x) (h1 : x < 1) : 0 < betaPdf θ x := by
  have g1 := Real.Gamma_pos_of_pos h.1
  have g2 := Real.Gamma_pos_of_pos h.2
  have g3 := Real.Gamma_pos_of_pos (add_pos h.1 h.2)
  have : 0 < 1 - x := by linarith
  rw [betaPdf, if_pos ⟨h0, h1⟩]
  positivity

theorem sum_log_betaPdf {θ : ℝ × ℝ} (h : 0 < θ.1 ∧ 0 < θ.2) {d : List ℝ} (hin : ∀ x ∈ d, 0 < x ∧ x < 1) :
    (d.map fun x => Real.log (betaPdf θ x)).sum =
      d.length * (Real.log (Real.Gamma (θ.1 + θ.2)) - Real.log (Real.Gamma θ.1) - Real.log (Real.Gamma θ.2)) +
        (θ.1 - 1) * (d.map Real.log).sum + (θ.2 - 1) * (d.map fun x => Real.log (1 - x)).sum := by
  have g1 := Real.Gamma_pos_of_pos h.1
  have g2 := Real.Gamma_pos_of_pos h.2
  have g3 := Real.Gamma_pos_of_pos (add_pos h.1 h.2)
  rw [sum_eq_lin Real.log (fun x => Real.log (1 - x)) (θ.1 - 1) (θ.2 - 1)
    (Real.log (Real.Gamma (θ.1 + θ.2)) - Real.log (Real.Gamma θ.1) - Real.log (Real.Gamma θ.2))]
  · ring
  · intro x hx
    obtain ⟨h0, h1⟩ := hin x hx
    have h2 : 0 < 1 - x := by linarith
    rw [betaPdf, if_pos ⟨h0, h1⟩, Real.log_mul (by positivity) (by positivity), Real.log_mul (by positivity) (by positivity),
      Real.log_div g3.ne' (by positivity), Real.log_mul g1.ne' g2.ne', Real.log_rpow h0, Real.log_rpow h2]
    ring

/-- **C78**, beta: with a fit that maximises the likelihood the value is the largest likelihood. -/
theorem C78_beta {d : List ℝ} (hin : ∀ x ∈ d, 0 < x ∧ x < 1) (hd : Varies d) {fit : List ℝ → ℝ × ℝ}
    (hfit : IsMle (fun θ : ℝ × ℝ => 0 < θ.1 ∧ 0 < θ.2) betaPdf d (fit d)) :
    ∃ r : ℝ, beta fit d = .ok (r : Num) ∧
      IsGreatest (likelihoods (fun θ : ℝ × ℝ => 0 < θ.1 ∧ 0 < θ.2) betaPdf d) r := by
  refine ⟨_, ?_, hfit.greatest⟩
  have hlen : d.length ≠ 0 := fun h => hd.ne_nil (List.length_eq_zero_iff.1 h)
  have hany : (d.any fun x => decide (x ≤ 0) || decide (1 ≤ x)) = false := by
    rw [List.any_eq_false]
    intro x hx
    have := hin x hx
    simp [this.1, this.2]
  unfold beta
  simp only [hlen, hany, allEqualFirst_varies hd, bind, Except.bind, pure, Except.pure, Bool.false_eq_true, if_false]
  rw [← exp_sum_log fun x hx => betaPdf_pos hfit.1 (hin x hx).1 (hin x hx).2, sum_log_betaPdf hfit.1 hin]

open MeasureTheory in
/-- A lower bound for the beta function, by Jensen's inequality. -/
theorem beta_lower {a b : ℝ} (ha : 0 < a) (hb : 0 < b) :
    Real.exp (2 - a - b) ≤ Real.Gamma a * Real.Gamma b / Real.Gamma (a + b) := by
  have hB : 0 < ProbabilityTheory.beta a b := ProbabilityTheory.beta_pos ha hb
  show _ ≤ ProbabilityTheory.beta a b
  set f : ℝ → ℝ := fun x => 1 / ProbabilityTheory.beta a b * x ^ (a - 1) * (1 - x) ^ (b - 1) with hf
  have hone : ∫⁻ x in Set.Ioo 0 1, ENNReal.ofReal (f x) = 1 := by
    rw [← ProbabilityTheory.lintegral_betaPDF_eq_one ha hb, ProbabilityTheory.lintegral_betaPDF]
  have hfm : Measurable f := by fun_prop
  have hf0 : ∀ x ∈ Set.Ioo (0 : ℝ) 1, 0 ≤ f x := fun x hx => by
    have h1 := hx.1
    have h2 : 0 < 1 - x := by linarith [hx.2]
    simp only [hf]
    positivity
  have hf0' : 0 ≤ᵐ[volume.restrict (Set.Ioo (0 : ℝ) 1)] f := (ae_restrict_mem measurableSet_Ioo).mono hf0
  have hint : IntegrableOn f (Set.Ioo 0 1) := by
    refine ⟨hfm.aestronglyMeasurable, ?_⟩
    rw [hasFiniteIntegral_iff_ofReal hf0', hone]
    exact ENNReal.one_lt_top
  have hval : ∫ x in Set.Ioo (0 : ℝ) 1, f x = 1 := by
    rw [integral_eq_lintegral_of_nonneg_ae hf0' hfm.aestronglyMeasurable, hone]
    rfl
  set h : ℝ → ℝ := fun x => 1 + (a - 1) * (Real.log x + 1) + (b - 1) * (Real.log (1 - x) + 1) with hh
  have hl1 : IntervalIntegrable Real.log volume 0 1 := intervalIntegral.intervalIntegrable_log'
  have hl2 : IntervalIntegrable (fun x => Real.log (1 - x)) volume 0 1 := by
    have := (hl1.comp_sub_left 1)
    simpa using this.symm
  have hhi : IntervalIntegrable h volume 0 1 :=
    ((intervalIntegrable_const).add ((hl1.add intervalIntegrable_const).const_mul _)).add
      ((hl2.add intervalIntegrable_const).const_mul _)
  have hi1 : ∫ x in (0 : ℝ)..1, Real.log x = -1 := by rw [integral_log]; simp
  have hi2 : ∫ x in (0 : ℝ)..1, Real.log (1 - x) = -1 := by
    rw [intervalIntegral.integral_comp_sub_left (fun x => Real.log x) 1]
    simpa using hi1
  have hhv : ∫ x in (0 : ℝ)..1, h x = 1 := by
    have e1 : IntervalIntegrable (fun _ : ℝ => (1 : ℝ)) volume 0 1 := intervalIntegrable_const
    simp only [hh]
    rw [intervalIntegral.integral_add (e1.add ((hl1.add e1).const_mul _)) ((hl2.add e1).const_mul _),
      intervalIntegral.integral_add e1 ((hl1.add e1).const_mul _), intervalIntegral.integral_const_mul,
      intervalIntegral.integral_const_mul, intervalIntegral.integral_add hl1 e1, intervalIntegral.integral_add hl2 e1,
      hi1, hi2]
    simp
  have hset : ∫ x in Set.Ioo (0 : ℝ) 1, h x = 1 := by
    rw [← integral_Ioc_eq_integral_Ioo, ← intervalIntegral.integral_of_le zero_le_one, hhv]
  have hhi' : IntegrableOn h (Set.Ioo 0 1) :=
    ((intervalIntegrable_iff_integrableOn_Ioc_of_le zero_le_one).1 hhi).mono_set Set.Ioo_subset_Ioc_self
  have hle : ∫ x in Set.Ioo (0 : ℝ) 1, Real.exp (2 - a - b) / ProbabilityTheory.beta a b * h x ≤
      ∫ x in Set.Ioo (0 : ℝ) 1, f x := by
    refine setIntegral_mono_on (hhi'.const_mul _) hint measurableSet_Ioo fun x hx => ?_
    have h1 := hx.1
    have h2 : 0 < 1 - x := by linarith [hx.2]
    have e : f x = Real.exp (2 - a - b) / ProbabilityTheory.beta a b *
        Real.exp ((a - 1) * (Real.log x + 1) + (b - 1) * (Real.log (1 - x) + 1)) := by
      simp only [hf]
      rw [Real.rpow_def_of_pos h1, Real.rpow_def_of_pos h2, mul_assoc, ← Real.exp_add, div_mul_eq_mul_div, one_mul,
        div_mul_eq_mul_div, ← Real.exp_add]
      congr 2
      ring
    rw [e]
    refine mul_le_mul_of_nonneg_left ?_ (by positivity)
    have := Real.add_one_le_exp ((a - 1) * (Real.log x + 1) + (b - 1) * (Real.log (1 - x) + 1))
    simp only [hh]
    linarith
  rw [integral_const_mul, hset, hval, mul_one, div_le_one hB] at hle
  exact hle

/-- A sample whose estimate is the uniform law. -/
example : ∃ x : ℝ, (0 < x ∧ x < 1) ∧ Varies [x, 1 - x] ∧
    IsMle (fun θ : ℝ × ℝ => 0 < θ.1 ∧ 0 < θ.2) betaPdf [x, 1 - x] (1, 1) := by
  have h4 : 4 * Real.exp (-2) < 1 := by
    have h1 : (2 : ℝ) + 1 ≤ Real.exp 2 := Real.add_one_le_exp 2
    have h2 : (4 : ℝ) < Real.exp 2 := by
      have e : Real.exp 2 = Real.exp 1 * Real.exp 1 := by rw [← Real.exp_add]; norm_num
      have : (2 : ℝ) < Real.exp 1 := by
        have := Real.add_one_lt_exp (one_ne_zero (α := ℝ))
        linarith
      rw [e]; nlinarith
    rw [Real.exp_neg, ← div_eq_mul_inv, div_lt_one (by positivity)]
    exact h2
  set q : ℝ := √(1 - 4 * Real.exp (-2)) with hq
  have hq0 : 0 < q := Real.sqrt_pos.2 (by linarith)
  have hqq : q * q = 1 - 4 * Real.exp (-2) := Real.mul_self_sqrt (by linarith)
  have he := Real.exp_pos (-2 : ℝ)
  have hq1 : q < 1 := by nlinarith
  set x : ℝ := (1 - q) / 2 with hx
  have hx0 : 0 < x := by rw [hx]; linarith
  have hx1 : x < 1 := by rw [hx]; linarith
  have h1x : 0 < 1 - x := by linarith
  have hprod : x * (1 - x) = Real.exp (-2) := by rw [hx]; nlinarith
  have hlog : Real.log x + Real.log (1 - x) = -2 := by
    rw [← Real.log_mul hx0.ne' h1x.ne', hprod, Real.log_exp]
  have hin : ∀ y ∈ [x, 1 - x], 0 < y ∧ y < 1 := by simp [hx0, hx1]
  refine ⟨x, ⟨hx0, hx1⟩, ⟨x, by simp, 1 - x, by simp, ?_⟩, ⟨one_pos, one_pos⟩, fun θ hθ => ?_⟩
  · rw [hx]; intro h; apply hq0.ne'; linarith
  · refine likelihood_le (fun y hy => betaPdf_pos hθ (hin y hy).1 (hin y hy).2)
      (fun y hy => betaPdf_pos (θ := (1, 1)) ⟨one_pos, one_pos⟩ (hin y hy).1 (hin y hy).2) ?_
    rw [sum_log_betaPdf hθ hin, sum_log_betaPdf (θ := (1, 1)) ⟨one_pos, one_pos⟩ hin]
    have g1 := Real.Gamma_pos_of_pos hθ.1
    have g2 := Real.Gamma_pos_of_pos hθ.2
    have g3 := Real.Gamma_pos_of_pos (add_pos hθ.1 hθ.2)
    have hl := Real.log_le_log (Real.exp_pos _) (beta_lower hθ.1 hθ.2)
    rw [Real.log_exp, Real.log_div (by positivity) g3.ne', Real.log_mul g1.ne' g2.ne'] at hl
    have e2 : Real.Gamma ((1 : ℝ) + 1) = 1 := by rw [Real.Gamma_add_one one_ne_zero, Real.Gamma_one, mul_one]
    simp only [List.map_cons, List.map_nil, List.sum_cons, List.sum_nil, List.length_cons, List.length_nil, e2,
      Real.Gamma_one, Real.log_one, sub_self, zero_mul, add_zero, sub_sub_cancel]
    push_cast
    have e3 : (θ.1 - 1) * (Real.log x + Real.log (1 - x)) + (θ.2 - 1) * (Real.log (1 - x) + Real.log x) =
        -2 * (θ.1 + θ.2 - 2) := by rw [add_comm (Real.log (1 - x)), hlog]; ring
    nlinarith

/-! ### Fisher -/

theorem fisherPdf_pos {θ : ℝ × ℝ} (h : 0 < θ.1 ∧ 0 < θ.2) {x : ℝ} (h0 : 0 < x) : 0 < fisherPdf θ x := by
  have h1 := h.1
  have h2 := h.2
  have g1 := Real.Gamma_pos_of_pos (half_pos h1)
  have g2 := Real.Gamma_pos_of_pos (half_pos h2)
  have g3 := Real.Gamma_pos_of_pos (half_pos (add_pos h1 h2))
  rw [fisherPdf, if_pos h0]
  positivity

theorem log_fisherPdf {θ : ℝ × ℝ} (h : 0 < θ.1 ∧ 0 < θ.2) {x : ℝ} (h0 : 0 < x) :
    Real.log (fisherPdf θ x) = fLogpdf θ.1 θ.2 x := by
  have h1 := h.1
  have h2 := h.2
  have g1 := Real.Gamma_pos_of_pos (half_pos h1)
  have g2 := Real.Gamma_pos_of_pos (half_pos h2)
  have g3 := Real.Gamma_pos_of_pos (half_pos (add_pos h1 h2))
  have h5 : 0 < θ.2 + θ.1 * x := by positivity
  rw [fisherPdf, if_pos h0, Real.log_div (by positivity) (by positivity), Real.log_mul (by positivity) (by positivity),
    Real.log_mul (by positivity) (by positivity), Real.log_mul (by positivity) (by positivity),
    Real.log_div g3.ne' (by positivity), Real.log_mul g1.ne' g2.ne', Real.log_rpow h1, Real.log_rpow h2,
    Real.log_rpow h0, Real.log_rpow h5, fLogpdf]
  ring

theorem log_scaledFisher {m n s x : ℝ} (hm : 0 < m) (hn : 0 < n) (hs : 0 < s) (hx : 0 < x) :
    0 < scaled (fisherPdf (m, n)) s x ∧
      locScale (fLogpdf m n) 0 s x = Real.log (scaled (fisherPdf (m, n)) s x) := by
  have hp := fisherPdf_pos (θ := (m, n)) ⟨hm, hn⟩ (div_pos hx hs)
  refine ⟨div_pos hp hs, ?_⟩
  rw [scaled, Real.log_div hp.ne' hs.ne', log_fisherPdf (θ := (m, n)) ⟨hm, hn⟩ (div_pos hx hs), locScale, sub_zero]

/-- Weighted means: strict inequality. -/
theorem log_weighted {m n s : ℝ} (hm : 0 < m) (hn : 0 < n) (hs : 1 < s) :
    m * Real.log s < (m + n) * Real.log ((n + m * s) / (n + m)) := by
  set w := (n + m * s) / (n + m) with hw
  have hw1 : 1 < w := by rw [hw, one_lt_div (by positivity)]; nlinarith
  have hw0 : 0 < w := by linarith
  have h1 := Real.log_lt_sub_one_of_pos (x := 1 / w) (by positivity) (by
    rw [Ne, div_eq_one_iff_eq hw0.ne']; exact hw1.ne)
  have h2 := Real.log_le_sub_one_of_pos (x := s / w) (by positivity)
  rw [Real.log_div one_ne_zero hw0.ne', Real.log_one] at h1
  rw [Real.log_div (by positivity) hw0.ne'] at h2
  have h3 := mul_lt_mul_of_pos_left h1 hn
  have h4 := mul_le_mul_of_nonneg_left h2 hm.le
  have e : n * (1 / w - 1) + m * (s / w - 1) = 0 := by
    have : n * (1 / w) + m * (s / w) = n + m := by
      rw [hw]
      have : n + m * s ≠ 0 := by positivity
      field_simp
    linarith
  linarith

/-- **C78, refuted** for the Fisher family: the scale is fitted too.  If all observations are above 1, then for all
degrees of freedom there is a scale for which the function returns a number larger than the likelihood with these
degrees of freedom; and with a fit that maximises the likelihood the number exceeds every Fisher likelihood. -/
theorem C78_refuted_fisher {d : List ℝ} (h1 : ∀ x ∈ d, 1 < x) (hd : Varies d) :
    (∀ m n : ℝ, 0 < m → 0 < n → ∃ s : ℝ, 1 < s ∧ ∀ fit : List ℝ → ℝ × ℝ × ℝ, fit d = (m, n, s) →
      ∃ r : ℝ, fisher fit d = .ok (r : Num) ∧ likelihood (fisherPdf (m, n)) d < r) ∧
    ∀ fit : List ℝ → ℝ × ℝ × ℝ,
      IsMle (fun θ : ℝ × ℝ × ℝ => 0 < θ.1 ∧ 0 < θ.2.1 ∧ 0 < θ.2.2) (fun θ => scaled (fisherPdf (θ.1, θ.2.1)) θ.2.2)
        d (fit d) →
      ∃ r : ℝ, fisher fit d = .ok (r : Num) ∧
        ∀ L ∈ likelihoods (fun θ : ℝ × ℝ => 0 < θ.1 ∧ 0 < θ.2) fisherPdf d, L < r := by
  have hpos : ∀ x ∈ d, 0 < x := fun x hx => one_pos.trans (h1 x hx)
  obtain ⟨s, hs1, hsd⟩ : ∃ s : ℝ, 1 < s ∧ ∀ x ∈ d, s ≤ x := by
    clear hd hpos
    induction d with
    | nil => exact ⟨2, by norm_num, by simp⟩
    | cons y d ih =>
      obtain ⟨s, hs, h⟩ := ih fun x hx => h1 x (by simp [hx])
      refine ⟨min s y, lt_min hs (h1 y (by simp)), fun x hx => ?_⟩
      rcases List.mem_cons.1 hx with rfl | hx
      · exact min_le_right _ _
      · exact (min_le_left _ _).trans (h x hx)
  have hs0 : 0 < s := by linarith
  have hval : ∀ fit : List ℝ → ℝ × ℝ × ℝ, (0 < (fit d).1 ∧ 0 < (fit d).2.1 ∧ 0 < (fit d).2.2) →
      fisher fit d = .ok ((likelihood (scaled (fisherPdf ((fit d).1, (fit d).2.1)) (fit d).2.2) d : ℝ) : Num) := by
    intro fit ⟨hm, hn, hs⟩
    unfold fisher
    simp only [anyNonpos_pos hpos, allEqualFirst_varies hd, bind, Except.bind, pure, Except.pure, Bool.false_eq_true,
      if_false]
    rw [expSum_eq fun x hx => log_scaledFisher hm hn hs (hpos x hx)]
  have hlt : ∀ m n : ℝ, 0 < m → 0 < n →
      likelihood (fisherPdf (m, n)) d < likelihood (scaled (fisherPdf (m, n)) s) d := by
    intro m n hm hn
    rw [← exp_sum_log fun x hx => fisherPdf_pos (θ := (m, n)) ⟨hm, hn⟩ (hpos x hx),
      ← exp_sum_log fun x hx => (log_scaledFisher hm hn hs0 (hpos x hx)).1, Real.exp_lt_exp]
    refine List.sum_lt_sum_of_ne_nil hd.ne_nil _ _ fun x hx => ?_
    have hx0 := hpos x hx
    rw [← (log_scaledFisher hm hn hs0 hx0).2, log_fisherPdf (θ := (m, n)) ⟨hm, hn⟩ hx0, locScale, sub_zero, fLogpdf,
      fLogpdf]
    simp only
    have hy : 1 ≤ x / s := by rw [le_div_iff₀ hs0, one_mul]; exact hsd x hx
    have hy0 : 0 < x / s := by positivity
    have hw := log_weighted hm hn hs1
    have h5 : (n + m * s) / (n + m) ≤ (n + m * x) / (n + m * (x / s)) := by
      rw [div_le_div_iff₀ (by positivity) (by positivity)]
      have ex : x = s * (x / s) := by field_simp
      set y := x / s
      rw [ex]
      nlinarith [mul_nonneg (mul_nonneg hm.le hn.le) (mul_nonneg (sub_nonneg.2 hs1.le) (sub_nonneg.2 hy))]
    have h6 := Real.log_le_log (by positivity) h5
    rw [Real.log_div (x := n + m * x) (by positivity) (by positivity)] at h6
    have h7 := mul_le_mul_of_nonneg_left h6 (show 0 ≤ m + n by positivity)
    rw [Real.log_div hx0.ne' hs0.ne']
    nlinarith
  constructor
  · intro m n hm hn
    refine ⟨s, hs1, fun fit hfit => ⟨_, hval fit (by rw [hfit]; exact ⟨hm, hn, hs0⟩), ?_⟩⟩
    rw [hfit]
    exact hlt m n hm hn
  · intro fit hfit
    refine ⟨_, hval fit hfit.1, ?_⟩
    rintro _ ⟨θ, hθ, rfl⟩
    exact (hlt θ.1 θ.2 hθ.1 hθ.2).trans_le (hfit.2 (θ.1, θ.2, s) ⟨hθ.1, hθ.2, hs0⟩)

example : (∀ x ∈ [(2 : ℝ), 3], 1 < x) ∧ Varies [(2 : ℝ), 3] :=
  ⟨by simp, 2, by simp, 3, by simp, by norm_num⟩

end Pysatl.Props
