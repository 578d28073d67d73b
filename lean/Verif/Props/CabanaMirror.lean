import Verif.Props.Royston
import Verif.Props.NormalMirror
import Verif.Props.NormalTail

/-! # C115: the statistics of Cabana and Cabana depend on the direction -/

namespace Pysatl.Props

open Pysatl.Decision Pysatl.Graph Pysatl.Edf Pysatl.Exponent Pysatl.Spec Pysatl.Normal
open MeasureTheory ProbabilityTheory

theorem inv_sqrt_bounds {n lo hi : ℝ} (hn : 0 < n) (hlo : 0 ≤ lo) (hhi : 0 ≤ hi) (h1 : lo ^ 2 * n ≤ 1)
    (h2 : 1 ≤ hi ^ 2 * n) : lo ≤ (√n)⁻¹ ∧ (√n)⁻¹ ≤ hi := by
  have hs := Real.sqrt_pos.2 hn
  have e := Real.sq_sqrt hn.le
  constructor
  · rw [← one_div, le_div_iff₀ hs]
    refine (pow_le_one_iff_of_nonneg (by positivity) two_ne_zero).1 ?_
    rw [mul_pow, e]; exact h1
  · rw [← one_div, div_le_iff₀ hs]
    refine (one_le_pow_iff_of_nonneg (by positivity) two_ne_zero).1 ?_
    rw [mul_pow, e]; exact h2

theorem sqrt_four : √(4 : ℝ) = 2 := by
  rw [show (4 : ℝ) = 2 ^ 2 by norm_num, Real.sqrt_sq (by norm_num)]

theorem standardised_sample : standardised [-1, -1, -1, 3] = [-1 / 2, -1 / 2, -1 / 2, 3 / 2] := by
  norm_num [standardised, sd1, var1, mean, sqrt_four]

theorem standardised_mirror : standardised [1, 1, 1, -3] = [1 / 2, 1 / 2, 1 / 2, -3 / 2] := by
  norm_num [standardised, sd1, var1, mean, sqrt_four]

theorem cc2_sample : cc2Standardised [-1, -1, -1, 3] = [-1 / 2, -1 / 2, -1 / 2, 3 / 2] := by
  have : (([-1, -1, -1, 3] : List ℝ).length : ℝ) * Graph.variance [-1, -1, -1, (3 : ℝ)] /
      ((([-1, -1, -1, 3] : List ℝ).length : ℝ) - 1) = 4 := by
    norm_num [Graph.variance, mean]
  simp only [cc2Standardised]
  rw [this, sqrt_four]
  norm_num [mean]

theorem cc2_mirror : cc2Standardised [1, 1, 1, -3] = [1 / 2, 1 / 2, 1 / 2, -3 / 2] := by
  have : (([1, 1, 1, -3] : List ℝ).length : ℝ) * Graph.variance [1, 1, 1, (-3 : ℝ)] /
      ((([1, 1, 1, -3] : List ℝ).length : ℝ) - 1) = 4 := by
    norm_num [Graph.variance, mean]
  simp only [cc2Standardised]
  rw [this, sqrt_four]
  norm_num [mean]

/-- The largest of four values of which three are equal. -/
theorem npMax_four (x y : ℝ) : npMax [x, x, x, y] = .ok (max x y) := by
  simp [npMax, List.max?]

/-- The products of inverse square roots which occur in the two statistics. -/
theorem sqrt_products :
    (√30 : ℝ)⁻¹ * (√2)⁻¹ = (√15)⁻¹ / 2 ∧ (√5 : ℝ)⁻¹ * (√6)⁻¹ = (√30)⁻¹ ∧
    (√35 : ℝ)⁻¹ * (√6)⁻¹ = (√210)⁻¹ ∧ (√70 : ℝ)⁻¹ * (√30)⁻¹ = (√21)⁻¹ / 10 ∧
    √2 * (√30 : ℝ)⁻¹ = (√15)⁻¹ ∧ √(3 / 2) * (√5 : ℝ)⁻¹ = 3 * (√30)⁻¹ ∧
    √(4 / 3) * (√2 : ℝ)⁻¹ * (√35)⁻¹ = 2 * (√210)⁻¹ ∧
    √(5 / 4) * (√6 : ℝ)⁻¹ * (√70)⁻¹ = (√21)⁻¹ / 4 := by
  have e (a b : ℝ) (ha : 0 ≤ a) (hb : 0 ≤ b) (h : a ^ 2 = b ^ 2) : a = b :=
    (pow_left_inj₀ ha hb two_ne_zero).1 h
  have q (n : ℝ) (hn : 0 ≤ n) : (√n)⁻¹ ^ 2 = n⁻¹ := by rw [inv_pow, Real.sq_sqrt hn]
  refine ⟨?_, ?_, ?_, ?_, ?_, ?_, ?_, ?_⟩ <;> refine e _ _ (by positivity) (by positivity) ?_ <;>
    simp only [mul_pow, div_pow, Real.sq_sqrt (show (0 : ℝ) ≤ 2 by norm_num),
      Real.sq_sqrt (show (0 : ℝ) ≤ 3 / 2 by norm_num), Real.sq_sqrt (show (0 : ℝ) ≤ 4 / 3 by norm_num),
      Real.sq_sqrt (show (0 : ℝ) ≤ 5 / 4 by norm_num), q 2 (by norm_num), q 5 (by norm_num),
      q 6 (by norm_num), q 15 (by norm_num), q 21 (by norm_num), q 30 (by norm_num),
      q 35 (by norm_num), q 70 (by norm_num), q 210 (by norm_num)] <;> norm_num

theorem sqrt_length_four (a b : ℝ) : √(([a, a, a, b] : List ℝ).length : ℝ) = 2 := by
  rw [show (([a, a, a, b] : List ℝ).length : ℝ) = 4 by norm_num, sqrt_four]

/-- The first statistic for a standardised sample of which three values agree. -/
theorem cc1_four (lib : NormLib) (a b : ℝ) (E : ℝ → ℝ)
    (hE : ∀ v, E v = lib.cdf v * ((3 * he3 a + he3 b) / 2 * (√6)⁻¹) - lib.pdf v *
      ((3 * he4 a + he4 b) / 4 * (√6)⁻¹ + (3 * he5 a + he5 b) * v / 8 * (√15)⁻¹ +
        (3 * he6 a + he6 b) * (v ^ 2 - 1) / 24 * (√30)⁻¹ +
        (3 * he7 a + he7 b) * (v ^ 3 - 3 * v) / 48 * (√210)⁻¹ +
        (3 * he8 a + he8 b) * (v ^ 4 - 6 * v ^ 2 + 3) / 960 * (√21)⁻¹)) :
    cc1 lib [a, a, a, b] = .ok (max |E a| |E b|) := by
  obtain ⟨e1, e2, e3, e4, -⟩ := sqrt_products
  simp only [cc1, sqrt_length_four, List.map, List.sum_cons, List.sum_nil, npMax_four]
  have k (v : ℝ) : lib.cdf v * ((he3 a + (he3 a + (he3 a + (he3 b + 0)))) / (√6 * 2)) -
      lib.pdf v * ((he4 a + (he4 a + (he4 a + (he4 b + 0)))) / (2 * √6 * 2) +
      (he5 a + (he5 a + (he5 a + (he5 b + 0)))) / (2 * √30 * 2) * v / √2 +
      (he6 a + (he6 a + (he6 a + (he6 b + 0)))) / (12 * √5 * 2) * (v ^ 2 - 1) / √6 +
      (he7 a + (he7 a + (he7 a + (he7 b + 0)))) / (12 * √35 * 2) * (v ^ 3 - 3 * v) / (2 * √6) +
      (he8 a + (he8 a + (he8 a + (he8 b + 0)))) / (24 * √70 * 2) * (v ^ 4 - 6 * v ^ 2 + 3) /
        (2 * √30)) = E v := by
    rw [hE]
    linear_combination -lib.pdf v * ((3 * he5 a + he5 b) * v / 4 * e1 +
      (3 * he6 a + he6 b) * (v ^ 2 - 1) / 24 * e2 +
      (3 * he7 a + he7 b) * (v ^ 3 - 3 * v) / 48 * e3 +
      (3 * he8 a + he8 b) * (v ^ 4 - 6 * v ^ 2 + 3) / 96 * e4)
  rw [k, k]

/-- The second statistic for a standardised sample of which three values agree. -/
theorem cc2_four (lib : NormLib) (a b : ℝ) (E : ℝ → ℝ)
    (hE : ∀ v, E v = -lib.pdf v * ((3 * he3 a + he3 b) / 2 * (√6)⁻¹) +
      (lib.cdf v - v * lib.pdf v) * ((3 * he4 a + he4 b) / 4 * (√6)⁻¹) - lib.pdf v *
      ((3 * he5 a + he5 b) / 4 * (1 + (v ^ 2 - 1) / 2) * (√15)⁻¹ +
        (3 * he6 a + he6 b) / 24 * (3 * v + he3 v) * (√30)⁻¹ +
        (3 * he7 a + he7 b) / 24 * (2 * (v ^ 2 - 1) + he4 v / 2) * (√210)⁻¹ +
        (3 * he8 a + he8 b) / 24 * (he3 v / 4 + he5 v / 20) * (√21)⁻¹)) :
    cc2 lib [a, a, a, b] = .ok (max |E a| |E b|) := by
  obtain ⟨e1, e2, e3, e4, e5, e6, e7, e8⟩ := sqrt_products
  simp only [cc2, sqrt_length_four, List.map, List.sum_cons, List.sum_nil, npMax_four]
  have k (v : ℝ) (X : ℝ) (h : X = E v) : |X| = |E v| := by rw [h]
  refine congrArg Except.ok (congrArg₂ max (k a _ ?_) (k b _ ?_))
  all_goals
    rw [hE]
    generalize √(3 / 2) = s32 at *
    generalize √(4 / 3) = s43 at *
    generalize √(5 / 4) = s54 at *
  · linear_combination -lib.pdf a * ((3 * he5 a + he5 b) / 4 * e5 + (3 * he5 a + he5 b) / 4 * (a ^ 2 - 1) * e1 +
      (3 * he6 a + he6 b) / 24 * a * e6 + (3 * he6 a + he6 b) / 24 * he3 a * e2 +
      (3 * he7 a + he7 b) / 24 * (a ^ 2 - 1) * e7 + (3 * he7 a + he7 b) / 48 * he4 a * e3 +
      (3 * he8 a + he8 b) / 24 * he3 a * e8 + (3 * he8 a + he8 b) / 48 * he5 a * e4)
  · linear_combination -lib.pdf b * ((3 * he5 a + he5 b) / 4 * e5 + (3 * he5 a + he5 b) / 4 * (b ^ 2 - 1) * e1 +
      (3 * he6 a + he6 b) / 24 * b * e6 + (3 * he6 a + he6 b) / 24 * he3 b * e2 +
      (3 * he7 a + he7 b) / 24 * (b ^ 2 - 1) * e7 + (3 * he7 a + he7 b) / 48 * he4 b * e3 +
      (3 * he8 a + he8 b) / 24 * he3 b * e8 + (3 * he8 a + he8 b) / 48 * he5 b * e4)

theorem exp_half_bounds : 0.8824 ≤ Real.exp (-(1 / 8)) ∧ Real.exp (-(1 / 8)) ≤ 0.8826 ∧
    0.32 ≤ Real.exp (-(9 / 8)) ∧ Real.exp (-(9 / 8)) ≤ 0.326 := by
  have h1 := Real.exp_one_gt_d9
  have h2 := Real.exp_one_lt_d9
  have h := Real.exp_bound' (x := 1 / 8) (by norm_num) (by norm_num) (n := 4) (by norm_num)
  have h' := Real.sum_le_exp_of_nonneg (x := 1 / 8) (by norm_num) 4
  norm_num [Finset.sum_range_succ, Nat.factorial] at h h'
  have e : Real.exp (9 / 8) = Real.exp 1 * Real.exp (1 / 8) := by
    rw [← Real.exp_add]; norm_num
  have e1 := Real.exp_pos (1 / 8)
  refine ⟨?_, ?_, ?_, ?_⟩ <;> rw [Real.exp_neg]
  · rw [le_inv_comm₀ (by norm_num) e1]; norm_num; linarith
  · rw [inv_le_comm₀ e1 (by norm_num)]; norm_num; linarith
  · rw [le_inv_comm₀ (by norm_num) (Real.exp_pos _), e]; norm_num; nlinarith
  · rw [inv_le_comm₀ (Real.exp_pos _) (by norm_num), e]; norm_num; nlinarith

/-- The density and the distribution function at one half and at three halves. -/
theorem normal_values :
    0.35 ≤ gaussianPDFReal 0 1 (1 / 2) ∧ gaussianPDFReal 0 1 (1 / 2) ≤ 0.354 ∧
    0.127 ≤ gaussianPDFReal 0 1 (3 / 2) ∧ gaussianPDFReal 0 1 (3 / 2) ≤ 0.131 ∧
    0.68 ≤ Phi (1 / 2) ∧ Phi (1 / 2) ≤ 0.7 ∧ 0.91 ≤ Phi (3 / 2) ∧ Phi (3 / 2) ≤ 1 := by
  obtain ⟨a1, a2, a3, a4⟩ := exp_half_bounds
  have p1 := Real.pi_gt_d4
  have p2 := Real.pi_lt_d4
  obtain ⟨c1, c2⟩ := inv_sqrt_bounds (n := 2 * Real.pi) (lo := 0.3988) (hi := 0.399) (by positivity)
    (by norm_num) (by norm_num) (by norm_num; linarith) (by norm_num; linarith)
  have d1 := Phi_le_linear (t := 1 / 2) (by norm_num)
  have d2 := le_Phi_cubic (t := 1 / 2) (by norm_num)
  have d3 := Phi_mills (x := 3 / 2) (by norm_num)
  have b1 : gaussianPDFReal 0 1 (1 / 2) = (√(2 * Real.pi))⁻¹ * Real.exp (-(1 / 8)) := by
    rw [pdf_eq]; norm_num
  have b2 : gaussianPDFReal 0 1 (3 / 2) = (√(2 * Real.pi))⁻¹ * Real.exp (-(9 / 8)) := by
    rw [pdf_eq]; norm_num
  have g2 : gaussianPDFReal 0 1 (3 / 2) ≤ 0.131 := by rw [b2]; nlinarith
  refine ⟨by rw [b1]; nlinarith, by rw [b1]; nlinarith, by rw [b2]; nlinarith, g2,
    by norm_num at d2 ⊢; linarith, by norm_num at d1 ⊢; linarith, by norm_num at d3 g2 ⊢; linarith,
    ?_⟩
  rw [Phi_eq]; exact measureReal_le_one

theorem inverse_root_values :
    (0.4082 ≤ (√6 : ℝ)⁻¹ ∧ (√6 : ℝ)⁻¹ ≤ 0.4083) ∧ (0.2581 ≤ (√15 : ℝ)⁻¹ ∧ (√15 : ℝ)⁻¹ ≤ 0.2582) ∧
    (0.1825 ≤ (√30 : ℝ)⁻¹ ∧ (√30 : ℝ)⁻¹ ≤ 0.1826) ∧
    (0.069 ≤ (√210 : ℝ)⁻¹ ∧ (√210 : ℝ)⁻¹ ≤ 0.0691) ∧
    (0.2182 ≤ (√21 : ℝ)⁻¹ ∧ (√21 : ℝ)⁻¹ ≤ 0.2183) := by
  refine ⟨?_, ?_, ?_, ?_, ?_⟩ <;>
    exact inv_sqrt_bounds (by norm_num) (by norm_num) (by norm_num) (by norm_num) (by norm_num)

/-- A product of bounded nonnegative numbers. -/
theorem mul_between {a b c d x y : ℝ} (ha : 0 ≤ a) (hc : 0 ≤ c) (h1 : a ≤ x ∧ x ≤ b)
    (h2 : c ≤ y ∧ y ≤ d) : a * c ≤ x * y ∧ x * y ≤ b * d :=
  ⟨mul_le_mul h1.1 h2.1 hc (ha.trans h1.1),
    mul_le_mul h1.2 h2.2 (hc.trans h2.1) (ha.trans (h1.1.trans h1.2))⟩

theorem normal_values_neg (x : ℝ) : gaussianPDFReal 0 1 (-x) = gaussianPDFReal 0 1 x ∧
    Phi (-x) = 1 - Phi x := by
  refine ⟨?_, Phi_neg x⟩
  rw [pdf_eq, pdf_eq, neg_sq]

/-- The first statistic is larger for the sample than for its mirror image. -/
theorem cc1_values : ∃ v w, w < v ∧ cc1 scipyNorm [-1 / 2, -1 / 2, -1 / 2, 3 / 2] = .ok v ∧
    cc1 scipyNorm [1 / 2, 1 / 2, 1 / 2, -3 / 2] = .ok w := by
  obtain ⟨a1, a2, a3, a4, a5, a6, a7, a8⟩ := normal_values
  obtain ⟨b6, b15, b30, b210, b21⟩ := inverse_root_values
  obtain ⟨c1, c2⟩ := normal_values_neg (3 / 2)
  refine ⟨_, _, ?_, cc1_four _ _ _ _ fun v => rfl, cc1_four _ _ _ _ fun v => rfl⟩
  refine lt_of_lt_of_le ?_ (le_max_right _ _)
  refine lt_of_lt_of_le (b := 0.7) (max_lt ?_ ?_) (le_trans ?_ (le_abs_self _))
  all_goals
    simp only [scipyNorm, he3, he4, he5, he6, he7, he8, show (-3 / 2 : ℝ) = -(3 / 2) by norm_num,
      c1, c2]
    clear c1 c2
    generalize gaussianPDFReal 0 1 (1 / 2) = f1 at *
    generalize gaussianPDFReal 0 1 (3 / 2) = f2 at *
    generalize Phi (1 / 2) = P1 at *
    generalize Phi (3 / 2) = P2 at *
    generalize (√6 : ℝ)⁻¹ = x6 at *
    generalize (√15 : ℝ)⁻¹ = x15 at *
    generalize (√30 : ℝ)⁻¹ = x30 at *
    generalize (√210 : ℝ)⁻¹ = x210 at *
    generalize (√21 : ℝ)⁻¹ = x21 at *
    obtain ⟨A, hA⟩ : ∃ A, A = -3 / 16 * x6 + 45 / 32 * x15 - 123 / 512 * x30 + 10241 / 2048 * x210 -
      3425 / 65536 * x21 := ⟨_, rfl⟩
    obtain ⟨B, hB⟩ : ∃ B, B = 3 / 16 * x6 + 135 / 32 * x15 - 205 / 512 * x30 + 8379 / 2048 * x210 -
      11919 / 65536 * x21 := ⟨_, rfl⟩
    have hA' : 0.57 ≤ A ∧ A ≤ 0.58 := by constructor <;> linarith
    have hB' : 1.33 ≤ B ∧ B ≤ 1.34 := by constructor <;> linarith
  · rw [abs_lt]
    have e : P1 * x6 * (3 / 2) + f1 * A ≤ 0.65 := by
      have h1 := (mul_between (by norm_num) (by norm_num) ⟨a5, a6⟩ b6).2
      have h2 := (mul_between (by norm_num) (by norm_num) ⟨a1, a2⟩ hA').2
      linarith
    have e' : 0 ≤ P1 * x6 * (3 / 2) + f1 * A := by
      have : 0 ≤ P1 := le_trans (by norm_num) a5
      have : 0 ≤ x6 := le_trans (by norm_num) b6.1
      have : 0 ≤ f1 := le_trans (by norm_num) a1
      have : 0 ≤ A := le_trans (by norm_num) hA'.1
      positivity
    exact ⟨lt_of_lt_of_eq (by linarith : -0.7 < -(P1 * x6 * (3 / 2) + f1 * A)) (by rw [hA]; ring),
      lt_of_eq_of_lt (by rw [hA]; ring) (by linarith : -(P1 * x6 * (3 / 2) + f1 * A) < 0.7)⟩
  · rw [abs_lt]
    have h1 := mul_between (a := 0) (b := 0.09) le_rfl (by norm_num)
      (show 0 ≤ 1 - P2 ∧ 1 - P2 ≤ 0.09 by constructor <;> linarith) b6
    have h2 := mul_between (by norm_num) (by norm_num) ⟨a3, a4⟩ hB'
    have e : f2 * B - (1 - P2) * x6 * (3 / 2) < 0.7 := by linarith
    have e' : -0.7 < f2 * B - (1 - P2) * x6 * (3 / 2) := by linarith
    exact ⟨lt_of_lt_of_eq e' (by rw [hB]; ring), lt_of_eq_of_lt (by rw [hB]; ring) e⟩
  · have h1 := mul_between (by norm_num) (by norm_num) ⟨a7, a8⟩ b6
    have h2 := mul_between (by norm_num) (by norm_num) ⟨a3, a4⟩ hB'
    have e : 0.7 ≤ P2 * x6 * (3 / 2) + f2 * B := by linarith
    exact le_of_le_of_eq e (by rw [hB]; ring)

/-- The second statistic is smaller for the sample than for its mirror image. -/
theorem cc2_values : ∃ v w, v < w ∧ cc2 scipyNorm [-1 / 2, -1 / 2, -1 / 2, 3 / 2] = .ok v ∧
    cc2 scipyNorm [1 / 2, 1 / 2, 1 / 2, -3 / 2] = .ok w := by
  obtain ⟨a1, a2, a3, a4, a5, a6, a7, a8⟩ := normal_values
  obtain ⟨b6, b15, b30, b210, b21⟩ := inverse_root_values
  obtain ⟨c1, c2⟩ := normal_values_neg (1 / 2)
  refine ⟨_, _, ?_, cc2_four _ _ _ _ fun v => rfl, cc2_four _ _ _ _ fun v => rfl⟩
  refine lt_of_lt_of_le ?_ (le_max_left _ _)
  refine lt_of_lt_of_le (b := 0.25) (max_lt ?_ ?_) (le_trans ?_ (neg_le_abs _))
  all_goals
    simp only [scipyNorm, he3, he4, he5, he6, he7, he8, show (-1 / 2 : ℝ) = -(1 / 2) by norm_num,
      c1, c2]
    clear c1 c2
    generalize gaussianPDFReal 0 1 (1 / 2) = f1 at *
    generalize gaussianPDFReal 0 1 (3 / 2) = f2 at *
    generalize Phi (1 / 2) = P1 at *
    generalize Phi (3 / 2) = P2 at *
    generalize (√6 : ℝ)⁻¹ = x6 at *
    generalize (√15 : ℝ)⁻¹ = x15 at *
    generalize (√30 : ℝ)⁻¹ = x30 at *
    generalize (√210 : ℝ)⁻¹ = x210 at *
    generalize (√21 : ℝ)⁻¹ = x21 at *
    obtain ⟨A, hA⟩ : ∃ A, A = 225 / 64 * x15 + 41 / 1024 * x30 + 21413 / 4096 * x210 +
      2603 / 65536 * x21 - 3 / 2 * x6 - 3 / 32 * x6 := ⟨_, rfl⟩
    obtain ⟨B, hB⟩ : ∃ B, B = 585 / 64 * x15 - 1107 / 1024 * x30 + 6517 / 4096 * x210 -
      40689 / 65536 * x21 - 3 / 2 * x6 + 9 / 32 * x6 := ⟨_, rfl⟩
    have hA' : 0.63 ≤ A ∧ A ≤ 0.64 := by constructor <;> linarith
    have hB' : 1.63 ≤ B ∧ B ≤ 1.65 := by constructor <;> linarith
  · rw [abs_lt]
    have h1 := mul_between (a := 0.3) (b := 0.32) (by norm_num) (by norm_num)
      (show 0.3 ≤ 1 - P1 ∧ 1 - P1 ≤ 0.32 by constructor <;> linarith) b6
    have h2 := mul_between (by norm_num) (by norm_num) ⟨a1, a2⟩ hA'
    have e : f1 * A - (1 - P1) * x6 * (3 / 16) < 0.25 := by linarith
    have e' : -0.25 < f1 * A - (1 - P1) * x6 * (3 / 16) := by linarith
    exact ⟨lt_of_lt_of_eq e' (by rw [hA]; ring), lt_of_eq_of_lt (by rw [hA]; ring) e⟩
  · rw [abs_lt]
    have h1 := mul_between (by norm_num) (by norm_num) ⟨a7, a8⟩ b6
    have h2 := mul_between (by norm_num) (by norm_num) ⟨a3, a4⟩ hB'
    have e : f2 * B - P2 * x6 * (3 / 16) < 0.25 := by linarith
    have e' : -0.25 < f2 * B - P2 * x6 * (3 / 16) := by linarith
    exact ⟨lt_of_lt_of_eq e' (by rw [hB]; ring), lt_of_eq_of_lt (by rw [hB]; ring) e⟩
  · have h1 := mul_between (by norm_num) (by norm_num) ⟨a5, a6⟩ b6
    have h2 := mul_between (by norm_num) (by norm_num) ⟨a1, a2⟩ hA'
    have e : 0.25 ≤ f1 * A + P1 * x6 * (3 / 16) := by linarith
    exact le_of_le_of_eq e (by rw [hA]; ring)

/-- C115 (refuted for Cabana and Cabana): the first statistic of a sample and of its reflection
differ. -/
theorem C115_refuted_cabana1 : ∃ v w, w < v ∧
    NormStat.cabanaCabana1.value scipyNorm [-1, -1, -1, 3] = .ok (some v) ∧
    NormStat.cabanaCabana1.value scipyNorm ([-1, -1, -1, 3].map (-·)) = .ok (some w) := by
  obtain ⟨v, w, h, e1, e2⟩ := cc1_values
  refine ⟨v, w, h, ?_, ?_⟩
  · simp [NormStat.value, guarded, standardised_sample, e1, Except.map]
  · simp only [one_div] at e2
    simp [NormStat.value, guarded, standardised_mirror, e2, Except.map]

/-- C115 (refuted for Cabana and Cabana): so do the second ones. -/
theorem C115_refuted_cabana2 : ∃ v w, v < w ∧
    NormStat.cabanaCabana2.value scipyNorm [-1, -1, -1, 3] = .ok (some v) ∧
    NormStat.cabanaCabana2.value scipyNorm ([-1, -1, -1, 3].map (-·)) = .ok (some w) := by
  obtain ⟨v, w, h, e1, e2⟩ := cc2_values
  refine ⟨v, w, h, ?_, ?_⟩
  · simp [NormStat.value, guarded, cc2_sample, e1, Except.map]
  · simp only [one_div] at e2
    simp [NormStat.value, guarded, cc2_mirror, e2, Except.map]

end Pysatl.Props
