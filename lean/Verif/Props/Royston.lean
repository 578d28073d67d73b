import Verif.Lemmas.NormalTail
import Verif.Props.ShapiroWilk

/-! # C114: Royston's weights exist for every number of observations -/

namespace Pysatl.Props

open Pysatl.Decision Pysatl.Graph Pysatl.Edf Pysatl.Exponent Pysatl.Spec Pysatl.Normal
open MeasureTheory ProbabilityTheory

/-! ### The corrections -/

/-- The correction of the largest weight. -/
noncomputable def corrLast (u : ℝ) : ℝ :=
  0.221157 * u - 0.147981 * u ^ 2 - 2.071190 * u ^ 3 + 4.434685 * u ^ 4 - 2.706056 * u ^ 5

/-- The correction of the second largest weight. -/
noncomputable def corrSecond (u : ℝ) : ℝ :=
  0.042981 * u - 0.293762 * u ^ 2 - 1.752461 * u ^ 3 + 5.682633 * u ^ 4 - 3.582633 * u ^ 5

theorem corrLast_nonneg {u : ℝ} (h0 : 0 ≤ u) (h1 : u ≤ 1 / 2) : 0 ≤ corrLast u := by
  have hb : 0 ≤ 1 / 2 - u := by linarith
  have key : 0 ≤ 0.221157 - 0.147981 * u - 2.071190 * u ^ 2 + 4.434685 * u ^ 3 - 2.706056 * u ^ 4 := by
    linarith [pow_nonneg hb 4, mul_nonneg h0 (pow_nonneg hb 3), mul_nonneg (pow_nonneg h0 2) (pow_nonneg hb 2),
      mul_nonneg (pow_nonneg h0 3) hb, pow_nonneg h0 4]
  have : corrLast u = u * (0.221157 - 0.147981 * u - 2.071190 * u ^ 2 + 4.434685 * u ^ 3 - 2.706056 * u ^ 4) := by
    rw [corrLast]; ring
  rw [this]
  exact mul_nonneg h0 key

theorem bernstein_pos {u b : ℝ} (h0 : 0 ≤ u) (hb : 0 ≤ b - u) (i j : ℕ) : 0 ≤ u ^ i * (b - u) ^ j :=
  mul_nonneg (pow_nonneg h0 i) (pow_nonneg hb j)

theorem corrLast_le {u : ℝ} (h0 : 0 ≤ u) (h1 : u ≤ 0.3163) : corrLast u ≤ 0.0295 := by
  have hb : 0 ≤ 0.3163 - u := by linarith
  have B := bernstein_pos h0 hb
  rw [corrLast]
  linarith [B 0 11, B 1 10, B 2 9, B 3 8, B 4 7, B 5 6, B 6 5, B 7 4, B 8 3, B 9 2, B 10 1, B 11 0]

theorem corrSecond_le {u : ℝ} (h0 : 0 ≤ u) (h1 : u ≤ 0.3163) : corrSecond u ≤ 0.002 := by
  have hb : 0 ≤ 0.3163 - u := by linarith
  have B := bernstein_pos h0 hb
  rw [corrSecond]
  linarith [B 0 11, B 1 10, B 2 9, B 3 8, B 4 7, B 5 6, B 6 5, B 7 4, B 8 3, B 9 2, B 10 1, B 11 0]

theorem le_corrSecond {u : ℝ} (h0 : 0 ≤ u) (h1 : u ≤ 0.3163) : -0.026 ≤ corrSecond u := by
  have hb : 0 ≤ 0.3163 - u := by linarith
  have B := bernstein_pos h0 hb
  rw [corrSecond]
  linarith [B 0 5, B 1 4, B 2 3, B 3 2, B 4 1, B 5 0]

/-! ### Room for the other weights -/

/-- Room for the other weights when the corrections are small compared with the other scores. -/
theorem royston_room {x y R S p q c s E : ℝ} (hS : 0 < S) (hS2 : S ^ 2 = 2 * (x ^ 2 + y ^ 2) + R)
    (hc0 : 0 ≤ c) (hs : 0 < s) (hc : p * x + q * y ≤ c) (hE : p ^ 2 + q ^ 2 ≤ E)
    (h : (2 * (x ^ 2 + y ^ 2) + R) * (c / s + E) + c * s < R / 2) :
    2 * (x / S + p) ^ 2 + 2 * (y / S + q) ^ 2 < 1 := by
  have h1 : 2 * S ≤ S ^ 2 / s + s := by
    have : S ^ 2 / s + s - 2 * S = (S - s) ^ 2 / s := by field_simp; ring
    have := div_nonneg (sq_nonneg (S - s)) hs.le
    linarith
  have h2 : 2 * S * (p * x + q * y) + S ^ 2 * (p ^ 2 + q ^ 2) < R / 2 := by
    have e1 : 2 * S * (p * x + q * y) ≤ 2 * S * c := mul_le_mul_of_nonneg_left hc (by linarith)
    have e2 : 2 * S * c ≤ (S ^ 2 / s + s) * c := mul_le_mul_of_nonneg_right h1 hc0
    have e3 : S ^ 2 * (p ^ 2 + q ^ 2) ≤ S ^ 2 * E := mul_le_mul_of_nonneg_left hE (sq_nonneg S)
    have e4 : (S ^ 2 / s + s) * c + S ^ 2 * E = (2 * (x ^ 2 + y ^ 2) + R) * (c / s + E) + c * s := by
      rw [← hS2]; field_simp; ring
    linarith
  have h3 : 2 * (x / S + p) ^ 2 + 2 * (y / S + q) ^ 2 =
      (2 * (x ^ 2 + y ^ 2) + 2 * (2 * S * (p * x + q * y) + S ^ 2 * (p ^ 2 + q ^ 2))) / S ^ 2 := by
    field_simp; ring
  rw [h3, div_lt_one (by positivity)]
  linarith

/-! ### Bounds of the scores -/

theorem sum_sq_centred (n : ℕ) : ∑ i ∈ Finset.Icc 1 n, ((i : ℝ) - (n + 1) / 2) ^ 2 = (n : ℝ) * (n ^ 2 - 1) / 12 := by
  have h1 : ∀ k : ℕ, ∀ c : ℝ, ∑ i ∈ Finset.Icc 1 k, ((i : ℝ) - c) ^ 2 =
      k * (k + 1) * (2 * k + 1) / 6 - c * (k * (k + 1)) + k * c ^ 2 := by
    intro k c
    induction k with
    | zero => simp
    | succ k ih =>
      rw [Finset.sum_Icc_succ_top (by omega), ih]
      push_cast
      ring
  rw [h1]
  ring

theorem sum_inner {n : ℕ} (hn : 5 < n) (f : ℕ → ℝ) : ∑ i ∈ Finset.Icc 1 n, f i =
    f 1 + f n + (f 2 + f (n - 1)) + ∑ i ∈ Finset.Icc 3 (n - 2), f i := by
  rw [sum_ends (by omega)]
  obtain ⟨k, rfl⟩ : ∃ k, n = k + 3 := ⟨n - 3, by omega⟩
  rw [show k + 3 - 1 = k + 1 + 1 by omega, Finset.sum_Icc_succ_top (by omega),
    ← Finset.add_sum_Ioc_eq_sum_Icc (by omega)]
  have : Finset.Ioc 2 (k + 1) = Finset.Icc 3 (k + 3 - 2) := by ext; simp; omega
  rw [this]
  ring

section
variable {n : ℕ} {m : ℕ → ℝ} (hm : NormalScores n (position (3 / 8) n) m)
include hm

theorem score_ge {i : ℕ} (h1 : 1 ≤ i) (h2 : i ≤ n) :
    6.28 * (((i : ℝ) - (n + 1) / 2) / (n + 1 / 4)) ^ 2 ≤ m i ^ 2 := by
  have h := le_sq_score (show Phi (m i) = _ from hm i h1 h2)
  have e : position (3 / 8) n i - 1 / 2 = ((i : ℝ) - (n + 1) / 2) / (n + 1 / 4) := by
    have : (0 : ℝ) ≤ n := Nat.cast_nonneg n
    have h4 : (n : ℝ) + 1 / 4 ≠ 0 := by linarith
    rw [position, show (n : ℝ) + 1 - 2 * (3 / 8) = n + 1 / 4 by ring, eq_div_iff h4, sub_mul, div_mul_cancel₀ _ h4]
    ring
  rwa [e] at h

theorem inner_ge (hn : 5 < n) :
    6.28 * ((n : ℝ) * (n ^ 2 - 1) / 12 - (n - 1) ^ 2 / 2 - (n - 3) ^ 2 / 2) / (n + 1 / 4) ^ 2 ≤
      ∑ i ∈ Finset.Icc 3 (n - 2), m i ^ 2 := by
  have h1 := sum_inner hn fun i => ((i : ℝ) - (n + 1) / 2) ^ 2
  rw [sum_sq_centred, Nat.cast_sub (by omega)] at h1
  push_cast at h1
  have h2 : ∑ i ∈ Finset.Icc 3 (n - 2), ((i : ℝ) - (n + 1) / 2) ^ 2 =
      (n : ℝ) * (n ^ 2 - 1) / 12 - (n - 1) ^ 2 / 2 - (n - 3) ^ 2 / 2 := by linarith
  rw [← h2, Finset.mul_sum, Finset.sum_div]
  refine Finset.sum_le_sum fun i hi => ?_
  obtain ⟨a, b⟩ := Finset.mem_Icc.1 hi
  have := score_ge hm (by omega : 1 ≤ i) (by omega : i ≤ n)
  rwa [div_pow, ← mul_div_assoc] at this

theorem score_pos {i : ℕ} (h1 : n + 1 < 2 * i) (h2 : i ≤ n) : 0 < m i := by
  have h := scores_lt hm (by omega : 1 ≤ n + 1 - i) (by omega) (by omega) h2
    (position_lt (by norm_num) (by omega) (by omega))
  rw [scores_symm hm i (by omega) h2] at h
  linarith

theorem score_le_log {i : ℕ} (h1 : n + 1 < 2 * i) (h2 : i ≤ n) :
    m i ^ 2 ≤ 2 * Real.log ((n + 1 / 4) / (2 * (n - i + 5 / 8))) := by
  have hp : position (3 / 8) n i < 1 := (position_mem (by norm_num) (by omega) h2).2
  have h := sq_le_log (score_pos hm h1 h2).le (hm i (by omega) h2) hp
  have e : 1 / (2 * (1 - position (3 / 8) n i)) = (n + 1 / 4) / (2 * (n - i + 5 / 8)) := by
    have h4 : (n : ℝ) + 1 / 4 ≠ 0 := by positivity
    have h5 : (n : ℝ) - i + 5 / 8 ≠ 0 := by
      have : (i : ℝ) ≤ n := by exact_mod_cast h2
      linarith
    have : 1 - position (3 / 8) n i = ((n : ℝ) - i + 5 / 8) / (n + 1 / 4) := by
      rw [position, show (n : ℝ) + 1 - 2 * (3 / 8) = n + 1 / 4 by ring, eq_div_iff h4, sub_mul, div_mul_cancel₀ _ h4]
      ring
    rw [this]
    field_simp
  rwa [e] at h

theorem sum_scores (hn : 5 < n) : ∑ i ∈ Finset.Icc 1 n, m i ^ 2 =
    2 * (m n ^ 2 + m (n - 1) ^ 2) + ∑ i ∈ Finset.Icc 3 (n - 2), m i ^ 2 := by
  have a := scores_symm hm n (by omega) le_rfl
  have b := scores_symm hm (n - 1) (by omega) (by omega)
  rw [Nat.add_sub_cancel_left] at a
  rw [show n + 1 - (n - 1) = 2 by omega] at b
  rw [sum_inner hn, a, b]
  ring

end

/-- Weights with two corrections exist when there is room for the others. -/
theorem royston_of_room {n : ℕ} (hn : 5 < n) {m : ℕ → ℝ} (hm : NormalScores n (position (3 / 8) n) m)
    {v w : ℝ} (hv : v = m n / √(∑ i ∈ Finset.Icc 1 n, m i ^ 2) + corrLast (1 / √n))
    (hw : w = m (n - 1) / √(∑ i ∈ Finset.Icc 1 n, m i ^ 2) + corrSecond (1 / √n))
    (h : 2 * v ^ 2 + 2 * w ^ 2 < 1) : ∃ a, RoystonWeights n m a ∧ a n = v := by
  set I := ∑ i ∈ Finset.Icc 3 (n - 2), m i ^ 2 with hI
  have hneg := scores_ne_zero (by omega : 3 < n) hm
  rw [if_neg (by omega)] at hneg
  have hIpos : 0 < I := lt_of_lt_of_le (pow_pos (neg_pos.2 hneg) 2 |>.trans_eq (neg_sq _))
    (Finset.single_le_sum (f := fun i => m i ^ 2) (fun i _ => sq_nonneg _) (by simp; omega))
  have hd : 0 < 1 - 2 * v ^ 2 - 2 * w ^ 2 := by linarith
  set s := √(I / (1 - 2 * v ^ 2 - 2 * w ^ 2)) with hs
  have hs0 : 0 < s := Real.sqrt_pos.2 (div_pos hIpos hd)
  have hs2 : s ^ 2 = I / (1 - 2 * v ^ 2 - 2 * w ^ 2) := Real.sq_sqrt (div_pos hIpos hd).le
  set a : ℕ → ℝ := fun i => if i = 1 then -v else if i = 2 then -w else if i = n - 1 then w else
    if i = n then v else m i / s with ha
  have a1 : a 1 = -v := by simp [ha]
  have a2 : a 2 = -w := by simp [ha]
  have an1 : a (n - 1) = w := by
    simp only [ha]
    rw [if_neg (by omega), if_neg (by omega), if_pos trivial]
  have an : a n = v := by
    simp only [ha]
    rw [if_neg (by omega), if_neg (by omega), if_neg (by omega), if_pos trivial]
  have ai : ∀ i, 2 < i → i < n - 1 → a i = m i / s := by
    intro i h1 h2
    simp only [ha]
    rw [if_neg (by omega), if_neg (by omega), if_neg (by omega), if_neg (by omega)]
  refine ⟨a, ⟨?_, ?_, ?_, ?_, ?_⟩, an⟩
  · intro i h1 h2
    rcases (by omega : i = 1 ∨ i = 2 ∨ i = n - 1 ∨ i = n ∨ (2 < i ∧ i < n - 1)) with rfl | rfl | rfl | rfl | h3
    · rw [Nat.add_sub_cancel, an, a1, neg_neg]
    · rw [show n + 1 - 2 = n - 1 by omega, an1, a2, neg_neg]
    · rw [show n + 1 - (n - 1) = 2 by omega, an1, a2]
    · rw [Nat.add_sub_cancel_left, an, a1]
    · rw [ai i h3.1 h3.2, ai _ (by omega) (by omega), scores_symm hm i h1 h2, neg_div]
  · rw [sum_inner hn, a1, a2, an, an1, royston_inner hs0 _ fun i hi => ai i (by simp at hi; omega) (by simp at hi; omega),
      ← hI, hs2]
    field_simp
    ring
  · rintro u rfl
    rw [an, hv, corrLast]
    ring
  · rintro - u rfl
    rw [an1, hw, corrSecond]
    ring
  · refine ⟨s, hs0, fun i hi => ?_⟩
    rw [if_neg (by omega)] at hi
    exact ai i hi.1 hi.2

/-! ### The corrections leave room -/

theorem one_div_sqrt_sq {n : ℕ} (hn : 0 < n) : (1 / √(n : ℝ)) ^ 2 = 1 / n := by
  rw [div_pow, one_pow, Real.sq_sqrt (Nat.cast_nonneg n)]

/-- The corrections are linear in `1 / √n` for a given `n`. -/
theorem corr_linear {u r : ℝ} (h : u ^ 2 = r) :
    corrLast u = (0.221157 - 2.071190 * r - 2.706056 * r ^ 2) * u + (4.434685 * r ^ 2 - 0.147981 * r) ∧
    corrSecond u = (0.042981 - 1.752461 * r - 3.582633 * r ^ 2) * u + (5.682633 * r ^ 2 - 0.293762 * r) := by
  subst h
  constructor
  · rw [corrLast]; ring
  · rw [corrSecond]; ring

theorem sqrt_between {n : ℕ} (hn : 0 < n) {a b : ℝ} (ha : 0 ≤ a) (hb : 0 ≤ b) (h1 : a ^ 2 ≤ 1 / n) (h2 : 1 / n ≤ b ^ 2) :
    a ≤ 1 / √(n : ℝ) ∧ 1 / √(n : ℝ) ≤ b := by
  rw [← one_div_sqrt_sq hn] at h1 h2
  have : 0 ≤ 1 / √(n : ℝ) := by positivity
  exact ⟨pow_le_pow_iff_left₀ ha this two_ne_zero |>.1 h1, pow_le_pow_iff_left₀ this hb two_ne_zero |>.1 h2⟩

/-- The weights of the code for the largest and the second largest observation. -/
def HasRoom (n : ℕ) (m : ℕ → ℝ) : Prop :=
  2 * (m n / √(∑ i ∈ Finset.Icc 1 n, m i ^ 2) + corrLast (1 / √n)) ^ 2 +
    2 * (m (n - 1) / √(∑ i ∈ Finset.Icc 1 n, m i ^ 2) + corrSecond (1 / √n)) ^ 2 < 1

theorem norm_pos {n : ℕ} (hn : 5 < n) {m : ℕ → ℝ} (hm : NormalScores n (position (3 / 8) n) m) :
    0 < √(∑ i ∈ Finset.Icc 1 n, m i ^ 2) := by
  refine Real.sqrt_pos.2 ?_
  have h := score_pos hm (by omega : n + 1 < 2 * n) le_rfl
  exact lt_of_lt_of_le (pow_pos h 2)
    (Finset.single_le_sum (f := fun i => m i ^ 2) (fun i _ => sq_nonneg _) (by simp; omega))

theorem small_case {n : ℕ} (hn : 5 < n) {m : ℕ → ℝ} (hm : NormalScores n (position (3 / 8) n) m)
    {P Q Q' X Y X2 Y2 R0 c s E : ℝ} (hP0 : 0 ≤ corrLast (1 / √n)) (hP : corrLast (1 / √n) ≤ P)
    (hQ' : Q' ≤ corrSecond (1 / √n)) (hQ : corrSecond (1 / √n) ≤ Q) (hQ0 : Q ≤ 0)
    (hX : m n ≤ X) (hY : Y ≤ m (n - 1)) (hX2 : m n ^ 2 ≤ X2) (hY2 : m (n - 1) ^ 2 ≤ Y2)
    (hR : R0 ≤ ∑ i ∈ Finset.Icc 3 (n - 2), m i ^ 2) (hc0 : 0 ≤ c) (hc : P * X + Q * Y ≤ c)
    (hE : P ^ 2 + Q' ^ 2 ≤ E) (hs : 0 < s) (hκ : c / s + E ≤ 1 / 2)
    (h : 2 * (X2 + Y2) * (c / s + E) + c * s < R0 * (1 / 2 - (c / s + E))) : HasRoom n m := by
  have hpos := norm_pos hn hm
  have hx := score_pos hm (by omega : n + 1 < 2 * n) le_rfl
  have hS2 : √(∑ i ∈ Finset.Icc 1 n, m i ^ 2) ^ 2 = 2 * (m n ^ 2 + m (n - 1) ^ 2) +
      ∑ i ∈ Finset.Icc 3 (n - 2), m i ^ 2 := by
    rw [Real.sq_sqrt (Finset.sum_nonneg fun i _ => sq_nonneg _), sum_scores hm hn]
  refine royston_room hpos hS2 hc0 hs ?_ (E := E) ?_ ?_
  · have h1 : corrLast (1 / √n) * m n ≤ P * X := mul_le_mul hP hX hx.le (hP0.trans hP)
    have hy := score_pos hm (by omega : n + 1 < 2 * (n - 1)) (by omega)
    have h2 : corrSecond (1 / √n) * m (n - 1) ≤ Q * m (n - 1) := mul_le_mul_of_nonneg_right hQ hy.le
    have h3 : Q * m (n - 1) ≤ Q * Y := mul_le_mul_of_nonpos_left hY hQ0
    linarith
  · have h1 : corrLast (1 / √n) ^ 2 ≤ P ^ 2 := pow_le_pow_left₀ hP0 hP 2
    have h2 : corrSecond (1 / √n) ^ 2 ≤ Q' ^ 2 := by
      have := pow_le_pow_left₀ (a := -corrSecond (1 / √n)) (by linarith) (neg_le_neg hQ') 2
      rwa [neg_sq, neg_sq] at this
    linarith
  · have hE0 : 0 ≤ c / s + E := by
      have := sq_nonneg P
      have := sq_nonneg Q'
      have := div_nonneg hc0 hs.le
      linarith
    generalize c / s + E = κ at *
    nlinarith

/-- A bound of the logarithm by its tangent. -/
theorem log_le_tangent {x a c : ℝ} (hx : 0 < x) (ha : 0 < a) (hc : Real.log a ≤ c) :
    Real.log x ≤ c + x / a - 1 := by
  have h1 := Real.log_le_sub_one_of_pos (div_pos hx ha)
  rw [Real.log_div hx.ne' ha.ne'] at h1
  linarith

theorem log_eight : Real.log 8 ≤ 2.07945 := by
  have := Real.log_two_lt_d9
  rw [show (8 : ℝ) = 2 ^ 3 by norm_num, Real.log_pow]
  push_cast
  linarith

theorem log_four : Real.log 4 ≤ 1.3863 := by
  have := Real.log_two_lt_d9
  rw [show (4 : ℝ) = 2 ^ 2 by norm_num, Real.log_pow]
  push_cast
  linarith

theorem mills_bound {c r : ℝ} (hc : 0 < c) (hr : 0 < r)
    (h : 0.4 ≤ r * c * (1 + c ^ 2 / 2 + (c ^ 2 / 2) ^ 2 / 2 + (c ^ 2 / 2) ^ 3 / 6 + (c ^ 2 / 2) ^ 4 / 24)) :
    gaussianPDFReal 0 1 c / c ≤ r := by
  have h1 : (√(2 * Real.pi))⁻¹ ≤ 0.4 := by
    rw [inv_le_comm₀ (by positivity) (by norm_num)]
    apply Real.le_sqrt_of_sq_le
    have := Real.pi_gt_d2
    norm_num
    linarith
  have h2 := Real.sum_le_exp_of_nonneg (x := c ^ 2 / 2) (by positivity) 5
  simp only [Finset.sum_range_succ, Finset.range_zero, Finset.sum_empty, Nat.factorial] at h2
  norm_num at h2
  rw [div_le_iff₀ hc, pdf_eq, Real.exp_neg, ← div_eq_mul_inv, div_le_iff₀ (Real.exp_pos _)]
  refine h1.trans (h.trans ?_)
  exact mul_le_mul_of_nonneg_left (by linarith) (by positivity)

theorem room_six {m : ℕ → ℝ} (hm : NormalScores 6 (position (3 / 8) 6) m) : HasRoom 6 m := by
  obtain ⟨u1, u2⟩ := sqrt_between (n := 6) (by norm_num) (a := 0.40824) (b := 0.40825) (by norm_num) (by norm_num)
    (by norm_num) (by norm_num)
  obtain ⟨e1, e2⟩ := corr_linear (one_div_sqrt_sq (n := 6) (by norm_num))
  have hX : m 6 < 1.45 := score_lt_of_mills (by norm_num) (hm 6 (by norm_num) le_rfl)
    (mills_bound (by norm_num) (by norm_num [position]) (by norm_num [position]))
  have hx := score_pos hm (i := 6) (by norm_num) le_rfl
  have hy := score_pos hm (i := 5) (by norm_num) (by norm_num)
  have hY := score_ge hm (i := 5) (by norm_num) (by norm_num)
  have hY2 := score_le_log hm (i := 5) (by norm_num) (by norm_num)
  have hR := inner_ge hm (by norm_num)
  have hl := log_le_tangent (x := 6.25 / 3.25) (a := 2) (by norm_num) (by norm_num) Real.log_two_lt_d9.le
  norm_num at e1 e2 hY hY2 hR hl u1 u2
  refine small_case (by norm_num) hm (P := 0.0173) (Q := -0.0334) (Q' := -0.0335) (X := 1.45) (Y := 0.6)
    (X2 := 2.1025) (Y2 := 1.31) (R0 := 0.08) (c := 0.00505) (s := 2.6) (E := 0.001422)
    ?_ ?_ ?_ ?_ (by norm_num) hX.le ?_ ?_ ?_ ?_ (by norm_num) (by norm_num) (by norm_num) (by norm_num)
    (by norm_num) (by norm_num)
  all_goals norm_num
  all_goals first | linarith | nlinarith

theorem room_seven {m : ℕ → ℝ} (hm : NormalScores 7 (position (3 / 8) 7) m) : HasRoom 7 m := by
  obtain ⟨u1, u2⟩ := sqrt_between (n := 7) (by norm_num) (a := 0.37796) (b := 0.37797) (by norm_num) (by norm_num)
    (by norm_num) (by norm_num)
  obtain ⟨e1, e2⟩ := corr_linear (one_div_sqrt_sq (n := 7) (by norm_num))
  have hX : m 7 < 1.51 := score_lt_of_mills (by norm_num) (hm 7 (by norm_num) le_rfl)
    (mills_bound (by norm_num) (by norm_num [position]) (by norm_num [position]))
  have hx := score_pos hm (i := 7) (by norm_num) le_rfl
  have hy := score_pos hm (i := 6) (by norm_num) (by norm_num)
  have hY := score_ge hm (i := 6) (by norm_num) (by norm_num)
  have hY2 := score_le_log hm (i := 6) (by norm_num) (by norm_num)
  have hR := inner_ge hm (by norm_num)
  have hl := log_le_tangent (x := 7.25 / 3.25) (a := 2) (by norm_num) (by norm_num) Real.log_two_lt_d9.le
  norm_num at e1 e2 hY hY2 hR hl u1 u2
  refine small_case (by norm_num) hm (P := 0.0204) (Q := -0.0319) (Q' := -0.0321) (X := 1.51) (Y := 0.68)
    (X2 := 2.2801) (Y2 := 1.63) (R0 := 0.23) (c := 0.01) (s := 2.8) (E := 0.00145)
    ?_ ?_ ?_ ?_ (by norm_num) hX.le ?_ ?_ ?_ ?_ (by norm_num) (by norm_num) (by norm_num) (by norm_num)
    (by norm_num) (by norm_num)
  all_goals norm_num
  all_goals first | linarith | nlinarith

theorem room_eight {m : ℕ → ℝ} (hm : NormalScores 8 (position (3 / 8) 8) m) : HasRoom 8 m := by
  obtain ⟨u1, u2⟩ := sqrt_between (n := 8) (by norm_num) (a := 0.35355) (b := 0.35356) (by norm_num) (by norm_num)
    (by norm_num) (by norm_num)
  obtain ⟨e1, e2⟩ := corr_linear (one_div_sqrt_sq (n := 8) (by norm_num))
  have hx := score_pos hm (i := 8) (by norm_num) le_rfl
  have hy := score_pos hm (i := 7) (by norm_num) (by norm_num)
  have hY := score_ge hm (i := 7) (by norm_num) (by norm_num)
  have hX2 := score_le_log hm (i := 8) (by norm_num) (by norm_num)
  have hY2 := score_le_log hm (i := 7) (by norm_num) (by norm_num)
  have hR := inner_ge hm (by norm_num)
  have hl := log_le_tangent (x := 8.25 / 3.25) (a := 2) (by norm_num) (by norm_num) Real.log_two_lt_d9.le
  have hl' := log_le_tangent (x := 8.25 / 1.25) (a := 8) (by norm_num) (by norm_num) log_eight
  norm_num at e1 e2 hY hX2 hY2 hR hl hl' u1 u2
  refine small_case (by norm_num) hm (P := 0.0226) (Q := -0.0299) (Q' := -0.0301) (X := 1.96) (Y := 0.75)
    (X2 := 3.82) (Y2 := 1.93) (R0 := 0.46) (c := 0.023) (s := 3.4) (E := 0.00145)
    ?_ ?_ ?_ ?_ (by norm_num) ?_ ?_ ?_ ?_ ?_ (by norm_num) (by norm_num) (by norm_num) (by norm_num)
    (by norm_num) (by norm_num)
  all_goals norm_num
  all_goals first | linarith | nlinarith

theorem room_nine {m : ℕ → ℝ} (hm : NormalScores 9 (position (3 / 8) 9) m) : HasRoom 9 m := by
  obtain ⟨u1, u2⟩ := sqrt_between (n := 9) (by norm_num) (a := 0.33333) (b := 0.33334) (by norm_num) (by norm_num)
    (by norm_num) (by norm_num)
  obtain ⟨e1, e2⟩ := corr_linear (one_div_sqrt_sq (n := 9) (by norm_num))
  have hx := score_pos hm (i := 9) (by norm_num) le_rfl
  have hy := score_pos hm (i := 8) (by norm_num) (by norm_num)
  have hY := score_ge hm (i := 8) (by norm_num) (by norm_num)
  have hX2 := score_le_log hm (i := 9) (by norm_num) (by norm_num)
  have hY2 := score_le_log hm (i := 8) (by norm_num) (by norm_num)
  have hR := inner_ge hm (by norm_num)
  have hl := log_le_tangent (x := 9.25 / 3.25) (a := 4) (by norm_num) (by norm_num) log_four
  have hl' := log_le_tangent (x := 9.25 / 1.25) (a := 8) (by norm_num) (by norm_num) log_eight
  norm_num at e1 e2 hY hX2 hY2 hR hl hl' u1 u2
  refine small_case (by norm_num) hm (P := 0.0243) (Q := -0.0277) (Q' := -0.0279) (X := 2.01) (Y := 0.8)
    (X2 := 4.02) (Y2 := 2.2) (R0 := 0.73) (c := 0.028) (s := 3.6) (E := 0.0014)
    ?_ ?_ ?_ ?_ (by norm_num) ?_ ?_ ?_ ?_ ?_ (by norm_num) (by norm_num) (by norm_num) (by norm_num)
    (by norm_num) (by norm_num)
  all_goals norm_num
  all_goals first | linarith | nlinarith

theorem large_arith {k x2 y2 R : ℝ} (hk : 0 ≤ k)
    (hx : x2 ≤ 2 * (2.07945 + (k + 10.25) / 1.25 / 8 - 1)) (hy : y2 ≤ 2 * (1.3863 + (k + 10.25) / 3.25 / 4 - 1))
    (hR : 6.28 * ((k + 10) * ((k + 10) ^ 2 - 1) / 12 - (k + 9) ^ 2 / 2 - (k + 7) ^ 2 / 2) / (k + 10.25) ^ 2 ≤ R) :
    0.0976 * x2 + 0.0346 * y2 < 0.4827 * R := by
  rw [div_le_iff₀ (by positivity)] at hR
  have h2 : 0 < (k + 10.25) ^ 2 := by positivity
  have key : (0.0976 * (2 * (2.07945 + (k + 10.25) / 1.25 / 8 - 1)) +
      0.0346 * (2 * (1.3863 + (k + 10.25) / 3.25 / 4 - 1))) * (k + 10.25) ^ 2 <
      0.4827 * (6.28 * ((k + 10) * ((k + 10) ^ 2 - 1) / 12 - (k + 9) ^ 2 / 2 - (k + 7) ^ 2 / 2)) := by
    have e3 := pow_nonneg hk 3
    have e2 := pow_nonneg hk 2
    ring_nf
    nlinarith
  have h3 : (0.0976 * x2 + 0.0346 * y2) * (k + 10.25) ^ 2 < 0.4827 * R * (k + 10.25) ^ 2 := by
    have := mul_le_mul_of_nonneg_right (show 0.0976 * x2 + 0.0346 * y2 ≤
      0.0976 * (2 * (2.07945 + (k + 10.25) / 1.25 / 8 - 1)) +
      0.0346 * (2 * (1.3863 + (k + 10.25) / 3.25 / 4 - 1)) by linarith) h2.le
    linarith
  exact lt_of_mul_lt_mul_right h3 h2.le

theorem room_large {n : ℕ} (hn : 10 ≤ n) {m : ℕ → ℝ} (hm : NormalScores n (position (3 / 8) n) m) : HasRoom n m := by
  have hn' : (10 : ℝ) ≤ n := by exact_mod_cast hn
  have hu0 : 0 ≤ 1 / √(n : ℝ) := by positivity
  have hu1 : 1 / √(n : ℝ) ≤ 0.3163 := by
    refine (sqrt_between (by omega) (a := 0) le_rfl (by norm_num) ?_ ?_).2
    · rw [zero_pow two_ne_zero]; positivity
    · rw [div_le_iff₀ (by linarith)]
      nlinarith
  have p0 := corrLast_nonneg hu0 (by linarith)
  have p1 := corrLast_le hu0 hu1
  have q0 := le_corrSecond hu0 hu1
  have q1 := corrSecond_le hu0 hu1
  have hpos := norm_pos (by omega) hm
  have hx := score_pos hm (by omega : n + 1 < 2 * n) le_rfl
  have hy := score_pos hm (by omega : n + 1 < 2 * (n - 1)) (by omega)
  have hyx : m (n - 1) ≤ m n := (scores_lt hm (by omega) (by omega) (by omega) le_rfl
    (position_lt (by norm_num) (by omega) (by omega))).le
  have hX2 := score_le_log hm (by omega : n + 1 < 2 * n) le_rfl
  have hY2 := score_le_log hm (by omega : n + 1 < 2 * (n - 1)) (by omega)
  rw [Nat.cast_sub (by omega)] at hY2
  have hR := inner_ge hm (by omega)
  have hS2 : √(∑ i ∈ Finset.Icc 1 n, m i ^ 2) ^ 2 = 2 * (m n ^ 2 + m (n - 1) ^ 2) +
      ∑ i ∈ Finset.Icc 3 (n - 2), m i ^ 2 := by
    rw [Real.sq_sqrt (Finset.sum_nonneg fun i _ => sq_nonneg _), sum_scores hm (by omega)]
  have hl := log_le_tangent (x := (n + 1 / 4) / (2 * (n - n + 5 / 8))) (a := 8)
    (by rw [sub_self]; positivity) (by norm_num) log_eight
  have hl' := log_le_tangent (x := (n + 1 / 4) / (2 * (n - (n - (1 : ℕ)) + 5 / 8))) (a := 4)
    (by rw [sub_sub_cancel]; positivity) (by norm_num) log_four
  have key := large_arith (k := n - 10) (x2 := m n ^ 2) (y2 := m (n - 1) ^ 2)
    (R := ∑ i ∈ Finset.Icc 3 (n - 2), m i ^ 2) (by linarith) ?_ ?_ ?_
  · refine royston_room hpos hS2 (c := 0.0315 * m n) (s := 2 * m n) (E := 0.00155) (by positivity) (by positivity)
      ?_ ?_ ?_
    · have h1 : corrLast (1 / √n) * m n ≤ 0.0295 * m n := mul_le_mul_of_nonneg_right p1 hx.le
      have h2 : corrSecond (1 / √n) * m (n - 1) ≤ 0.002 * m (n - 1) := mul_le_mul_of_nonneg_right q1 hy.le
      linarith
    · nlinarith
    · have : 0.0315 * m n / (2 * m n) = 0.01575 := by field_simp; norm_num
      rw [this]
      nlinarith
  · refine hX2.trans ?_
    have : ((n : ℝ) + 1 / 4) / (2 * (n - n + 5 / 8)) / 8 = ((n : ℝ) - 10 + 10.25) / 1.25 / 8 := by
      rw [sub_self]; norm_num; ring
    linarith
  · refine hY2.trans ?_
    have : ((n : ℝ) + 1 / 4) / (2 * (n - (n - (1 : ℕ)) + 5 / 8)) / 4 = ((n : ℝ) - 10 + 10.25) / 3.25 / 4 := by
      rw [sub_sub_cancel]; norm_num; ring
    linarith
  · refine le_trans (le_of_eq ?_) hR
    norm_num
    ring_nf

theorem has_room {n : ℕ} (hn : 5 < n) {m : ℕ → ℝ} (hm : NormalScores n (position (3 / 8) n) m) : HasRoom n m := by
  rcases (by omega : n = 6 ∨ n = 7 ∨ n = 8 ∨ n = 9 ∨ 10 ≤ n) with rfl | rfl | rfl | rfl | h
  · exact room_six hm
  · exact room_seven hm
  · exact room_eight hm
  · exact room_nine hm
  · exact room_large h hm

/-- Royston's weights exist for five observations. -/
theorem exists_royston_five {m : ℕ → ℝ} (hm : NormalScores 5 (position (3 / 8) 5) m) :
    ∃ a, RoystonWeights 5 m a ∧ 0 < a 5 := by
  obtain ⟨u1, u2⟩ := sqrt_between (n := 5) (by norm_num) (a := 0.44721) (b := 0.44722) (by norm_num) (by norm_num)
    (by norm_num) (by norm_num)
  obtain ⟨e1, -⟩ := corr_linear (one_div_sqrt_sq (n := 5) (by norm_num))
  have hx := score_pos hm (i := 5) (by norm_num) le_rfl
  have hy := score_pos hm (i := 4) (by norm_num) (by norm_num)
  have hY := score_ge hm (i := 4) (by norm_num) (by norm_num)
  have hX2 := score_le_log hm (i := 5) (by norm_num) (by norm_num)
  have hl := log_le_tangent (x := 5.25 / 1.25) (a := 4) (by norm_num) (by norm_num) log_four
  norm_num at e1 hY hX2 hl u1 u2
  have s3 := scores_symm hm 3 (by norm_num) (by norm_num)
  have s4 := scores_symm hm 4 (by norm_num) (by norm_num)
  have s5 := scores_symm hm 5 (by norm_num) (by norm_num)
  norm_num at s3 s4 s5
  have s3 : m 3 = 0 := by linarith
  set M := ∑ i ∈ Finset.Icc 1 5, m i ^ 2 with hM
  have hsum : ∀ f : ℕ → ℝ, ∑ i ∈ Finset.Icc 1 5, f i = f 1 + f 2 + f 3 + f 4 + f 5 := by
    intro f
    simp only [Finset.sum_Icc_succ_top (show 1 ≤ 4 + 1 by omega), Finset.sum_Icc_succ_top (show 1 ≤ 3 + 1 by omega),
      Finset.sum_Icc_succ_top (show 1 ≤ 2 + 1 by omega), Finset.sum_Icc_succ_top (show 1 ≤ 1 + 1 by omega),
      Finset.Icc_self, Finset.sum_singleton]
  have hMv : M = 2 * (m 5 ^ 2 + 0 ^ 2) + 2 * m 4 ^ 2 := by
    rw [hM, hsum, s3, s4, s5]
    ring
  have hMp : 0 < M := by rw [hMv]; positivity
  set w := m 5 / √M + corrLast (√5)⁻¹ with hw
  have hw0 : 0 < w := by
    have := div_pos hx (Real.sqrt_pos.2 hMp)
    rw [hw, e1]
    linarith
  have hroom := royston_room (x := m 5) (y := 0) (R := 2 * m 4 ^ 2) (p := corrLast (√5)⁻¹) (q := 0) (c := 0.0225)
    (s := 2.6) (E := 0.00018) (Real.sqrt_pos.2 hMp) (by rw [Real.sq_sqrt hMp.le, hMv]) (by norm_num) (by norm_num)
    (by rw [e1]; nlinarith) (by rw [e1]; nlinarith) (by norm_num; nlinarith)
  rw [zero_div, add_zero, zero_pow two_ne_zero, mul_zero, add_zero, ← hw] at hroom
  have hb : 0 < 1 / 2 - w ^ 2 := by linarith
  have hbs := Real.sq_sqrt hb.le
  have hb' := Real.sqrt_pos.2 hb
  set b := √(1 / 2 - w ^ 2) with hbdef
  refine ⟨fun i => if i = 1 then -w else if i = 2 then -b else if i = 3 then 0 else if i = 4 then b else w,
    ⟨?_, ?_, ?_, ?_, ?_⟩, by simpa using hw0⟩
  · intro i h1 h2
    interval_cases i <;> simp
  · rw [hsum]
    norm_num
    linarith
  · rintro u rfl
    norm_num [hw, ← hM, corrLast]
    ring
  · intro h
    omega
  · refine ⟨m 4 / b, by positivity, fun i hi => ?_⟩
    simp only [show 5 ≤ 5 by omega, if_true] at hi
    obtain ⟨h1, h2⟩ := hi
    interval_cases i
    · simp [s4]
      field_simp
    · simp [s3]
    · simp
      field_simp

/-- Royston's weights exist for every number of observations from four on. -/
theorem exists_royston {n : ℕ} (hn : 3 < n) {m : ℕ → ℝ} (hm : NormalScores n (position (3 / 8) n) m) :
    ∃ a, RoystonWeights n m a := by
  rcases (by omega : n = 4 ∨ n = 5 ∨ 5 < n) with rfl | rfl | h
  · exact exists_royston_four hm
  · exact (exists_royston_five hm).imp fun a h => h.1
  · obtain ⟨a, ha, -⟩ := royston_of_room h hm rfl rfl (has_room h hm)
    exact ⟨a, ha⟩

/-- The last weight is positive. -/
theorem royston_last_pos {n : ℕ} (hn : 3 < n) {m a : ℕ → ℝ} (hm : NormalScores n (position (3 / 8) n) m)
    (ha : RoystonWeights n m a) : 0 < a n := by
  have hx := score_pos hm (by omega : n + 1 < 2 * n) le_rfl
  have hM : 0 < ∑ i ∈ Finset.Icc 1 n, m i ^ 2 := lt_of_lt_of_le (pow_pos hx 2)
    (Finset.single_le_sum (f := fun i => m i ^ 2) (fun i _ => sq_nonneg _) (by simp; omega))
  have hc : 0 ≤ corrLast (1 / √n) := by
    refine corrLast_nonneg (by positivity) ?_
    have hn' : (4 : ℝ) ≤ n := by exact_mod_cast hn
    refine (sqrt_between (by omega) (a := 0) le_rfl (by norm_num) ?_ ?_).2
    · rw [zero_pow two_ne_zero]; positivity
    · rw [div_le_iff₀ (by linarith)]
      linarith
  have h := ha.last _ rfl
  rw [corrLast] at hc
  have := div_pos hx (Real.sqrt_pos.2 hM)
  linarith

/-- A squared correlation of an ordered sample with weights that are larger at the upper end is one exactly when
the sample lies on an increasing line over the weights. -/
theorem correlation_sq_one {n : ℕ} {z o : ℕ → ℝ} (ho : ∀ i j, 1 ≤ i → i ≤ j → j ≤ n → o i ≤ o j) (hn : 1 ≤ n)
    (hz' : z 1 < z n) (ho' : o 1 < o n) :
    correlation n z o ^ 2 = 1 ↔ ∃ a b, 0 < b ∧ ∀ i, 1 ≤ i → i ≤ n → o i = a + b * z i := by
  have hv : ∀ w : ℕ → ℝ, w 1 ≠ w n → Varies (points n w) := fun w hw =>
    ⟨w 1, List.mem_map.2 ⟨0, by simp; omega, rfl⟩, w n,
      List.mem_map.2 ⟨n - 1, by simp; omega, by rw [Nat.sub_add_cancel hn]⟩, hw⟩
  have h2 := devSq_pos (hv o ho'.ne)
  have line : ∀ w : ℕ → ℝ, w 1 ≠ w n → correlation n w o = 1 →
      ∃ a b, 0 < b ∧ ∀ i, 1 ≤ i → i ≤ n → o i = a + b * w i := by
    intro w hw h
    have h1 := devSq_pos (hv w hw)
    have h5 : 0 < √(devSq (points n w) * devSq (points n o)) := Real.sqrt_pos.2 (mul_pos h1 h2)
    rw [correlation, ← devSq_points, ← devSq_points, ← devSum_points, div_eq_one_iff_eq h5.ne',
      devSum_comm, mul_comm] at h
    obtain ⟨c, d, hd, he⟩ := exists_aff_of_devSum (by simp [length_points]) h1 h2 h
    refine ⟨c, d, hd, fun i hi hi' => ?_⟩
    have := congrArg (fun l : List ℝ => l.getD (i - 1) 0) he
    simp only [points, List.map_map] at this
    rw [List.getD_eq_getElem _ _ (by simp; omega), List.getD_eq_getElem _ _ (by simp; omega)] at this
    simpa [aff, Nat.sub_add_cancel hi] using this
  constructor
  · intro h
    rcases sq_eq_one_iff.1 h with h | h
    · exact line z hz'.ne h
    · exfalso
      have e : correlation n (fun i => -z i) o = 1 := by
        have hm : plotMean n (fun i => -z i) = -plotMean n z := by
          rw [plotMean, plotMean, Finset.sum_neg_distrib, neg_div]
        have h3 : coDeviation n (fun i => -z i) o = -coDeviation n z o := by
          rw [coDeviation, coDeviation, hm, ← Finset.sum_neg_distrib]
          exact Finset.sum_congr rfl fun i _ => by ring
        have h4 : coDeviation n (fun i => -z i) (fun i => -z i) = coDeviation n z z := by
          rw [coDeviation, coDeviation, hm]
          exact Finset.sum_congr rfl fun i _ => by ring
        rw [correlation, h3, h4, neg_div]
        rw [correlation] at h
        rw [h, neg_neg]
      obtain ⟨a, b, hb, hl⟩ := line (fun i => -z i) (by simpa using hz'.ne) e
      rw [hl 1 le_rfl hn, hl n hn le_rfl] at ho'
      nlinarith
  · rintro ⟨a, b, hb, hl⟩
    have := (correlation_range (z := z) (o := o) (n := n) (fun i j h1 h2 h3 => ?_) ho hn hz' ho').2.2.2 ⟨a, b, hb, hl⟩
    · rw [this, one_pow]
    · have := ho i j h1 h2 h3
      rw [hl i h1 (by omega), hl j (by omega) h3] at this
      exact le_of_mul_le_mul_left (by linarith) hb

/-- **C114** (Shapiro-Wilk, more than three observations): Royston's weights exist, and the statistic is the
squared correlation of the ordered sample with them. -/
theorem C114_shapiroWilk {xs : List ℝ} (hn : 3 < xs.length) {o m : ℕ → ℝ} (ho : OrderStats xs o)
    (hm : NormalScores xs.length (position (3 / 8) xs.length) m) :
    ∃ a, RoystonWeights xs.length m a ∧
      NormStat.value scipyNorm .shapiroWilk xs = .ok (some (correlation xs.length a o ^ 2)) ∧
      correlation xs.length a o ^ 2 = (∑ i ∈ Finset.Icc 1 xs.length, a i * o i) ^ 2 /
        coDeviation xs.length o o := by
  obtain ⟨a, ha⟩ := exists_royston hn hm
  obtain ⟨h1, h2, -⟩ := shapiroWilk_correlation hn ho hm ha
  exact ⟨a, ha, h1, h2⟩

/-- **C114** (range, Shapiro-Wilk). -/
theorem C114_shapiroWilk_range {xs : List ℝ} (hn : 3 < xs.length) (hv : Varies xs) {o m a : ℕ → ℝ}
    (ho : OrderStats xs o) (hm : NormalScores xs.length (position (3 / 8) xs.length) m)
    (ha : RoystonWeights xs.length m a) :
    ∃ v, NormStat.value scipyNorm .shapiroWilk xs = .ok (some v) ∧ PlotRange xs.length a o v := by
  obtain ⟨h1, -, h3⟩ := shapiroWilk_correlation hn ho hm ha
  refine ⟨_, h1, sq_nonneg _, h3, ?_⟩
  have hpos := royston_last_pos hn hm ha
  have ha1 : a 1 = -a xs.length := by
    have := ha.antisymmetric xs.length (by omega) le_rfl
    rwa [Nat.add_sub_cancel_left] at this
  exact correlation_sq_one (fun i j h1 h2 h3 => orderStats_mono ho h1 h2 h3) (by omega)
    (by rw [ha1]; linarith) (orderStats_lt ho hv).2

/-! ### Rahman-Govindarajulu -/

/-- The product of abscissa and density, over the tail, increases. -/
theorem hazard_strictMono : StrictMonoOn (fun x => x * gaussianPDFReal 0 1 x / (1 - Phi x)) (Set.Ioi 0) := by
  have hQ : ∀ x, 0 < 1 - Phi x := fun x => by
    have := Phi_strictMono (show x < x + 1 by linarith)
    have h2 : Phi (x + 1) ≤ 1 := by rw [Phi_eq]; exact measureReal_le_one
    linarith
  have hd : ∀ x, HasDerivAt (fun x => x * gaussianPDFReal 0 1 x / (1 - Phi x))
      (((1 * gaussianPDFReal 0 1 x + x * (-x * gaussianPDFReal 0 1 x)) * (1 - Phi x) -
        x * gaussianPDFReal 0 1 x * (-gaussianPDFReal 0 1 x)) / (1 - Phi x) ^ 2) x := fun x =>
    ((hasDerivAt_id x).mul (pdf_hasDerivAt x)).div ((Phi_hasDerivAt x).const_sub 1) (hQ x).ne'
  refine strictMonoOn_of_deriv_pos (convex_Ioi 0) (fun x _ => (hd x).continuousAt.continuousWithinAt) fun x hx => ?_
  rw [interior_Ioi] at hx
  have hx : 0 < x := hx
  rw [(hd x).deriv]
  refine div_pos ?_ (pow_pos (hQ x) 2)
  have h1 := Phi_mills hx
  rw [lt_div_iff₀ hx] at h1
  have h2 := pdf_pos' x
  have h3 := hQ x
  generalize gaussianPDFReal 0 1 x = φ at *
  generalize 1 - Phi x = q at *
  have : 0 < φ * (q + x * (φ - q * x)) := mul_pos h2 (add_pos h3 (mul_pos hx (by linarith)))
  nlinarith

/-- The weights of Rahman and Govindarajulu are positive at the upper end and antisymmetric. -/
theorem rgWeight_ends {n : ℕ} (hn : 3 < n) {m : ℕ → ℝ}
    (hm : NormalScores n (fun i => (i : ℝ) / (n + 1)) m) :
    0 < rgWeight n m n ∧ rgWeight n m 1 = -rgWeight n m n := by
  have hp : ∀ i, 1 ≤ i → i ≤ n → Phi (m i) = (i : ℝ) / (n + 1) := hm
  have hn1 : (0 : ℝ) < n + 1 := by positivity
  have hsym : ∀ i, 1 ≤ i → i ≤ n → m (n + 1 - i) = -m i := by
    intro i h1 h2
    apply Phi_strictMono.injective
    rw [Phi_neg, hp i h1 h2, hp _ (by omega) (by omega), Nat.cast_sub (by omega), eq_sub_iff_add_eq, ← add_div,
      div_eq_one_iff_eq hn1.ne']
    push_cast
    ring
  have hneg : ∀ x, gaussianPDFReal 0 1 (-x) = gaussianPDFReal 0 1 x := fun x => by rw [pdf_eq, pdf_eq, neg_sq]
  have s1 : m 1 = -m n := by
    have := hsym n (by omega) le_rfl
    rwa [Nat.add_sub_cancel_left] at this
  have s2 : m 2 = -m (n - 1) := by
    have := hsym (n - 1) (by omega) (by omega)
    rwa [show n + 1 - (n - 1) = 2 by omega] at this
  have en : rgWeight n m n = (n + 1) * (n + 2) * gaussianPDFReal 0 1 (m n) *
      (2 * (m n * gaussianPDFReal 0 1 (m n)) - m (n - 1) * gaussianPDFReal 0 1 (m (n - 1))) := by
    simp only [rgWeight]
    rw [if_pos (by omega), if_pos (by omega), if_neg (by omega), sub_zero]
  have e1 : rgWeight n m 1 = -rgWeight n m n := by
    rw [en]
    simp only [rgWeight]
    rw [if_pos (by omega), if_neg (by omega), if_pos (by omega), s1, s2, hneg, hneg]
    ring
  refine ⟨?_, e1⟩
  rw [en]
  refine mul_pos (by have := pdf_pos' (m n); positivity) ?_
  have hc : ((n - 1 : ℕ) : ℝ) = n - 1 := by rw [Nat.cast_sub (by omega), Nat.cast_one]
  have hn4 : (4 : ℝ) ≤ n := by exact_mod_cast hn
  have h1 := hp n (by omega) le_rfl
  have h2 := hp (n - 1) (by omega) (by omega)
  rw [hc] at h2
  have hy : 0 < m (n - 1) := by
    refine Phi_strictMono.lt_iff_lt.1 ?_
    rw [h2, Phi_zero, lt_div_iff₀ hn1]
    linarith
  have hlt : m (n - 1) < m n := by
    refine Phi_strictMono.lt_iff_lt.1 ?_
    rw [h1, h2]
    exact div_lt_div_of_pos_right (by linarith) hn1
  have h3 := hazard_strictMono hy (hy.trans hlt) hlt
  simp only [h1, h2] at h3
  have q1 : 1 - (n : ℝ) / (n + 1) = 1 / (n + 1) := by field_simp; ring
  have q2 : 1 - ((n : ℝ) - 1) / (n + 1) = 2 / (n + 1) := by field_simp; ring
  rw [q1, q2] at h3
  generalize m n * gaussianPDFReal 0 1 (m n) = A at *
  generalize m (n - 1) * gaussianPDFReal 0 1 (m (n - 1)) = B at *
  have e1 : A / (1 / ((n : ℝ) + 1)) = A * (n + 1) := by field_simp
  have e2 : B / (2 / ((n : ℝ) + 1)) = B * (n + 1) / 2 := by field_simp
  rw [e1, e2] at h3
  have : 0 < (2 * A - B) * ((n : ℝ) + 1) := by linarith
  exact pos_of_mul_pos_left this hn1.le

/-- **C114** (range, Rahman-Govindarajulu). -/
theorem C114_swrg_plot {xs : List ℝ} (hn : 3 < xs.length) (hv : Varies xs) {o m : ℕ → ℝ} (ho : OrderStats xs o)
    (hm : NormalScores xs.length (fun i => (i : ℝ) / (xs.length + 1)) m) :
    ∃ v, NormStat.value scipyNorm .swrg xs = .ok (some v) ∧ PlotRange xs.length (rgWeight xs.length m) o v := by
  obtain ⟨h1, h2⟩ := rgWeight_ends hn hm
  refine ⟨_, C114_swrg hn ho hm, sq_nonneg _, correlation_sq_le _ _ _, ?_⟩
  exact correlation_sq_one (fun i j h1 h2 h3 => orderStats_mono ho h1 h2 h3) (by omega)
    (by rw [h2]; linarith) (orderStats_lt ho hv).2

/-- **C114** (smaller samples): two observations are a `TypeError` for Shapiro-Wilk, and up to three give no value
for Rahman-Govindarajulu. -/
theorem C114_small (xs : List ℝ) :
    (xs.length = 2 → NormStat.value scipyNorm .shapiroWilk xs = .error .typeError) ∧
    (xs.length ≤ 3 → NormStat.value scipyNorm .swrg xs = .ok none) := by
  refine ⟨fun h => ?_, fun h => ?_⟩
  · simp only [NormStat.value, Normal.shapiroWilk]
    rw [if_neg (by omega), if_pos h]
    rfl
  · simp only [NormStat.value, guarded]
    rw [if_neg (by omega)]

/-- The hypotheses are met by a sample of seven observations. -/
example : Varies [3, 1, 3, 2, 0, 7, (5 : ℝ)] ∧ (∃ o, OrderStats [3, 1, 3, 2, 0, 7, 5] o) ∧
    (∃ z a, NormalScores 7 (position (3 / 8) 7) z ∧ RoystonWeights 7 z a) ∧
    (∃ m, NormalScores 7 (fun i => (i : ℝ) / ((7 : ℕ) + 1)) m) := by
  have hz := exists_scores (n := 7) fun i h1 h2 => position_mem (α := 3 / 8) (by norm_num) h1 h2
  obtain ⟨a, ha⟩ := exists_royston (by norm_num) hz
  refine ⟨⟨3, by simp, 1, by simp, by norm_num⟩, exists_orderStats _, ⟨_, a, hz, ha⟩,
    _, exists_scores fun i h1 h2 => ?_⟩
  have := position_mem (α := 0) (by norm_num) h1 h2
  simpa [position] using this

end Pysatl.Props
