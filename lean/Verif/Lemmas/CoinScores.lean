import Verif.Lemmas.Gaussian
import Mathlib.Tactic.IntervalCases

/-! # The approximate normal scores of `CoinNormalityGofStatistic` -/

namespace Pysatl.Normal

open Pysatl.Graph Pysatl.Edf Pysatl.Exponent

/-- The argument of `norm.ppf` in `nscor2`, entry `i` (zero-based). -/
noncomputable def coinP (n i : ℕ) : ℝ :=
  let k := min 3 (n / 2)
  let j := if i < k then i else 3
  let eps := at_ [0.419885, 0.450536, 0.456936, 0.468488] j
  let dl1 := at_ [0.112063, 0.12177, 0.239299, 0.215159] j
  let dl2 := at_ [0.080122, 0.111348, -0.211867, -0.115049] j
  let gam := at_ [0.474798, 0.469051, 0.208597, 0.259784] j
  let lam := at_ [0.282765, 0.304856, 0.407708, 0.414093] j
  let ai : ℝ := (i : ℝ) + 1
  let e1 := (ai - eps) / (n + gam)
  let e2 := if i < k then e1 ^ lam else e1 ^ (lam + -0.283833 / (ai + -0.106136))
  e1 + e2 * (dl1 + e2 * dl2) / n - coinCorrect (i + 1) n

theorem nscor2_eq (lib : NormLib) (n i : ℕ) : nscor2 lib n i = 0 - lib.ppf (coinP n i) := rfl

theorem coinCorrect_abs {i n : ℕ} (hi : 1 ≤ i) (hn : 4 ≤ n) (h : 2 * i ≤ n) : |coinCorrect i n| ≤ 0.06 / n := by
  have hN : (0 : ℝ) < n := by exact_mod_cast (by omega : 0 < n)
  unfold coinCorrect
  split_ifs with h1 h2 h3 h4
  · have hn' : n ≤ 4 := by nlinarith
    have : (n : ℝ) ≤ 4 := by exact_mod_cast hn'
    rw [abs_of_pos (by norm_num), le_div_iff₀ hN]
    norm_num
    linarith
  · simp; positivity
  · simp; positivity
  · simp; positivity
  · have hn40 : n ≤ 40 := by
      by_contra hc
      push Not at hc
      by_cases h : i = 4
      · exact h4 ⟨h, hc⟩
      · exact h3 ⟨h, by omega⟩
    have hN40 : (n : ℝ) ≤ 40 := by exact_mod_cast hn40
    have hN4 : (4 : ℝ) ≤ n := by exact_mod_cast hn
    have hNi : 2 * (i : ℝ) ≤ n := by exact_mod_cast h
    have key : (0.0014 : ℝ) ≤ 0.06 / n := by rw [le_div_iff₀ hN]; norm_num; linarith
    refine le_trans ?_ key
    have i7 : i ≤ 7 := by omega
    have ha0 : 0 ≤ 1 / ((n : ℝ) * n) := by positivity
    have ha1 : 1 / ((n : ℝ) * n) ≤ 1 / (max (4 : ℝ) (2 * (i : ℝ)) * max (4 : ℝ) (2 * (i : ℝ))) := by
      apply one_div_le_one_div_of_le
      · positivity
      · exact mul_self_le_mul_self (by positivity) (max_le hN4 hNi)
    dsimp only
    generalize 1 / ((n : ℝ) * n) = a at *
    rw [abs_le]
    interval_cases i <;> norm_num [at_] at ha1 ⊢ <;> constructor <;> nlinarith

private theorem inc {r d1 d2 D : ℝ} (h0 : 0 ≤ r) (h1 : r ≤ 1) (hd : 0 ≤ d1) (hs : 0 ≤ d1 + d2) (hD1 : d1 ≤ D)
    (hD2 : d1 + d2 ≤ D) : 0 ≤ r * (d1 + r * d2) ∧ r * (d1 + r * d2) ≤ D := by
  have a : 0 ≤ d1 + r * d2 := by
    have : d1 + r * d2 = (1 - r) * d1 + r * (d1 + d2) := by ring
    rw [this]
    exact add_nonneg (mul_nonneg (by linarith) hd) (mul_nonneg h0 hs)
  have b : d1 + r * d2 ≤ D := by
    have : d1 + r * d2 = (1 - r) * d1 + r * (d1 + d2) := by ring
    rw [this]
    nlinarith
  exact ⟨mul_nonneg h0 a, by nlinarith⟩

private theorem frac {a g N : ℝ} (ha : 0 ≤ a) (hg : 0 ≤ g) (hg' : g ≤ 0.48) (hN : 4 ≤ N) :
    a / 1.12 / N ≤ a / (N + g) ∧ a / (N + g) ≤ a / N := by
  constructor
  · rw [div_div]
    exact div_le_div_of_nonneg_left ha (by linarith) (by norm_num at *; linarith)
  · exact div_le_div_of_nonneg_left ha (by linarith) (by linarith)

private theorem score {a g r d1 d2 D N C p : ℝ} (hp : p = a / (N + g) + r * (d1 + r * d2) / N - C) (ha : 0 ≤ a) (hg : 0 ≤ g)
    (hg' : g ≤ 0.48) (hN : 4 ≤ N) (h0 : 0 ≤ r) (h1 : r ≤ 1) (hd : 0 ≤ d1) (hs : 0 ≤ d1 + d2) (hD1 : d1 ≤ D)
    (hD2 : d1 + d2 ≤ D) (hC : |C| ≤ 0.06 / N) : (a / 1.12 - 0.06) / N ≤ p ∧ p ≤ (a + D + 0.06) / N := by
  obtain ⟨f1, f2⟩ := frac ha hg hg' hN
  obtain ⟨i1, i2⟩ := inc h0 h1 hd hs hD1 hD2
  obtain ⟨c1, c2⟩ := abs_le.1 hC
  have hN0 : 0 < N := by linarith
  have j1 : 0 ≤ r * (d1 + r * d2) / N := div_nonneg i1 hN0.le
  have j2 : r * (d1 + r * d2) / N ≤ D / N := div_le_div_of_nonneg_right i2 hN0.le
  rw [hp, sub_div, add_div, add_div]
  constructor <;> linarith

private theorem unit_pow {e l : ℝ} (h0 : 0 ≤ e) (h1 : e ≤ 1) (hl : 0 ≤ l) : 0 ≤ e ^ l ∧ e ^ l ≤ 1 :=
  ⟨Real.rpow_nonneg h0 _, Real.rpow_le_one h0 h1 hl⟩

theorem coinP_zero {n : ℕ} (hn : 4 ≤ n) : 0 < coinP n 0 ∧ coinP n 0 ≤ 0.85 / n := by
  have hN : (4 : ℝ) ≤ n := by exact_mod_cast hn
  have hk : 0 < min 3 (n / 2) := by omega
  have e : 0 ≤ ((0 : ℕ) + 1 - 0.419885 : ℝ) / (n + 0.474798) ∧ ((0 : ℕ) + 1 - 0.419885 : ℝ) / (n + 0.474798) ≤ 1 := by
    constructor
    · apply div_nonneg <;> norm_num; linarith
    · rw [div_le_one (by linarith)]; norm_num; linarith
  obtain ⟨r0, r1⟩ := unit_pow (l := 0.282765) e.1 e.2 (by norm_num)
  have h := score (p := coinP n 0) (a := (0 : ℕ) + 1 - 0.419885) (g := 0.474798) (d1 := 0.112063) (d2 := 0.080122) (D := 0.2)
    (by simp only [coinP, if_pos hk]; rfl) (by norm_num) (by norm_num) (by norm_num) hN r0 r1 (by norm_num) (by norm_num)
    (by norm_num) (by norm_num) (coinCorrect_abs (i := 0 + 1) (by omega) hn (by omega))
  refine ⟨lt_of_lt_of_le (div_pos (by norm_num) (by linarith)) h.1, h.2.trans ?_⟩
  exact div_le_div_of_nonneg_right (by norm_num) (by linarith)

theorem coinP_one {n : ℕ} (hn : 4 ≤ n) : 1.2 / n ≤ coinP n 1 ∧ coinP n 1 < 1 / 2 := by
  have hN : (4 : ℝ) ≤ n := by exact_mod_cast hn
  have hk : 1 < min 3 (n / 2) := by omega
  have e : 0 ≤ ((1 : ℕ) + 1 - 0.450536 : ℝ) / (n + 0.469051) ∧ ((1 : ℕ) + 1 - 0.450536 : ℝ) / (n + 0.469051) ≤ 1 := by
    constructor
    · apply div_nonneg <;> norm_num; linarith
    · rw [div_le_one (by linarith)]; norm_num; linarith
  obtain ⟨r0, r1⟩ := unit_pow (l := 0.304856) e.1 e.2 (by norm_num)
  have h := score (p := coinP n 1) (a := (1 : ℕ) + 1 - 0.450536) (g := 0.469051) (d1 := 0.12177) (d2 := 0.111348) (D := 0.2332)
    (by simp only [coinP, if_pos hk]; rfl) (by norm_num) (by norm_num) (by norm_num) hN r0 r1 (by norm_num) (by norm_num)
    (by norm_num) (by norm_num) (coinCorrect_abs (i := 1 + 1) (by omega) hn (by omega))
  refine ⟨le_trans ?_ h.1, h.2.trans_lt ?_⟩
  · exact div_le_div_of_nonneg_right (by norm_num) (by linarith)
  · rw [div_lt_iff₀ (by linarith)]; norm_num; linarith

theorem coinP_two {n : ℕ} (hn : 6 ≤ n) : 0 < coinP n 2 ∧ coinP n 2 < 1 / 2 := by
  have hN : (6 : ℝ) ≤ n := by exact_mod_cast hn
  have hk : 2 < min 3 (n / 2) := by omega
  have e : 0 ≤ ((2 : ℕ) + 1 - 0.456936 : ℝ) / (n + 0.208597) ∧ ((2 : ℕ) + 1 - 0.456936 : ℝ) / (n + 0.208597) ≤ 1 := by
    constructor
    · apply div_nonneg <;> norm_num; linarith
    · rw [div_le_one (by linarith)]; norm_num; linarith
  obtain ⟨r0, r1⟩ := unit_pow (l := 0.407708) e.1 e.2 (by norm_num)
  have h := score (p := coinP n 2) (a := (2 : ℕ) + 1 - 0.456936) (g := 0.208597) (d1 := 0.239299) (d2 := -0.211867) (D := 0.24)
    (by simp only [coinP, if_pos hk]; rfl) (by norm_num) (by norm_num) (by norm_num) (by linarith) r0 r1 (by norm_num)
    (by norm_num) (by norm_num) (by norm_num) (coinCorrect_abs (i := 2 + 1) (by omega) (by omega) (by omega))
  refine ⟨lt_of_lt_of_le (div_pos (by norm_num) (by linarith)) h.1, h.2.trans_lt ?_⟩
  rw [div_lt_iff₀ (by linarith)]; norm_num; linarith

theorem coinP_rest {n i : ℕ} (h3 : 3 ≤ i) (hi : i < n / 2) : 0 < coinP n i ∧ coinP n i < 1 / 2 := by
  have hN : (8 : ℝ) ≤ n := by exact_mod_cast (by omega : 8 ≤ n)
  have hI : (3 : ℝ) ≤ i := by exact_mod_cast h3
  have hIN : 2 * ((i : ℝ) + 1) ≤ n := by exact_mod_cast (by omega : 2 * (i + 1) ≤ n)
  have hk : ¬ i < min 3 (n / 2) := by omega
  have e : 0 ≤ ((i : ℝ) + 1 - 0.468488) / (n + 0.259784) ∧ ((i : ℝ) + 1 - 0.468488) / (n + 0.259784) ≤ 1 := by
    constructor
    · apply div_nonneg <;> norm_num <;> linarith
    · rw [div_le_one (by linarith)]; norm_num; linarith
  have hl : (0 : ℝ) ≤ 0.414093 + -0.283833 / ((i : ℝ) + 1 + -0.106136) := by
    have : (0.283833 : ℝ) / ((i : ℝ) + 1 + -0.106136) ≤ 0.1 := by
      rw [div_le_iff₀ (by norm_num; linarith)]; norm_num; linarith
    rw [neg_div]
    norm_num at *
    linarith
  obtain ⟨r0, r1⟩ := unit_pow e.1 e.2 hl
  have h := score (p := coinP n i) (a := (i : ℝ) + 1 - 0.468488) (g := 0.259784) (d1 := 0.215159) (d2 := -0.115049) (D := 0.22)
    (by simp only [coinP, if_neg hk]; rfl) (by norm_num; linarith) (by norm_num) (by norm_num) (by linarith) r0 r1 (by norm_num)
    (by norm_num) (by norm_num) (by norm_num) (coinCorrect_abs (i := i + 1) (by omega) (by omega) (by omega))
  refine ⟨lt_of_lt_of_le (div_pos (by norm_num; linarith) (by linarith)) h.1, h.2.trans_lt ?_⟩
  rw [div_lt_iff₀ (by linarith)]; norm_num; linarith

/-- The arguments of the quantile function lie in the lower half of the unit interval. -/
theorem coinP_mem {n i : ℕ} (hn : 4 ≤ n) (hi : i < n / 2) : 0 < coinP n i ∧ coinP n i < 1 / 2 := by
  have hN : (4 : ℝ) ≤ n := by exact_mod_cast hn
  match i, hi with
  | 0, _ =>
    refine ⟨(coinP_zero hn).1, (coinP_zero hn).2.trans_lt ?_⟩
    rw [div_lt_iff₀ (by linarith)]; norm_num; linarith
  | 1, _ => exact ⟨lt_of_lt_of_le (div_pos (by norm_num) (by linarith)) (coinP_one hn).1, (coinP_one hn).2⟩
  | 2, h => exact coinP_two (by omega)
  | i + 3, h => exact coinP_rest (by omega) h

theorem coinP_lt {n : ℕ} (hn : 4 ≤ n) : coinP n 0 < coinP n 1 := by
  have hN : (4 : ℝ) ≤ n := by exact_mod_cast hn
  refine (coinP_zero hn).2.trans_lt (lt_of_lt_of_le ?_ (coinP_one hn).1)
  exact div_lt_div_of_pos_right (by norm_num) (by linarith)

theorem coinA_of_lt (lib : NormLib) {n i : ℕ} (hi : i < n / 2) : coinA lib n i = lib.ppf (coinP n i) := by
  rw [coinA, if_pos hi, nscor2_eq, zero_sub, neg_neg]

/-- The first two scores are negative and different. -/
theorem coinA_scores {n : ℕ} (hn : 4 ≤ n) : coinA scipyNorm n 0 < coinA scipyNorm n 1 ∧ coinA scipyNorm n 1 < 0 := by
  have h0 : 0 < n / 2 := by omega
  have h1 : 1 < n / 2 := by omega
  obtain ⟨a0, a1⟩ := coinP_mem hn h0
  obtain ⟨b0, b1⟩ := coinP_mem hn h1
  rw [coinA_of_lt _ h0, coinA_of_lt _ h1]
  have mono : ∀ {p q : ℝ}, 0 < p → p < q → q < 1 → PhiInv p < PhiInv q := fun h0 h h1 => by
    refine Phi_strictMono.lt_iff_lt.1 ?_
    rwa [Phi_PhiInv h0 (h.trans h1), Phi_PhiInv (h0.trans h) h1]
  refine ⟨mono a0 (coinP_lt hn) (by linarith), ?_⟩
  have := mono b0 (show coinP n 1 < 1 - coinP n 1 by linarith) (by linarith)
  rw [PhiInv_symm b0 (by linarith)] at this
  change PhiInv _ < 0
  linarith

end Pysatl.Normal
