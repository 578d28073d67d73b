import Verif.Props.NormalShape
import Verif.Lemmas.CoinScores
import Mathlib.Analysis.SpecialFunctions.Stirling

/-! # C117: the normality criteria as measures of shape, continued -/

namespace Pysatl.Props

open Pysatl.Decision Pysatl.Graph Pysatl.Edf Pysatl.Normal Pysatl.Spec
open Pysatl.Exponent (at_ pairSum pairSum_congr pairSum_perm sum_at mean_perm pyMin pyMin_eq_ok)

/-! ### Zhang's second statistic -/

theorem orderStats_neg {xs : List ℝ} {o o' : ℕ → ℝ} (ho : OrderStats xs o)
    (ho' : OrderStats (xs.map fun x => -x) o') {i : ℕ} (h1 : 1 ≤ i) (h2 : i ≤ xs.length) :
    o' i = -o (xs.length + 1 - i) := by
  have hl : (xs.map fun x => -x).length = xs.length := List.length_map ..
  have e := at_sort_orderStats ho' (i := i - 1) (by omega)
  rw [Nat.sub_add_cancel h1] at e
  rw [← e]
  change at_ (sort (mirror xs)) _ = _
  rw [Pysatl.Normal.sort_mirror, show mirror (sort xs) = (sort xs).map fun x => -x from rfl, at_]
  have hs := length_sort xs
  rw [List.getD_eq_getElem _ _ (by simp; omega), List.getElem_reverse, List.getElem_map]
  have e2 := at_sort_orderStats ho (i := xs.length - i) (by omega)
  rw [at_, List.getD_eq_getElem _ _ (by omega)] at e2
  rw [show xs.length + 1 - i = xs.length - i + 1 by omega, ← e2]
  congr 2
  simp
  omega

/-- **C117**: Zhang's `Q*` uses the chords to the largest observation instead. -/
theorem C117_zhangQStar {xs : List ℝ} (hn : 8 ≤ xs.length) {o z : ℕ → ℝ} (ho : OrderStats xs o)
    (hz : NormalScores xs.length (position (3 / 8) xs.length) z) :
    NormStat.value scipyNorm .zhangQStar xs = .ok (some (Real.log
      (((∑ i ∈ Finset.Icc 1 (xs.length - 1), plotSlope z o i xs.length) / ((xs.length : ℝ) - 1)) /
        ((∑ i ∈ Finset.Icc 1 (xs.length - 4), plotSlope z o i (i + 4)) / ((xs.length : ℝ) - 4))))) := by
  obtain ⟨o', ho'⟩ := exists_orderStats (xs.map fun x => -x)
  have hl : (xs.map fun x => -x).length = xs.length := List.length_map ..
  have h := C117_zhangQ (by rw [hl]; exact hn) ho' (by rw [hl]; exact hz)
  have hs := scores_symm hz
  have hrev : ∀ i j, 1 ≤ i → i ≤ xs.length → 1 ≤ j → j ≤ xs.length →
      plotSlope z o' i j = plotSlope z o (xs.length + 1 - j) (xs.length + 1 - i) := by
    intro i j hi hi' hj hj'
    unfold plotSlope
    rw [orderStats_neg ho ho' hi hi', orderStats_neg ho ho' hj hj', hs i hi hi', hs j hj hj']
    congr 1 <;> ring
  rw [C115_zhang, h, hl]
  congr 5
  · refine Finset.sum_nbij' (fun i => xs.length + 1 - i) (fun i => xs.length + 1 - i) ?_ ?_ ?_ ?_ ?_
    · intro i hi; have := Finset.mem_Icc.1 hi; exact Finset.mem_Icc.2 (by omega)
    · intro i hi; have := Finset.mem_Icc.1 hi; exact Finset.mem_Icc.2 (by omega)
    · intro i hi; have := Finset.mem_Icc.1 hi; omega
    · intro i hi; have := Finset.mem_Icc.1 hi; omega
    · intro i hi
      have := Finset.mem_Icc.1 hi
      rw [hrev 1 i le_rfl (by omega) (by omega) (by omega)]
      rfl
  · refine Finset.sum_nbij' (fun i => xs.length - 3 - i) (fun i => xs.length - 3 - i) ?_ ?_ ?_ ?_ ?_
    · intro i hi; have := Finset.mem_Icc.1 hi; exact Finset.mem_Icc.2 (by omega)
    · intro i hi; have := Finset.mem_Icc.1 hi; exact Finset.mem_Icc.2 (by omega)
    · intro i hi; have := Finset.mem_Icc.1 hi; omega
    · intro i hi; have := Finset.mem_Icc.1 hi; omega
    · intro i hi
      have := Finset.mem_Icc.1 hi
      rw [hrev i (i + 4) (by omega) (by omega) (by omega) (by omega)]
      congr 1 <;> omega

/-- **C117**: on a straight plot both of Zhang's statistics are zero. -/
theorem C117_zhang_straight {xs : List ℝ} (hn : 8 ≤ xs.length) {o z : ℕ → ℝ} (ho : OrderStats xs o)
    (hz : NormalScores xs.length (position (3 / 8) xs.length) z) {a b : ℝ} (hb : 0 < b)
    (h : ∀ i, 1 ≤ i → i ≤ xs.length → o i = a + b * z i) :
    NormStat.value scipyNorm .zhangQ xs = .ok (some 0) ∧
      NormStat.value scipyNorm .zhangQStar xs = .ok (some 0) := by
  have hs : ∀ i j, 1 ≤ i → i < j → j ≤ xs.length → plotSlope z o i j = b := by
    intro i j h1 h2 h3
    have := scores_lt hz h1 (by omega) (by omega) h3 (position_lt (by norm_num) (by omega) h2)
    rw [plotSlope, h i h1 (by omega), h j (by omega) h3, div_eq_iff (by linarith)]
    ring
  have hn' : (8 : ℝ) ≤ xs.length := by exact_mod_cast hn
  have h4 : ∑ i ∈ Finset.Icc 1 (xs.length - 4), plotSlope z o i (i + 4) =
      ((xs.length : ℝ) - 4) * b := by
    rw [Finset.sum_congr rfl fun i hi => hs i (i + 4) (by have := Finset.mem_Icc.1 hi; omega) (by omega)
      (by have := Finset.mem_Icc.1 hi; omega), Finset.sum_const, Nat.card_Icc, nsmul_eq_mul,
      Nat.add_sub_cancel, Nat.cast_sub (by omega)]
    norm_num
  have h1 : ∑ i ∈ Finset.Icc 2 xs.length, plotSlope z o 1 i = ((xs.length : ℝ) - 1) * b := by
    rw [Finset.sum_congr rfl fun i hi => hs 1 i le_rfl (by have := Finset.mem_Icc.1 hi; omega)
      (by have := Finset.mem_Icc.1 hi; omega), Finset.sum_const, Nat.card_Icc, nsmul_eq_mul,
      show xs.length + 1 - 2 = xs.length - 1 by omega, Nat.cast_sub (by omega)]
    norm_num
  have h2 : ∑ i ∈ Finset.Icc 1 (xs.length - 1), plotSlope z o i xs.length =
      ((xs.length : ℝ) - 1) * b := by
    rw [Finset.sum_congr rfl fun i hi => hs i xs.length (by have := Finset.mem_Icc.1 hi; omega)
      (by have := Finset.mem_Icc.1 hi; omega) le_rfl, Finset.sum_const, Nat.card_Icc, nsmul_eq_mul,
      Nat.add_sub_cancel, Nat.cast_sub (by omega)]
    norm_num
  rw [C117_zhangQ hn ho hz, C117_zhangQStar hn ho hz, h1, h2, h4, mul_div_cancel_left₀ _ (by linarith),
    mul_div_cancel_left₀ _ (by linarith), div_self hb.ne', Real.log_one]
  exact ⟨rfl, rfl⟩

/-! ### Coin's statistic -/

theorem quadratic_zero {p q : ℝ} (h : ∀ ε : ℝ, 0 ≤ ε ^ 2 * q - 2 * ε * p) : p = 0 := by
  have hq : 0 ≤ q := by
    have h1 := h 1
    have h2 := h (-1)
    linarith
  by_contra hp
  have h1 := h (p / (q + 1))
  have hp2 : 0 < p ^ 2 := by positivity
  have : (p / (q + 1)) ^ 2 * q - 2 * (p / (q + 1)) * p = p ^ 2 * (q - 2 * (q + 1)) / (q + 1) ^ 2 := by
    field_simp
  rw [this] at h1
  have h2 : p ^ 2 * (q - 2 * (q + 1)) / (q + 1) ^ 2 < 0 :=
    div_neg_of_neg_of_pos (mul_neg_of_pos_of_neg hp2 (by linarith)) (by positivity)
  linarith

theorem cubicFit_iff (n : ℕ) (a z : ℕ → ℝ) (b₁ b₃ : ℝ) : IsCubicFit n a z b₁ b₃ ↔
    (∑ i ∈ Finset.Icc 1 n, a i * (z i - b₁ * a i - b₃ * a i ^ 3) = 0 ∧
      ∑ i ∈ Finset.Icc 1 n, a i ^ 3 * (z i - b₁ * a i - b₃ * a i ^ 3) = 0) := by
  have key : ∀ d₁ d₃ : ℝ, ∑ i ∈ Finset.Icc 1 n, (z i - (b₁ + d₁) * a i - (b₃ + d₃) * a i ^ 3) ^ 2 =
      ∑ i ∈ Finset.Icc 1 n, (z i - b₁ * a i - b₃ * a i ^ 3) ^ 2 -
      2 * d₁ * (∑ i ∈ Finset.Icc 1 n, a i * (z i - b₁ * a i - b₃ * a i ^ 3)) -
      2 * d₃ * (∑ i ∈ Finset.Icc 1 n, a i ^ 3 * (z i - b₁ * a i - b₃ * a i ^ 3)) +
      ∑ i ∈ Finset.Icc 1 n, (d₁ * a i + d₃ * a i ^ 3) ^ 2 := by
    intro d₁ d₃
    rw [Finset.mul_sum, Finset.mul_sum, ← Finset.sum_sub_distrib, ← Finset.sum_sub_distrib,
      ← Finset.sum_add_distrib]
    exact Finset.sum_congr rfl fun i _ => by ring
  constructor
  · intro h
    constructor
    · refine quadratic_zero (q := ∑ i ∈ Finset.Icc 1 n, (a i) ^ 2) fun ε => ?_
      have h1 := h (b₁ + ε) (b₃ + 0)
      rw [key ε 0] at h1
      have : ∑ i ∈ Finset.Icc 1 n, (ε * a i + 0 * a i ^ 3) ^ 2 = ε ^ 2 * ∑ i ∈ Finset.Icc 1 n, (a i) ^ 2 := by
        rw [Finset.mul_sum]; exact Finset.sum_congr rfl fun i _ => by ring
      rw [this] at h1
      linarith
    · refine quadratic_zero (q := ∑ i ∈ Finset.Icc 1 n, (a i ^ 3) ^ 2) fun ε => ?_
      have h1 := h (b₁ + 0) (b₃ + ε)
      rw [key 0 ε] at h1
      have : ∑ i ∈ Finset.Icc 1 n, (0 * a i + ε * a i ^ 3) ^ 2 =
          ε ^ 2 * ∑ i ∈ Finset.Icc 1 n, (a i ^ 3) ^ 2 := by
        rw [Finset.mul_sum]; exact Finset.sum_congr rfl fun i _ => by ring
      rw [this] at h1
      linarith
  · rintro ⟨h1, h3⟩ c₁ c₃
    have := key (c₁ - b₁) (c₃ - b₃)
    rw [h1, h3, mul_zero, mul_zero, sub_zero, sub_zero, add_sub_cancel, add_sub_cancel] at this
    rw [this]
    exact le_add_of_nonneg_right (Finset.sum_nonneg fun i _ => sq_nonneg _)

theorem var1'_spec {xs : List ℝ} (h : xs ≠ []) : √(var1' xs) = stdDev1 xs := by
  have hn : (xs.length : ℝ) ≠ 0 := by
    have := List.length_pos_iff.2 h
    positivity
  have hv := variance_raw xs
  unfold var1' stdDev1
  rw [mean_spec]
  change √(xs.length * (meanOf (· ^ 2) xs - meanOf id xs ^ 2) / _) = _
  rw [hv]
  unfold Spec.centralMoment
  conv_lhs => rw [meanOf, mul_div_cancel₀ _ hn]

theorem cauchy_scores {n : ℕ} {a : ℕ → ℝ}
    (ha : ∃ i ∈ Finset.Icc 1 n, ∃ j ∈ Finset.Icc 1 n, a i ≠ 0 ∧ a j ≠ 0 ∧ |a i| ≠ |a j|) :
    (∑ i ∈ Finset.Icc 1 n, a i ^ 4) ^ 2 <
      (∑ i ∈ Finset.Icc 1 n, a i ^ 2) * ∑ i ∈ Finset.Icc 1 n, a i ^ 6 := by
  obtain ⟨i, hi, j, hj, h1, h2, h3⟩ := ha
  set A := ∑ i ∈ Finset.Icc 1 n, a i ^ 2 with hA
  set B := ∑ i ∈ Finset.Icc 1 n, a i ^ 4 with hB
  set C := ∑ i ∈ Finset.Icc 1 n, a i ^ 6 with hC
  have hA0 : 0 < A := Finset.sum_pos' (fun k _ => sq_nonneg _) ⟨i, hi, by positivity⟩
  have e : ∑ k ∈ Finset.Icc 1 n, a k ^ 2 * (A * a k ^ 2 - B) ^ 2 = A * (A * C - B ^ 2) := by
    have : ∀ k, a k ^ 2 * (A * a k ^ 2 - B) ^ 2 = A ^ 2 * a k ^ 6 - 2 * A * B * a k ^ 4 + B ^ 2 * a k ^ 2 :=
      fun k => by ring
    simp only [this, Finset.sum_add_distrib, Finset.sum_sub_distrib, ← Finset.mul_sum, ← hA, ← hB, ← hC]
    ring
  have hpos : 0 < ∑ k ∈ Finset.Icc 1 n, a k ^ 2 * (A * a k ^ 2 - B) ^ 2 := by
    refine Finset.sum_pos' (fun k _ => by positivity) ?_
    by_cases hz : A * a i ^ 2 - B = 0
    · refine ⟨j, hj, ?_⟩
      have : A * a j ^ 2 - B ≠ 0 := by
        intro h
        have : A * a i ^ 2 = A * a j ^ 2 := by linarith
        exact h3 (sq_eq_sq_iff_abs_eq_abs _ _ |>.1 (mul_left_cancel₀ hA0.ne' this))
      positivity
    · exact ⟨i, hi, by positivity⟩
  rw [e] at hpos
  have := pos_of_mul_pos_right hpos hA0.le
  linarith

/-- Coin's statistic for any scores that are not all of the same size. -/
theorem coin_cubic (lib : NormLib) {xs : List ℝ} (hn : 3 < xs.length) {o a : ℕ → ℝ} (ho : OrderStats xs o)
    (ha : ∀ i, 1 ≤ i → i ≤ xs.length → a i = coinA lib xs.length (i - 1))
    (hne : ∃ i ∈ Finset.Icc 1 xs.length, ∃ j ∈ Finset.Icc 1 xs.length,
      a i ≠ 0 ∧ a j ≠ 0 ∧ |a i| ≠ |a j|) :
    ∃ b₁ b₃, IsCubicFit xs.length a (fun i => (o i - meanOf id xs) / stdDev1 xs) b₁ b₃ ∧
      (∀ c₁ c₃, IsCubicFit xs.length a (fun i => (o i - meanOf id xs) / stdDev1 xs) c₁ c₃ →
        c₁ = b₁ ∧ c₃ = b₃) ∧
      NormStat.value lib .coin xs = .ok (some (b₃ ^ 2)) := by
  have hnil : xs ≠ [] := by rintro rfl; simp at hn
  set z : ℕ → ℝ := fun i => (o i - meanOf id xs) / stdDev1 xs with hz
  have hcs := cauchy_scores hne
  set s2 := ∑ i ∈ Finset.Icc 1 xs.length, a i ^ 2 with hs2
  set s4 := ∑ i ∈ Finset.Icc 1 xs.length, a i ^ 4 with hs4
  set s6 := ∑ i ∈ Finset.Icc 1 xs.length, a i ^ 6 with hs6
  set t2 := ∑ i ∈ Finset.Icc 1 xs.length, a i * z i with ht2
  set t4 := ∑ i ∈ Finset.Icc 1 xs.length, a i ^ 3 * z i with ht4
  have hdet : s2 * s6 - s4 ^ 2 ≠ 0 := by linarith
  have hnorm : ∀ c₁ c₃, IsCubicFit xs.length a z c₁ c₃ ↔
      (t2 = c₁ * s2 + c₃ * s4 ∧ t4 = c₁ * s4 + c₃ * s6) := by
    intro c₁ c₃
    rw [cubicFit_iff]
    have e1 : ∑ i ∈ Finset.Icc 1 xs.length, a i * (z i - c₁ * a i - c₃ * a i ^ 3) =
        t2 - c₁ * s2 - c₃ * s4 := by
      rw [ht2, hs2, hs4, Finset.mul_sum, Finset.mul_sum, ← Finset.sum_sub_distrib,
        ← Finset.sum_sub_distrib]
      exact Finset.sum_congr rfl fun i _ => by ring
    have e2 : ∑ i ∈ Finset.Icc 1 xs.length, a i ^ 3 * (z i - c₁ * a i - c₃ * a i ^ 3) =
        t4 - c₁ * s4 - c₃ * s6 := by
      rw [ht4, hs4, hs6, Finset.mul_sum, Finset.mul_sum, ← Finset.sum_sub_distrib,
        ← Finset.sum_sub_distrib]
      exact Finset.sum_congr rfl fun i _ => by ring
    rw [e1, e2]
    constructor
    · rintro ⟨h1, h2⟩; constructor <;> linarith
    · rintro ⟨h1, h2⟩; constructor <;> linarith
  refine ⟨(t2 * s6 - t4 * s4) / (s2 * s6 - s4 ^ 2), (s2 * t4 - s4 * t2) / (s2 * s6 - s4 ^ 2), ?_, ?_, ?_⟩
  · rw [hnorm]
    constructor <;> (rw [div_mul_eq_mul_div, div_mul_eq_mul_div, ← add_div, eq_div_iff hdet]; ring)
  · intro c₁ c₃ h
    obtain ⟨h1, h2⟩ := (hnorm c₁ c₃).1 h
    rw [eq_div_iff hdet, eq_div_iff hdet, h1, h2]
    constructor <;> ring
  · have hsum : ∀ k, ∑ i ∈ Finset.range xs.length, coinA lib xs.length i ^ k =
        ∑ i ∈ Finset.Icc 1 xs.length, a i ^ k := by
      intro k
      rw [sum_range_Icc]
      exact Finset.sum_congr rfl fun i hi => by
        obtain ⟨h1, h2⟩ := Finset.mem_Icc.1 hi
        rw [ha i h1 h2]
    have hsort : sort (xs.map fun x => (x - mean xs) / √(var1' xs)) =
        (sort xs).map fun x => (x - meanOf id xs) / stdDev1 xs := by
      rw [var1'_spec hnil, mean_spec]
      exact sort_monotone (fun x y h => div_le_div_of_nonneg_right (by linarith) (Real.sqrt_nonneg _)) xs
    have hdot : ∀ k, dot (fun i => coinA lib xs.length i ^ k)
        ((sort xs).map fun x => (x - meanOf id xs) / stdDev1 xs) =
        ∑ i ∈ Finset.Icc 1 xs.length, a i ^ k * z i := by
      intro k
      unfold dot
      rw [show ((sort xs).map fun x => (x - meanOf id xs) / stdDev1 xs).mapIdx (fun i x =>
        coinA lib xs.length i ^ k * x) = (sort xs).mapIdx fun i x => coinA lib xs.length i ^ k *
          ((x - meanOf id xs) / stdDev1 xs) from List.ext_getElem (by simp) (by simp),
        sum_mapIdx_sort ho]
      exact Finset.sum_congr rfl fun i hi => by
        obtain ⟨h1, h2⟩ := Finset.mem_Icc.1 hi
        rw [ha i h1 h2]
    have hdot1 := hdot 1
    simp only [pow_one] at hdot1
    simp only [NormStat.value, guarded, if_pos hn, Except.map, Normal.coin, hsort, hsum, hdot, hdot1,
      ← hs2, ← hs4, ← hs6, ← ht2, ← ht4]
    rw [show s4 * t2 - s2 * t4 = -(s2 * t4 - s4 * t2) by ring,
      show s4 * s4 - s2 * s6 = -(s2 * s6 - s4 ^ 2) by ring, neg_div_neg_eq]


/-- **C117**: Coin's statistic is the square of the cubic coefficient of the least squares fit
`b₁ a + b₃ a³` of the standardised order statistics on the scores; the fit is unique for every number of observations. -/
theorem C117_coin {xs : List ℝ} (hn : 3 < xs.length) {o a : ℕ → ℝ} (ho : OrderStats xs o)
    (ha : ∀ i, 1 ≤ i → i ≤ xs.length → a i = coinA scipyNorm xs.length (i - 1)) :
    ∃ b₁ b₃, IsCubicFit xs.length a (fun i => (o i - meanOf id xs) / stdDev1 xs) b₁ b₃ ∧
      (∀ c₁ c₃, IsCubicFit xs.length a (fun i => (o i - meanOf id xs) / stdDev1 xs) c₁ c₃ →
        c₁ = b₁ ∧ c₃ = b₃) ∧
      NormStat.value scipyNorm .coin xs = .ok (some (b₃ ^ 2)) := by
  obtain ⟨h1, h2⟩ := coinA_scores (n := xs.length) hn
  refine coin_cubic scipyNorm hn ho ha ⟨1, by simp; omega, 2, by simp; omega, ?_⟩
  rw [ha 1 le_rfl (by omega), ha 2 (by norm_num) (by omega)]
  norm_num
  rw [abs_of_neg (h1.trans h2), abs_of_neg h2]
  exact ⟨(h1.trans h2).ne, h2.ne, fun h => by linarith⟩

/-! ### Martinez-Iglewicz -/

/-- **C117**, partial: when no observation is further from the median than nine median absolute
deviations, the Martinez-Iglewicz statistic is the mean square deviation from the median over the
biweight variance. -/
theorem C117_martinezIglewicz_partial (lib : NormLib) {xs : List ℝ} (hn : 3 < xs.length) {o d : ℕ → ℝ}
    (ho : OrderStats xs o) {m s : ℝ} (hm : m = medianOf xs.length o)
    (hd : OrderStats (xs.map fun x => |x - m|) d) (hs : s = 9 * medianOf xs.length d)
    (hin : ∀ x ∈ xs, |x - m| < s) :
    NormStat.value lib .martinezIglewicz xs = .ok (some
      ((xs.map fun x => (x - m) ^ 2).sum / ((xs.length : ℝ) - 1) / biweightVariance m s xs)) := by
  have hnil : xs ≠ [] := by rintro rfl; simp at hn
  have hmad : median (sort (xs.map fun x => |x - m|)) = medianOf xs.length d := by
    have := median_spec (xs := xs.map fun x => |x - m|) (by simpa using hnil) hd
    rwa [List.length_map] at this
  have hw : ∀ x ∈ xs, biweight ((x - m) / s) = 1 - ((x - m) / s) ^ 2 := by
    intro x hx
    have h1 := hin x hx
    have hs0 : 0 < s := lt_of_le_of_lt (abs_nonneg _) h1
    rw [biweight, if_pos (by rw [abs_div, abs_of_pos hs0, div_lt_one hs0]; exact h1)]
  have e1 : (xs.map fun x => (x - m) ^ 2 * (1 - ((x - m) / s) ^ 2) ^ 4) =
      xs.map fun x => (x - m) ^ 2 * biweight ((x - m) / s) ^ 4 :=
    List.map_congr_left fun x hx => by rw [hw x hx]
  have e2 : (xs.map fun x => (1 - ((x - m) / s) ^ 2) * (1 - 5 * ((x - m) / s) ^ 2)) =
      xs.map fun x => biweight ((x - m) / s) * (1 - 5 * ((x - m) / s) ^ 2) :=
    List.map_congr_left fun x hx => by rw [hw x hx]
  simp only [NormStat.value, guarded, if_pos hn, Except.map, Normal.martinezIglewicz,
    median_spec hnil ho, ← hm, List.map_map, Function.comp_def]
  rw [hmad, ← hs, e1, e2, biweightVariance]

/-- Order statistics of a sorted list. -/
theorem orderStats_sorted {l : List ℝ} (h : l.Pairwise (· ≤ ·)) :
    OrderStats l fun i => at_ l (i - 1) := by
  obtain ⟨o, ho⟩ := exists_orderStats l
  intro i h1 h2
  have e := at_sort_orderStats ho (i := i - 1) (by omega)
  have hs : sort l = l := by
    refine List.Perm.eq_of_pairwise (le := fun a b : ℝ => a ≤ b) ?_ (sort_pairwise l) h (sort_perm l)
    intro a b _ _ hab hba
    exact le_antisymm hab hba
  rw [hs, Nat.sub_add_cancel h1] at e
  change IsOrderStat l i (at_ l (i - 1))
  rw [e]
  exact ho i h1 h2

theorem orderStats_perm {l l' : List ℝ} {o : ℕ → ℝ} (h : l.Perm l') (ho : OrderStats l' o) :
    OrderStats l o := by
  intro i h1 h2
  obtain ⟨a, b, c⟩ := ho i h1 (h.length_eq ▸ h2)
  exact ⟨h.mem_iff.2 a, by rwa [h.countP_eq], by rwa [h.countP_eq]⟩

/-- **C117** is false of the code of the Martinez-Iglewicz statistic: it does not leave out the
observations further than nine median absolute deviations from the median. -/
theorem C117_refuted_martinezIglewicz (lib : NormLib) :
    ∃ xs : List ℝ, ∃ o d : ℕ → ℝ, ∃ m s : ℝ, 3 < xs.length ∧ OrderStats xs o ∧
      m = medianOf xs.length o ∧ OrderStats (xs.map fun x => |x - m|) d ∧
      s = 9 * medianOf xs.length d ∧ 0 < s ∧
      NormStat.value lib .martinezIglewicz xs ≠ .ok (some
        ((xs.map fun x => (x - m) ^ 2).sum / ((xs.length : ℝ) - 1) / biweightVariance m s xs)) := by
  have p1 : ([-2, -1, 0, 1, 100] : List ℝ).Pairwise (· ≤ ·) := by norm_num
  have p2 : ([0, 1, 1, 2, 100] : List ℝ).Pairwise (· ≤ ·) := by norm_num
  have ho := orderStats_sorted p1
  have hperm : (([-2, -1, 0, 1, 100] : List ℝ).map fun x => |x - 0|).Perm [0, 1, 1, 2, 100] := by
    have : (([-2, -1, 0, 1, 100] : List ℝ).map fun x => |x - 0|) = [2, 1, 0, 1, 100] := by
      norm_num [abs_of_neg]
    rw [this]
    refine (List.Perm.swap 1 2 _).trans ?_
    refine ((List.Perm.swap 0 2 _).cons 1).trans ?_
    refine (List.Perm.swap 0 1 _).trans ?_
    exact ((List.Perm.swap 1 2 _).cons 1).cons 0
  have hd := orderStats_perm hperm (orderStats_sorted p2)
  have hm : medianOf 5 (fun i => at_ ([-2, -1, 0, 1, 100] : List ℝ) (i - 1)) = 0 := by
    norm_num [medianOf, at_]
  have hd' : medianOf 5 (fun i => at_ ([0, 1, 1, 2, 100] : List ℝ) (i - 1)) = 1 := by
    norm_num [medianOf, at_]
  refine ⟨[-2, -1, 0, 1, 100], _, _, 0, 9, by norm_num, ho, ?_, hd, ?_, by norm_num, ?_⟩
  · exact hm.symm
  · change (9 : ℝ) = 9 * medianOf 5 _
    rw [hd']; norm_num
  · have h5 : ([-2, -1, 0, 1, 100] : List ℝ) ≠ [] := by simp
    have hmad : median (sort (([-2, -1, 0, 1, 100] : List ℝ).map fun x => |x - 0|)) = 1 := by
      rw [median_spec (by simp) hd]
      exact hd'
    have hmed : median (sort ([-2, -1, 0, 1, 100] : List ℝ)) = 0 := by
      rw [median_spec (by simp) ho]
      exact hm
    simp only [NormStat.value, guarded, if_pos (show 3 < ([-2, -1, 0, 1, 100] : List ℝ).length by simp),
      Except.map, Normal.martinezIglewicz, hmed, List.map_map, Function.comp_def]
    rw [hmad]
    intro h
    have h := Option.some.inj (Except.ok.inj h)
    revert h
    simp only [biweightVariance, biweight, List.map_cons, List.map_nil, List.sum_cons, List.sum_nil,
      List.length_cons, List.length_nil]
    norm_num [abs_of_neg, abs_of_pos]

/-! ### Hermite moments -/

theorem hermite_values (x : ℝ) :
    (Polynomial.aeval x (Polynomial.hermite 3) : ℝ) = he3 x ∧
    (Polynomial.aeval x (Polynomial.hermite 4) : ℝ) = he4 x ∧
    (Polynomial.aeval x (Polynomial.hermite 5) : ℝ) = he5 x ∧
    (Polynomial.aeval x (Polynomial.hermite 6) : ℝ) = he6 x ∧
    (Polynomial.aeval x (Polynomial.hermite 7) : ℝ) = he7 x ∧
    (Polynomial.aeval x (Polynomial.hermite 8) : ℝ) = he8 x := by
  refine ⟨?_, ?_, ?_, ?_, ?_, ?_⟩ <;>
  · simp only [Polynomial.hermite_succ, Polynomial.hermite_zero, he3, he4, he5, he6, he7, he8]
    simp
    ring

theorem sum_map_quot (f : ℝ → ℝ) (c : ℝ) : ∀ l : List ℝ, (l.map fun x => f x / c).sum = (l.map f).sum / c
  | [] => by simp
  | a :: l => by simp [sum_map_quot f c l, add_div]

theorem hermite_sum {xs : List ℝ} (h : xs ≠ []) {k : ℕ} {f : ℝ → ℝ} {c s : ℝ}
    (hf : ∀ x, (Polynomial.aeval x (Polynomial.hermite k) : ℝ) = f x) (hs : s = stdDev1 xs)
    (hc : c ^ 2 = (k.factorial : ℝ)) :
    ((xs.map fun x => (x - mean xs) / s).map fun v => f v / c).sum ^ 2 / xs.length =
      xs.length * (hermiteMean k xs ^ 2 / (k.factorial : ℝ)) := by
  have hn : (xs.length : ℝ) ≠ 0 := by
    have := List.length_pos_iff.2 h
    positivity
  have e : ((xs.map fun x => (x - mean xs) / s).map fun v => f v / c).sum =
      xs.length * hermiteMean k xs / c := by
    rw [List.map_map, hermiteMean, meanOf, mul_div_cancel₀ _ hn, mean_spec, hs]
    simp only [Function.comp_def, hf]
    rw [sum_map_quot]
  rw [e, ← hc]
  field_simp

/-- **C117**: the Bontemps-Meddahi statistics are the sums of the squared normalised Hermite moments of
the orders three and four, and of the orders three to six. -/
theorem C117_bontempsMeddahi (lib : NormLib) {xs : List ℝ} (hn : 3 < xs.length) :
    NormStat.value lib .bontempsMeddahi1 xs = .ok (some (xs.length *
      ∑ k ∈ Finset.Icc 3 4, hermiteMean k xs ^ 2 / (k.factorial : ℝ))) ∧
    NormStat.value lib .bontempsMeddahi2 xs = .ok (some (xs.length *
      ∑ k ∈ Finset.Icc 3 6, hermiteMean k xs ^ 2 / (k.factorial : ℝ))) := by
  have hnil : xs ≠ [] := by rintro rfl; simp at hn
  have q : ∀ a b : ℝ, 0 ≤ b → (a * √b) ^ 2 = a ^ 2 * b := fun a b hb => by
    rw [mul_pow, Real.sq_sqrt hb]
  have c3 : (√6 : ℝ) ^ 2 = ((3).factorial : ℝ) := by
    rw [Real.sq_sqrt (by norm_num)]; norm_num [Nat.factorial]
  have c4 : (2 * √6 : ℝ) ^ 2 = ((4).factorial : ℝ) := by
    rw [q _ _ (by norm_num)]; norm_num [Nat.factorial]
  have c5 : (2 * √30 : ℝ) ^ 2 = ((5).factorial : ℝ) := by
    rw [q _ _ (by norm_num)]; norm_num [Nat.factorial]
  have c6 : (12 * √5 : ℝ) ^ 2 = ((6).factorial : ℝ) := by
    rw [q _ _ (by norm_num)]; norm_num [Nat.factorial]
  have hsd : sd1 xs = stdDev1 xs := by rw [sd1, var1, stdDev1, mean_spec]
  constructor
  · simp only [NormStat.value, guarded, if_pos hn, Except.map, Normal.bontempsMeddahi1]
    rw [add_div, hermite_sum hnil (fun x => (hermite_values x).1) (var1'_spec hnil) c3,
      hermite_sum hnil (fun x => (hermite_values x).2.1) (var1'_spec hnil) c4,
      show Finset.Icc 3 4 = {3, 4} from rfl, Finset.sum_pair (by norm_num), mul_add]
  · simp only [NormStat.value, guarded, if_pos hn, Except.map, Normal.bontempsMeddahi2, standardised]
    rw [add_div, add_div, add_div, hermite_sum hnil (fun x => (hermite_values x).1) hsd c3,
      hermite_sum hnil (fun x => (hermite_values x).2.1) hsd c4,
      hermite_sum hnil (fun x => (hermite_values x).2.2.1) hsd c5,
      hermite_sum hnil (fun x => (hermite_values x).2.2.2.1) hsd c6,
      show Finset.Icc 3 6 = {3, 4, 5, 6} from rfl, Finset.sum_insert (by decide),
      Finset.sum_insert (by decide), Finset.sum_pair (by norm_num)]
    congr 2
    ring

/-! ### Spiegelhalter -/

theorem npMax_orderStats {xs : List ℝ} (h : xs ≠ []) {o : ℕ → ℝ} (ho : OrderStats xs o) :
    npMax xs = .ok (o xs.length) ∧ pyMin xs = .ok (o 1) := by
  have hl := List.length_pos_iff.2 h
  have hmem : ∀ x ∈ xs, ∃ i, 1 ≤ i ∧ i ≤ xs.length ∧ o i = x := by
    intro x hx
    obtain ⟨j, hj, hjx⟩ := List.getElem_of_mem ((sort_perm xs).mem_iff.2 hx)
    rw [length_sort] at hj
    refine ⟨j + 1, by omega, hj, ?_⟩
    rw [← at_sort_orderStats ho hj, at_, List.getD_eq_getElem _ _ (by rw [length_sort]; exact hj), hjx]
  constructor
  · rw [npMax_eq_ok]
    refine ⟨(ho _ hl le_rfl).1, fun x hx => ?_⟩
    obtain ⟨i, h1, h2, rfl⟩ := hmem x hx
    exact orderStats_mono ho h1 h2 le_rfl
  · rw [pyMin_eq_ok]
    refine ⟨(ho 1 le_rfl hl).1, fun x hx => ?_⟩
    obtain ⟨i, h1, h2, rfl⟩ := hmem x hx
    exact orderStats_mono ho le_rfl h1 h2

theorem stirling_const {n : ℕ} (hn : 2 ≤ n) :
    (2 * Real.pi) ^ (1 / (2 * ((n : ℝ) - 1))) * ((n * √n) / Real.exp 1) ^ (1 / ((n : ℝ) - 1)) /
      (2 * Real.exp 1) = stirling n ^ (1 / ((n : ℝ) - 1)) / (2 * n) := by
  have hn' : (2 : ℝ) ≤ n := by exact_mod_cast hn
  have hn0 : (0 : ℝ) < n := by linarith
  have hm : (n : ℝ) - 1 ≠ 0 := by linarith
  have hpi := Real.pi_pos
  have he := Real.exp_pos 1
  have e1 : stirling n = √(2 * Real.pi) * ((n * √n) / Real.exp 1) *
      (n / Real.exp 1) ^ ((n : ℝ) - 1) := by
    unfold stirling
    rw [Real.rpow_sub_one (by positivity), Real.rpow_natCast, Real.sqrt_mul (by positivity)]
    field_simp
  have e2 : √(2 * Real.pi) ^ (1 / ((n : ℝ) - 1)) = (2 * Real.pi) ^ (1 / (2 * ((n : ℝ) - 1))) := by
    rw [Real.sqrt_eq_rpow, ← Real.rpow_mul (by positivity)]
    congr 1
    field_simp
  rw [e1, Real.mul_rpow (x := _ * _) (by positivity) (by positivity),
    Real.mul_rpow (x := √(2 * Real.pi)) (by positivity) (by positivity), e2,
    ← Real.rpow_mul (by positivity), mul_one_div_cancel hm, Real.rpow_one]
  field_simp

/-- **C117**: Spiegelhalter's statistic combines the range and the mean deviation, both over the standard
deviation; from 150 observations on `n!` is taken from Stirling's formula. -/
theorem C117_spiegelhalter (lib : NormLib) {xs : List ℝ} (hn : 3 < xs.length) {o : ℕ → ℝ}
    (ho : OrderStats xs o) :
    NormStat.value lib .spiegelhalter xs = .ok (some (spiegelhalterStat xs.length
      (if xs.length < 150 then (xs.length.factorial : ℝ) else stirling xs.length)
      (o xs.length - o 1) (absDeviation (meanOf id xs) xs) (stdDev1 xs))) := by
  have hnil : xs ≠ [] := by rintro rfl; simp at hn
  obtain ⟨h1, h2⟩ := npMax_orderStats hnil ho
  have hn' : (4 : ℝ) ≤ xs.length := by exact_mod_cast hn
  have hsd : √(var1 xs) = stdDev1 xs := by rw [var1, stdDev1, mean_spec]
  have hg : (xs.map fun x => |x - mean xs|).sum / (stdDev1 xs * √(xs.length : ℝ) * √((xs.length : ℝ) - 1)) =
      √(xs.length : ℝ) / √((xs.length : ℝ) - 1) * (absDeviation (meanOf id xs) xs / stdDev1 xs) := by
    rw [absDeviation, meanOf, ← mean_spec]
    have a : 0 < √((xs.length : ℝ)) := Real.sqrt_pos.2 (by linarith)
    have c : √((xs.length : ℝ)) ^ 2 = xs.length := Real.sq_sqrt (by linarith)
    generalize √((xs.length : ℝ) - 1) = r' at *
    generalize (xs.map fun x => |x - mean xs|).sum = S
    generalize √((xs.length : ℝ)) = r at *
    rw [← c]
    field_simp
  have hc : (if xs.length < 150 then 0.5 * Real.Gamma ((xs.length : ℝ) + 1) ^ (1 / ((xs.length : ℝ) - 1)) /
      xs.length else (2 * Real.pi) ^ (1 / (2 * ((xs.length : ℝ) - 1))) *
        ((xs.length * √(xs.length : ℝ)) / Real.exp 1) ^ (1 / ((xs.length : ℝ) - 1)) / (2 * Real.exp 1)) =
      (if xs.length < 150 then (xs.length.factorial : ℝ) else stirling xs.length) ^
        (1 / ((xs.length : ℝ) - 1)) / (2 * xs.length) := by
    split_ifs
    · rw [Real.Gamma_nat_eq_factorial]
      ring
    · exact stirling_const (by omega)
  simp only [NormStat.value, guarded, if_pos hn, Normal.spiegelhalter, h1, h2]
  simp only [bind, Except.bind, pure, Except.pure, Except.map]
  rw [hsd, hg, hc]
  rfl

theorem stirlingSeq_le {n : ℕ} (hn : n ≠ 0) :
    Stirling.stirlingSeq n ≤ √Real.pi * Real.exp (1 / (12 * n)) := by
  have hpos : ∀ k : ℕ, k ≠ 0 → 0 < Stirling.stirlingSeq k := fun k hk => by
    obtain ⟨j, rfl⟩ := Nat.exists_eq_succ_of_ne_zero hk
    exact Stirling.stirlingSeq'_pos j
  have step : ∀ k : ℕ, Real.log (Stirling.stirlingSeq n) - Real.log (Stirling.stirlingSeq (n + k)) ≤
      1 / (12 * n) := by
    have h : ∀ k : ℕ, Real.log (Stirling.stirlingSeq n) - Real.log (Stirling.stirlingSeq (n + k)) ≤
        1 / (12 * n) - 1 / (12 * ((n + k : ℕ) : ℝ)) := by
      intro k
      induction k with
      | zero => simp
      | succ k ih =>
        have h1 := Stirling.log_stirlingSeq_sdiff_le (n + k)
        have h0 : (0 : ℝ) < ((n + k : ℕ) : ℝ) := by exact_mod_cast (by omega : 0 < n + k)
        have e : 1 / (12 * ((n + k : ℕ) : ℝ) * (((n + k : ℕ) : ℝ) + 1)) =
            1 / (12 * ((n + k : ℕ) : ℝ)) - 1 / (12 * (((n + k : ℕ) : ℝ) + 1)) := by
          field_simp; ring
        rw [e] at h1
        rw [show n + (k + 1) = n + k + 1 by ring]
        push_cast at *
        linarith
    intro k
    have := h k
    have : (0 : ℝ) ≤ 1 / (12 * ((n + k : ℕ) : ℝ)) := by positivity
    linarith [h k]
  have hlim : Filter.Tendsto (fun k => Stirling.stirlingSeq (n + k) * Real.exp (1 / (12 * n)))
      Filter.atTop (nhds (√Real.pi * Real.exp (1 / (12 * n)))) := by
    refine Filter.Tendsto.mul_const _ ?_
    have := (Filter.tendsto_add_atTop_iff_nat n).2 Stirling.tendsto_stirlingSeq_sqrt_pi
    simpa [add_comm] using this
  refine ge_of_tendsto' hlim fun k => ?_
  have h1 := step k
  have p1 := hpos n hn
  have p2 := hpos (n + k) (by omega)
  rw [← Real.log_le_log_iff p1 (by positivity), Real.log_mul p2.ne' (Real.exp_pos _).ne', Real.log_exp]
  linarith

/-- **C117**: the constant of Spiegelhalter's statistic taken from Stirling's formula is below the exact
one, by a factor of at most `exp (1 / (12 n (n - 1)))`. -/
theorem C117_spiegelhalter_constant {n : ℕ} (hn : 2 ≤ n) :
    stirling n ^ (1 / ((n : ℝ) - 1)) / (2 * n) ≤ (n.factorial : ℝ) ^ (1 / ((n : ℝ) - 1)) / (2 * n) ∧
    (n.factorial : ℝ) ^ (1 / ((n : ℝ) - 1)) / (2 * n) ≤
      stirling n ^ (1 / ((n : ℝ) - 1)) / (2 * n) * Real.exp (1 / (12 * n * ((n : ℝ) - 1))) := by
  have hn' : (2 : ℝ) ≤ n := by exact_mod_cast hn
  have hm : (0 : ℝ) < (n : ℝ) - 1 := by linarith
  have hpi := Real.pi_pos
  have hs : 0 < stirling n := by unfold stirling; positivity
  have hup : (n.factorial : ℝ) ≤ stirling n * Real.exp (1 / (12 * n)) := by
    have h := stirlingSeq_le (n := n) (by omega)
    rw [Stirling.stirlingSeq, div_le_iff₀ (by positivity)] at h
    refine h.trans (le_of_eq ?_)
    unfold stirling
    rw [show 2 * Real.pi * n = Real.pi * (2 * n) by ring, Real.sqrt_mul hpi.le]
    ring
  constructor
  · refine div_le_div_of_nonneg_right ?_ (by positivity)
    exact Real.rpow_le_rpow hs.le (Stirling.le_factorial_stirling n) (by positivity)
  · rw [div_mul_eq_mul_div]
    refine div_le_div_of_nonneg_right ?_ (by positivity)
    refine (Real.rpow_le_rpow (by positivity) hup (by positivity)).trans (le_of_eq ?_)
    rw [Real.mul_rpow hs.le (Real.exp_pos _).le, ← Real.exp_mul]
    congr 2
    field_simp

/-! ### The hypotheses hold of concrete samples -/

theorem PhiInv_neg {p : ℝ} (h0 : 0 < p) (h1 : p < 1 / 2) : PhiInv p < 0 := by
  have e : Phi 0 = 1 / 2 := by
    have := Phi_neg 0
    rw [neg_zero] at this
    linarith
  refine Phi_strictMono.lt_iff_lt.1 ?_
  rw [Phi_PhiInv h0 (by linarith), e]
  exact h1

theorem PhiInv_lt {p q : ℝ} (h0 : 0 < p) (h1 : p < q) (h2 : q < 1) : PhiInv p < PhiInv q := by
  refine Phi_strictMono.lt_iff_lt.1 ?_
  rwa [Phi_PhiInv h0 (by linarith), Phi_PhiInv (by linarith) h2]

/-- Four observations and their scores. -/
example : ∃ xs : List ℝ, ∃ o a : ℕ → ℝ, 3 < xs.length ∧ OrderStats xs o ∧
    ∀ i, 1 ≤ i → i ≤ xs.length → a i = coinA scipyNorm xs.length (i - 1) := by
  obtain ⟨o, ho⟩ := exists_orderStats [0, 1, 2, 4]
  exact ⟨[0, 1, 2, 4], o, fun i => coinA scipyNorm 4 (i - 1), by simp, ho, fun i _ _ => rfl⟩

/-- Eight observations, their order statistics and their normal scores. -/
example : ∃ xs : List ℝ, ∃ o z : ℕ → ℝ, 8 ≤ xs.length ∧ OrderStats xs o ∧
    NormalScores xs.length (position (3 / 8) xs.length) z := by
  obtain ⟨o, ho⟩ := exists_orderStats [3, 1, 4, 1, 5, 9, 2, 6]
  exact ⟨_, o, _, by simp, ho, exists_scores fun i h1 h2 => position_mem (by norm_num) h1 h2⟩

/-- Observations within nine median absolute deviations. -/
example : ∃ xs : List ℝ, ∃ o d : ℕ → ℝ, ∃ m s : ℝ, 3 < xs.length ∧ OrderStats xs o ∧
    m = medianOf xs.length o ∧ OrderStats (xs.map fun x => |x - m|) d ∧ s = 9 * medianOf xs.length d ∧
    ∀ x ∈ xs, |x - m| < s := by
  have p1 : ([-2, -1, 0, 1, 3] : List ℝ).Pairwise (· ≤ ·) := by norm_num
  have p2 : ([0, 1, 1, 2, 3] : List ℝ).Pairwise (· ≤ ·) := by norm_num
  have hperm : (([-2, -1, 0, 1, 3] : List ℝ).map fun x => |x - 0|).Perm [0, 1, 1, 2, 3] := by
    have : (([-2, -1, 0, 1, 3] : List ℝ).map fun x => |x - 0|) = [2, 1, 0, 1, 3] := by
      norm_num [abs_of_neg]
    rw [this]
    refine (List.Perm.swap 1 2 _).trans ?_
    refine ((List.Perm.swap 0 2 _).cons 1).trans ?_
    refine (List.Perm.swap 0 1 _).trans ?_
    exact ((List.Perm.swap 1 2 _).cons 1).cons 0
  refine ⟨[-2, -1, 0, 1, 3], _, _, 0, 9, by norm_num, orderStats_sorted p1, ?_,
    orderStats_perm hperm (orderStats_sorted p2), ?_, ?_⟩
  · norm_num [medianOf, at_]
  · norm_num [medianOf, at_]
  · norm_num [abs_of_neg]

end Pysatl.Props
