import Verif.Spec.Plotting
import Verif.Props.TotalTime

/-! # C108: statistics of plotting positions -/

namespace Pysatl.Props

open Pysatl.Decision Pysatl.Graph Pysatl.Edf Pysatl.Exponent Pysatl.Spec Pysatl.Expon
open MeasureTheory ProbabilityTheory

theorem sum_mapIdx_at (f : ℕ → ℝ → ℝ) (l : List ℝ) :
    (l.mapIdx f).sum = ∑ i ∈ Finset.range l.length, f i (at_ l i) := by
  induction l generalizing f with
  | nil => rfl
  | cons a l ih =>
    rw [List.mapIdx_cons, List.sum_cons, List.length_cons, Finset.sum_range_succ', ih, add_comm]
    rfl

theorem at_sort_orderStats {xs : List ℝ} {o : ℕ → ℝ} (ho : OrderStats xs o) {i : ℕ} (hi : i < xs.length) :
    at_ (sort xs) i = o (i + 1) :=
  (orderStat_eq (ho (i + 1) (by omega) hi)).1

/-- Sums over the sorted sample are sums over the order statistics. -/
theorem sum_mapIdx_sort {xs : List ℝ} {o : ℕ → ℝ} (ho : OrderStats xs o) (f : ℕ → ℝ → ℝ) :
    ((sort xs).mapIdx f).sum = ∑ i ∈ Finset.Icc (1 : ℕ) xs.length, f (i - 1) (o i) := by
  have h := Finset.sum_Ico_add' (fun i => f (i - 1) (o i)) 0 xs.length 1
  rw [zero_add] at h
  rw [sum_mapIdx_at, (sort_perm xs).length_eq, Finset.range_eq_Ico,
    show Finset.Icc 1 xs.length = Finset.Ico 1 (xs.length + 1) from rfl, ← h]
  refine Finset.sum_congr rfl fun i hi => ?_
  rw [at_sort_orderStats ho (Finset.mem_Ico.1 hi).2, Nat.add_sub_cancel]

/-- Every sample has order statistics. -/
theorem exists_orderStats (xs : List ℝ) : ∃ o, OrderStats xs o := by
  refine ⟨fun i => at_ (sort xs) (i - 1), fun i h1 h2 => ?_⟩
  have hl : i - 1 < (sort xs).length := by rw [(sort_perm xs).length_eq]; omega
  have hat : at_ (sort xs) (i - 1) = (sort xs)[i - 1] := by
    rw [at_, List.getD_eq_getElem _ _ hl]
  have hpw := sort_pairwise xs
  rw [List.pairwise_iff_getElem] at hpw
  refine ⟨?_, ?_, ?_⟩
  · simp only [hat]
    exact (sort_perm xs).mem_iff.1 (List.getElem_mem _)
  · rw [← (sort_perm xs).countP_eq, ← List.take_append_drop (i - 1) (sort xs), List.countP_append]
    have hd : ((sort xs).drop (i - 1)).countP
        (fun x => decide (x < at_ (sort xs) (i - 1))) = 0 := by
      rw [List.countP_eq_zero]
      intro x hx
      obtain ⟨j, hj, rfl⟩ := List.getElem_of_mem hx
      rw [List.getElem_drop, decide_eq_true_eq, not_lt, hat]
      rcases Nat.eq_zero_or_pos j with rfl | h0
      · rfl
      · exact hpw _ _ hl (by simp at hj; omega) (by omega)
    rw [List.take_append_drop]
    show List.countP (fun x => decide (x < at_ (sort xs) (i - 1))) _ +
      List.countP (fun x => decide (x < at_ (sort xs) (i - 1))) _ < i
    rw [hd]
    have := List.countP_le_length (p := fun x => decide (x < at_ (sort xs) (i - 1)))
      (l := (sort xs).take (i - 1))
    rw [List.length_take] at this
    omega
  · rw [← (sort_perm xs).countP_eq]
    have ht : ((sort xs).take i).countP (fun x => decide (x ≤ at_ (sort xs) (i - 1))) = i := by
      rw [List.countP_eq_length.2, List.length_take, min_eq_left (by omega)]
      intro x hx
      obtain ⟨j, hj, rfl⟩ := List.getElem_of_mem hx
      rw [List.getElem_take, decide_eq_true_eq, hat]
      rw [List.length_take] at hj
      rcases Nat.lt_or_ge j (i - 1) with h | h
      · exact hpw _ _ (by omega) hl h
      · have : j = i - 1 := by omega
        subst this; rfl
    calc i = _ := ht.symm
      _ ≤ _ := (List.take_sublist i (sort xs)).countP_le

theorem fittedExp_eq {xs : List ℝ} (hne : xs ≠ []) (hpos : ∀ x ∈ xs, 0 < x) {x : ℝ} (hx : x ∈ xs) :
    fittedExp xs x = 1 - Real.exp (-(x / mean (sort xs))) := by
  have hs := sum_pos' hne hpos
  have hl := len_pos hne
  rw [fittedExp, cdf_expMeasure_eq (div_pos hl hs), if_pos (hpos x hx).le, mean_perm (sort_perm xs), mean]
  congr 3
  field_simp

/-- **C108**, Frozini. -/
theorem C108_frozini {xs : List ℝ} (hne : xs ≠ []) (hpos : ∀ x ∈ xs, 0 < x) {o : ℕ → ℝ}
    (ho : OrderStats xs o) :
    ExpStat.value .frozini xs = .ok (1 / √xs.length *
      ∑ i ∈ Finset.Icc (1 : ℕ) xs.length, |fittedExp xs (o i) - ((i : ℝ) - 1 / 2) / xs.length|) := by
  simp only [ExpStat.value, Exponent.frozini]
  rw [sum_mapIdx_sort ho]
  congr 2
  refine Finset.sum_congr rfl fun i hi => ?_
  obtain ⟨h1, h2⟩ := Finset.mem_Icc.1 hi
  rw [fittedExp_eq hne hpos (ho i h1 h2).1, Nat.cast_sub h1, neg_div]
  congr 3
  push_cast; ring

/-- **C108**, Kimber and Michael: the largest distance on the stabilised probability plot. -/
theorem C108_kimberMichael {xs : List ℝ} (hne : xs ≠ []) (hpos : ∀ x ∈ xs, 0 < x) {o : ℕ → ℝ}
    (ho : OrderStats xs o) :
    ∃ v, ExpStat.value .kimberMichael xs = .ok v ∧
      IsGreatest {d | ∃ i, 1 ≤ i ∧ i ≤ xs.length ∧
        d = |stabilise (((i : ℝ) - 1 / 2) / xs.length) - stabilise (fittedExp xs (o i))|} v := by
  have hl := len_pos hne
  have hne' : (sort xs).mapIdx (fun i v =>
      |2 / Real.pi * Real.arcsin √(((i : ℝ) + 1 - 1 / 2) / xs.length) -
      2 / Real.pi * Real.arcsin √(1 - Real.exp (-(v / mean (sort xs))))|) ≠ [] := by
    intro h
    have := congrArg List.length h
    rw [List.length_mapIdx, (sort_perm xs).length_eq] at this
    exact hne (List.length_eq_zero_iff.1 this)
  obtain ⟨m, hm⟩ := npMax_exists hne'
  refine ⟨m, hm, ?_⟩
  rw [npMax_eq_ok] at hm
  have key : ∀ i (hi : i < (sort xs).length),
      |2 / Real.pi * Real.arcsin √(((i : ℝ) + 1 - 1 / 2) / xs.length) -
        2 / Real.pi * Real.arcsin √(1 - Real.exp (-((sort xs)[i] / mean (sort xs))))| =
      |stabilise ((((i + 1 : ℕ) : ℝ) - 1 / 2) / xs.length) - stabilise (fittedExp xs (o (i + 1)))| := by
    intro i hi
    have hi' : i < xs.length := by rwa [(sort_perm xs).length_eq] at hi
    rw [fittedExp_eq hne hpos (ho (i + 1) (by omega) hi').1, ← at_sort_orderStats ho hi', at_,
      List.getD_eq_getElem _ _ hi]
    push_cast
    rfl
  constructor
  · obtain ⟨i, hi, h⟩ := List.mem_mapIdx.1 hm.1
    refine ⟨i + 1, by omega, by rw [(sort_perm xs).length_eq] at hi; omega, ?_⟩
    rw [← h, key i hi]
  · rintro d ⟨i, h1, h2, rfl⟩
    have hi : i - 1 < (sort xs).length := by rw [(sort_perm xs).length_eq]; omega
    have := key (i - 1) hi
    rw [Nat.sub_add_cancel h1] at this
    rw [← this]
    exact hm.2 _ (List.mem_mapIdx.2 ⟨i - 1, hi, rfl⟩)

/-- **C108**, Kochar. -/
theorem C108_kochar (xs : List ℝ) {o : ℕ → ℝ} (ho : OrderStats xs o) :
    ExpStat.value .kochar xs = .ok (√(108 * xs.length / 17) *
      (∑ i ∈ Finset.Icc (1 : ℕ) xs.length, kocharJ ((i : ℝ) / (xs.length + 1)) * o i) / xs.sum) := by
  simp only [ExpStat.value, Exponent.kochar]
  rw [sum_mapIdx_sort ho, (sort_perm xs).sum_eq]
  congr 3
  refine Finset.sum_congr rfl fun i hi => ?_
  obtain ⟨h1, h2⟩ := Finset.mem_Icc.1 hi
  simp only [kocharScore, kocharJ]
  rw [Nat.cast_sub h1]
  push_cast
  rw [sub_add_cancel]

/-- The score function is orthogonal to the quantile function of every exponential law: Kochar's
statistic is centred. -/
theorem C108_kochar_centred {r : ℝ} (hr : 0 < r) :
    ∫ x, kocharJ (cdf (expMeasure r) x) * x ∂expMeasure r = 0 := by
  have e : ∀ x ∈ Set.Ioi (0 : ℝ), kocharJ (cdf (expMeasure r) x) * x * (r * Real.exp (-(r * x))) =
      2 * r * (x ^ ((2 : ℝ) - 1) * Real.exp (-(2 * r * x))) +
        2 * r ^ 2 * (x ^ ((3 : ℝ) - 1) * Real.exp (-(2 * r * x))) -
        r * (x ^ ((2 : ℝ) - 1) * Real.exp (-(r * x))) := by
    intro x hx
    rw [cdf_expMeasure_eq hr, if_pos (le_of_lt hx), kocharJ, sub_sub_cancel, Real.log_exp,
      show (2 : ℝ) - 1 = 1 by norm_num, show (3 : ℝ) - 1 = (2 : ℕ) by norm_num, Real.rpow_one,
      Real.rpow_natCast, show -(2 * r * x) = -(r * x) + -(r * x) by ring, Real.exp_add]
    ring
  have h2r : 0 < 2 * r := by linarith
  have i1 := Real.integral_rpow_mul_exp_neg_mul_Ioi (a := 2) (r := 2 * r) (by norm_num) h2r
  have i2 := Real.integral_rpow_mul_exp_neg_mul_Ioi (a := 3) (r := 2 * r) (by norm_num) h2r
  have i3 := Real.integral_rpow_mul_exp_neg_mul_Ioi (a := 2) (r := r) (by norm_num) hr
  have g2 : Real.Gamma 2 = 1 := Real.Gamma_two
  have g3 : Real.Gamma 3 = 2 := by
    rw [show (3 : ℝ) = 2 + 1 by norm_num, Real.Gamma_add_one (by norm_num), g2]; norm_num
  rw [g2, Real.rpow_two] at i1 i3
  rw [g3, show (3 : ℝ) = (3 : ℕ) by norm_num, Real.rpow_natCast] at i2
  push_cast at i2
  have j1 := Integrable.of_integral_ne_zero (by rw [i1]; positivity)
  have j2 := Integrable.of_integral_ne_zero (by rw [i2]; positivity)
  have j3 := Integrable.of_integral_ne_zero (by rw [i3]; positivity)
  rw [integral_exp hr, setIntegral_congr_fun measurableSet_Ioi e,
    integral_sub (by exact (j1.const_mul _).add (j2.const_mul _)) (j3.const_mul _),
    integral_add (j1.const_mul _) (j2.const_mul _), integral_const_mul, integral_const_mul,
    integral_const_mul, i1, i2, i3]
  field_simp
  norm_num

theorem hgScore_eq {n : ℕ} {q : ℕ → ℝ} (hq : MeanRankQuantiles (expMeasure 1) n q) {i : ℕ} (h1 : 1 ≤ i)
    (h2 : i ≤ n) : hgScore n (i - 1) = q i := by
  have h := hq i h1 h2
  rw [cdf_expMeasure_eq one_pos] at h
  have hpos : (0 : ℝ) < (i : ℝ) / (n + 1) := by
    have : (1 : ℝ) ≤ i := by exact_mod_cast h1
    positivity
  split_ifs at h with h0
  · rw [hgScore, Nat.cast_sub h1]
    push_cast
    rw [sub_add_cancel, ← h, sub_sub_cancel, Real.log_exp]
    ring
  · linarith

/-- **C108**, Hegazy and Green: mean absolute distance of the order statistics from the quantiles of
the standard exponential law. -/
theorem C108_hegazyGreen1 {xs : List ℝ} (hne : xs ≠ []) {o q : ℕ → ℝ} (ho : OrderStats xs o)
    (hq : MeanRankQuantiles (expMeasure 1) xs.length q) :
    ExpStat.value .hegazyGreen1 xs =
      .ok ((∑ i ∈ Finset.Icc (1 : ℕ) xs.length, |o i - q i|) / xs.length) := by
  have hl : xs.length ≠ 0 := by simpa using hne
  simp only [ExpStat.value, Exponent.hegazyGreen1, if_neg hl]
  rw [sum_mapIdx_sort ho, inv_mul_eq_div]
  congr 2
  refine Finset.sum_congr rfl fun i hi => ?_
  obtain ⟨h1, h2⟩ := Finset.mem_Icc.1 hi
  rw [hgScore_eq hq h1 h2]

/-- **C108**, the second statistic of Hegazy and Green: mean squared distance. -/
theorem C108_hegazyGreen2 {xs : List ℝ} (hne : xs ≠ []) {o q : ℕ → ℝ} (ho : OrderStats xs o)
    (hq : MeanRankQuantiles (expMeasure 1) xs.length q) :
    ExpStat.value .hegazyGreen2 xs =
      .ok ((∑ i ∈ Finset.Icc (1 : ℕ) xs.length, (o i - q i) ^ 2) / xs.length) := by
  have hl : xs.length ≠ 0 := by simpa using hne
  simp only [ExpStat.value, Exponent.hegazyGreen2, if_neg hl]
  rw [sum_mapIdx_sort ho, inv_mul_eq_div]
  congr 2
  refine Finset.sum_congr rfl fun i hi => ?_
  obtain ⟨h1, h2⟩ := Finset.mem_Icc.1 hi
  rw [hgScore_eq hq h1 h2]

/-- **C108**, Shapiro and Wilk. -/
theorem C108_shapiroWilk {xs : List ℝ} (hne : xs ≠ []) {m : ℝ} (hm : IsLeast {x | x ∈ xs} m) :
    ExpStat.value .shapiroWilk xs = .ok (xs.length * (xs.sum / xs.length - m) ^ 2 /
      ((xs.length - 1) * (xs.map fun x => (x - xs.sum / xs.length) ^ 2).sum)) := by
  simp only [ExpStat.value, Exponent.shapiroWilk]
  have hp := sort_perm xs
  have hs := sort_pairwise xs
  have hmean := mean_perm hp
  have hsum := (hp.map fun v => (v - mean xs) ^ 2).sum_eq
  cases hx : sort xs with
  | nil => rw [hx] at hp; exact absurd hp.symm.eq_nil hne
  | cons a l =>
    rw [hx] at hmean hsum hs hp
    have ha : a = m := by
      refine le_antisymm ?_ (hm.2 (hp.mem_iff.1 (by simp)))
      rcases List.mem_cons.1 (hp.mem_iff.2 hm.1) with h | h
      · exact h.ge
      · exact (List.pairwise_cons.1 hs).1 _ h
    simp only [hmean, hsum]
    rw [ha]
    rfl

/-- The order statistics and the quantiles exist. -/
theorem exists_meanRankQuantiles (n : ℕ) : ∃ q, MeanRankQuantiles (expMeasure 1) n q := by
  refine ⟨fun i => -Real.log (1 - (i : ℝ) / (n + 1)), fun i h1 h2 => ?_⟩
  have hi : (i : ℝ) ≤ n := by exact_mod_cast h2
  have hn : (0 : ℝ) < n + 1 := by positivity
  have hlt : (i : ℝ) / (n + 1) < 1 := by rw [div_lt_one hn]; linarith
  have h0 : 0 ≤ (i : ℝ) / (n + 1) := by positivity
  rw [cdf_expMeasure_eq one_pos, if_pos, one_mul, neg_neg, Real.exp_log (by linarith), sub_sub_cancel]
  have := Real.log_nonpos (x := 1 - (i : ℝ) / (n + 1)) (by linarith) (by linarith)
  linarith

/-- Non-vacuity, with ties. -/
example : ([3, 1, 3, 2] : List ℝ) ≠ [] ∧ (∀ x ∈ ([3, 1, 3, 2] : List ℝ), 0 < x) ∧
    (∃ o, OrderStats [3, 1, 3, 2] o) ∧ (∃ q, MeanRankQuantiles (expMeasure 1) 4 q) ∧
    IsLeast {x | x ∈ ([3, 1, 3, 2] : List ℝ)} 1 := by
  refine ⟨by simp, by simp, exists_orderStats _, exists_meanRankQuantiles 4, by simp, ?_⟩
  intro x hx
  simp at hx
  rcases hx with rfl | rfl | rfl | rfl <;> norm_num

end Pysatl.Props
