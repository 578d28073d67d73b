import Verif.Props.NormalPlot
import Verif.Props.Normal

/-! # C114: the Shapiro-Wilk statistic -/

namespace Pysatl.Props

open Pysatl.Decision Pysatl.Graph Pysatl.Edf Pysatl.Exponent Pysatl.Spec Pysatl.Normal
open MeasureTheory ProbabilityTheory

/-! ### Shapiro-Wilk -/

theorem sum_ends {n : ℕ} (hn : 3 ≤ n) (f : ℕ → ℝ) : ∑ i ∈ Finset.Icc 1 n, f i =
    f 1 + f n + ∑ i ∈ Finset.Icc 2 (n - 1), f i := by
  obtain ⟨k, rfl⟩ : ∃ k, n = k + 2 := ⟨n - 2, by omega⟩
  rw [Finset.sum_Icc_succ_top (by omega), ← Finset.add_sum_Ioc_eq_sum_Icc (by omega)]
  have : Finset.Ioc 1 (k + 1) = Finset.Icc 2 (k + 2 - 1) := by ext; simp; omega
  rw [this]
  ring

theorem royston_inner {m a : ℕ → ℝ} {s : ℝ} (hs : 0 < s) (S : Finset ℕ)
    (hS : ∀ i ∈ S, a i = m i / s) : ∑ i ∈ S, a i ^ 2 = (∑ i ∈ S, m i ^ 2) / s ^ 2 := by
  rw [Finset.sum_div]
  exact Finset.sum_congr rfl fun i hi => by rw [hS i hi, div_pow]

/-- Blom's scores are antisymmetric. -/
theorem scores_symm {n : ℕ} {z : ℕ → ℝ} (hz : NormalScores n (position (3 / 8) n) z) (i : ℕ) (h1 : 1 ≤ i)
    (h2 : i ≤ n) : z (n + 1 - i) = -z i := by
  apply Phi_strictMono.injective
  rw [Phi_neg]
  change cdf (gaussianReal 0 1) _ = 1 - cdf (gaussianReal 0 1) _
  rw [hz i h1 h2, hz (n + 1 - i) (by omega) (by omega), position, position,
    Nat.cast_sub (by omega)]
  have hn : (0 : ℝ) ≤ n := Nat.cast_nonneg n
  have : (n : ℝ) + 1 - 2 * (3 / 8) ≠ 0 := by linarith
  push_cast
  rw [eq_sub_iff_add_eq, ← add_div, div_eq_one_iff_eq this]
  ring

theorem scores_ne_zero {n : ℕ} (hn : 3 < n) {z : ℕ → ℝ} (hz : NormalScores n (position (3 / 8) n) z) :
    z (if n ≤ 5 then 2 else 3) < 0 := by
  set k := (if n ≤ 5 then 2 else 3) with hk
  have hk1 : 1 ≤ k ∧ k < n + 1 - k := by rw [hk]; split_ifs <;> omega
  have h1 := scores_lt hz hk1.1 (by omega) (by omega) (by omega : n + 1 - k ≤ n)
    (position_lt (by norm_num) (by omega) hk1.2)
  rw [scores_symm hz k hk1.1 (by omega)] at h1
  linarith

/-- The weights of the code are Royston's. -/
theorem swCoef_royston {n : ℕ} (hn : 3 < n) {m a : ℕ → ℝ}
    (hm : NormalScores n (position (3 / 8) n) m) (ha : RoystonWeights n m a) {i : ℕ} (h1 : 1 ≤ i)
    (h2 : i ≤ n) : swCoef scipyNorm n (i - 1) = a i := by
  have e : ∀ j : ℕ, 1 ≤ j → j ≤ n → scipyNorm.ppf (blom n (j - 1)) = m j := by
    intro j hj hj'
    have : blom n (j - 1) = position (3 / 8) n j := by
      have hc : (((j - 1 : ℕ) : ℝ) + 1) = j := by exact_mod_cast Nat.sub_add_cancel hj
      rw [blom, position, hc]
      congr 1
      ring
    rw [this]
    exact ppf_scores hm hj hj'
  have hm2 : ∑ k ∈ Finset.range n, scipyNorm.ppf (blom n k) ^ 2 = ∑ i ∈ Finset.Icc 1 n, m i ^ 2 := by
    rw [sum_range_Icc n fun k => scipyNorm.ppf (blom n k) ^ 2]
    exact Finset.sum_congr rfl fun i hi => by
      obtain ⟨h1, h2⟩ := Finset.mem_Icc.1 hi
      rw [e i h1 h2]
  have en : scipyNorm.ppf (blom n (n - 1)) = m n := e n (by omega) le_rfl
  have en1 : scipyNorm.ppf (blom n (n - 2)) = m (n - 1) := by
    have := e (n - 1) (by omega) (by omega)
    rwa [show n - 1 - 1 = n - 2 by omega] at this
  have hsym := scores_symm hm
  obtain ⟨s, hs, hinner⟩ := ha.inner
  have hneg := scores_ne_zero hn hm
  have hwn := ha.last _ rfl
  set M := ∑ i ∈ Finset.Icc 1 n, m i ^ 2 with hM
  simp only [swCoef, if_neg (show n ≠ 3 by omega)]
  rw [hm2, en, en1, e i h1 h2]
  have hpoly : polyval [-2.706056, 4.434685, -2.071190, -0.147981, 0.221157, m n / √M] (1 / √n) = a n := by
    rw [hwn]
    simp only [polyval, List.foldl]
    ring
  have ha1 : a 1 = -a n := by
    have := ha.antisymmetric n (by omega) le_rfl
    rwa [Nat.add_sub_cancel_left] at this
  have hm1 : m 1 = -m n := by
    have := hsym n (by omega) le_rfl
    rwa [Nat.add_sub_cancel_left] at this
  have hu := ha.unit
  rw [hpoly]
  by_cases h5 : n ≤ 5
  · rw [if_pos h5]
    simp only [h5, if_true] at hinner hneg
    have hS : ∀ k ∈ Finset.Icc 2 (n - 1), a k = m k / s := fun k hk =>
      hinner k (by have := Finset.mem_Icc.1 hk; omega)
    have hsum := sum_ends (by omega : 3 ≤ n) fun i => a i ^ 2
    have hsum' := sum_ends (by omega : 3 ≤ n) fun i => m i ^ 2
    rw [royston_inner hs _ hS] at hsum
    simp only [ha1, hm1, ← hM, hu, neg_sq] at hsum hsum'
    set I := ∑ i ∈ Finset.Icc 2 (n - 1), m i ^ 2 with hI
    have hIpos : 0 < I := lt_of_lt_of_le (pow_pos (neg_pos.2 hneg) 2 |>.trans_eq (neg_sq _))
      (Finset.single_le_sum (f := fun i => m i ^ 2) (fun i _ => sq_nonneg _) (by simp; omega))
    have hphi : (M - 2 * m n ^ 2) / (1 - 2 * a n ^ 2) = s ^ 2 := by
      have e1 : M - 2 * m n ^ 2 = I := by linarith
      have e2 : 1 - 2 * a n ^ 2 = I / s ^ 2 := by linarith
      rw [e1, e2]
      field_simp
    rw [hphi, Real.sqrt_sq hs.le]
    split_ifs with h6 h7
    · rw [show i = 1 by omega, ha1]
    · rw [show i = n by omega]
    · exact (hinner i (by omega)).symm
  · rw [if_neg h5]
    simp only [h5, if_false] at hinner hneg
    have hwn1 := ha.second (by omega) _ rfl
    have hpoly1 : polyval [-3.582633, 5.682633, -1.752461, -0.293762, 0.042981, m (n - 1) / √M]
        (1 / √n) = a (n - 1) := by
      rw [hwn1]
      simp only [polyval, List.foldl]
      ring
    have ha2 : a 2 = -a (n - 1) := by
      have := ha.antisymmetric (n - 1) (by omega) (by omega)
      rwa [show n + 1 - (n - 1) = 2 by omega] at this
    have hm2' : m 2 = -m (n - 1) := by
      have := hsym (n - 1) (by omega) (by omega)
      rwa [show n + 1 - (n - 1) = 2 by omega] at this
    have hin : ∀ f : ℕ → ℝ, ∑ i ∈ Finset.Icc 2 (n - 1), f i =
        f 2 + f (n - 1) + ∑ i ∈ Finset.Icc 3 (n - 2), f i := by
      intro f
      obtain ⟨k, rfl⟩ : ∃ k, n = k + 3 := ⟨n - 3, by omega⟩
      rw [show k + 3 - 1 = k + 1 + 1 by omega, Finset.sum_Icc_succ_top (by omega),
        ← Finset.add_sum_Ioc_eq_sum_Icc (by omega)]
      have : Finset.Ioc 2 (k + 1) = Finset.Icc 3 (k + 3 - 2) := by ext; simp; omega
      rw [this]
      ring
    have hsum := sum_ends (by omega : 3 ≤ n) fun i => a i ^ 2
    have hsum' := sum_ends (by omega : 3 ≤ n) fun i => m i ^ 2
    rw [hin] at hsum hsum'
    have hS : ∀ k ∈ Finset.Icc 3 (n - 2), a k = m k / s := fun k hk =>
      hinner k (by have := Finset.mem_Icc.1 hk; omega)
    rw [royston_inner hs _ hS] at hsum
    simp only [ha1, hm1, ha2, hm2', ← hM, hu, neg_sq] at hsum hsum'
    set I := ∑ i ∈ Finset.Icc 3 (n - 2), m i ^ 2 with hI
    have hIpos : 0 < I := lt_of_lt_of_le (pow_pos (neg_pos.2 hneg) 2 |>.trans_eq (neg_sq _))
      (Finset.single_le_sum (f := fun i => m i ^ 2) (fun i _ => sq_nonneg _) (by simp; omega))
    have hphi : (M - 2 * m n ^ 2 - 2 * m (n - 1) ^ 2) / (1 - 2 * a n ^ 2 - 2 * a (n - 1) ^ 2) = s ^ 2 := by
      have e1 : M - 2 * m n ^ 2 - 2 * m (n - 1) ^ 2 = I := by linarith
      have e2 : 1 - 2 * a n ^ 2 - 2 * a (n - 1) ^ 2 = I / s ^ 2 := by linarith
      rw [e1, e2]
      field_simp
    rw [hpoly1, hphi, Real.sqrt_sq hs.le]
    split_ifs with h6 h7 h8 h9
    · rw [show i = 1 by omega, ha1]
    · rw [show i = 2 by omega, ha2]
    · rw [show i = n - 1 by omega]
    · rw [show i = n by omega]
    · exact (hinner i (by omega)).symm

/-- The Shapiro-Wilk statistic is the squared correlation with Royston's weights, if there are such weights. -/
theorem shapiroWilk_correlation {xs : List ℝ} (hn : 3 < xs.length) {o m a : ℕ → ℝ} (ho : OrderStats xs o)
    (hm : NormalScores xs.length (position (3 / 8) xs.length) m) (ha : RoystonWeights xs.length m a) :
    NormStat.value scipyNorm .shapiroWilk xs = .ok (some (correlation xs.length a o ^ 2)) ∧
      correlation xs.length a o ^ 2 = (∑ i ∈ Finset.Icc 1 xs.length, a i * o i) ^ 2 /
        coDeviation xs.length o o ∧ correlation xs.length a o ^ 2 ≤ 1 := by
  have hc : ∀ i, 1 ≤ i → i ≤ xs.length → swCoef scipyNorm xs.length (i - 1) = a i :=
    fun i h1 h2 => swCoef_royston hn hm ha h1 h2
  have h0 := sum_swCoef scipyNorm_symmetric (by omega : 3 ≤ xs.length)
  have h0' : ∑ i ∈ Finset.Icc 1 xs.length, a i = 0 := by
    rw [← h0, sum_range_Icc]
    exact Finset.sum_congr rfl fun i hi => by
      obtain ⟨h1, h2⟩ := Finset.mem_Icc.1 hi
      rw [hc i h1 h2]
  have hu : ∑ i ∈ Finset.range xs.length, swCoef scipyNorm xs.length i ^ 2 = 1 := by
    rw [← ha.unit, sum_range_Icc xs.length fun i => swCoef scipyNorm xs.length i ^ 2]
    exact Finset.sum_congr rfl fun i hi => by
      obtain ⟨h1, h2⟩ := Finset.mem_Icc.1 hi
      rw [hc i h1 h2]
  have key := weighted_correlation ho h0
  rw [hu, one_mul, correlation_congr o hc] at key
  have hd : (xs.map fun x => (x - mean xs) ^ 2).sum = devSq (sort xs) := by
    rw [devSq, mean_perm (sort_perm xs)]
    exact ((sort_perm xs).map _).sum_eq.symm
  refine ⟨?_, ?_, correlation_sq_le _ _ _⟩
  · simp only [NormStat.value, Normal.shapiroWilk]
    rw [if_neg (by omega), if_neg (by omega), hd, key]
    rfl
  · rw [← key, sort_points ho, devSq_points, ← sort_points ho, dot, sum_mapIdx_sort ho]
    congr 2
    exact Finset.sum_congr rfl fun i hi => by
      obtain ⟨h1, h2⟩ := Finset.mem_Icc.1 hi
      rw [hc i h1 h2]

/-- **C114** (Shapiro-Wilk, three observations): half the squared range over the sum of the squared deviations;
it lies between `3/4` and `1`, and both bounds are attained. -/
theorem C114_shapiroWilk_three {xs : List ℝ} (hn : xs.length = 3) {o : ℕ → ℝ} (ho : OrderStats xs o)
    (hv : Varies xs) :
    ∃ v, NormStat.value scipyNorm .shapiroWilk xs = .ok (some v) ∧
      v = (o 3 - o 1) ^ 2 / 2 / coDeviation 3 o o ∧ 3 / 4 ≤ v ∧ v ≤ 1 ∧
      (v = 1 ↔ o 2 - o 1 = o 3 - o 2) ∧ (v = 3 / 4 ↔ o 2 = o 1 ∨ o 2 = o 3) := by
  have hd : (xs.map fun x => (x - mean xs) ^ 2).sum = devSq (sort xs) := by
    rw [devSq, mean_perm (sort_perm xs)]
    exact ((sort_perm xs).map _).sum_eq.symm
  have h12 := orderStats_mono ho le_rfl (show 1 ≤ 2 by omega) (by omega)
  have h23 := orderStats_mono ho (show 1 ≤ 2 by omega) (show 2 ≤ 3 by omega) (by omega)
  have hpos : 0 < coDeviation 3 o o := by
    rw [← hn, ← devSq_points, ← sort_points ho]
    exact devSq_pos (varies_sort hv)
  have hco : coDeviation 3 o o = ((o 3 - o 1) ^ 2 * 3 + (o 1 + o 3 - 2 * o 2) ^ 2) / 6 := by
    simp only [coDeviation, plotMean, Finset.sum_Icc_succ_top (show 1 ≤ 2 + 1 by omega),
      Finset.sum_Icc_succ_top (show 1 ≤ 1 + 1 by omega), Finset.Icc_self, Finset.sum_singleton]
    push_cast
    ring
  have hdot : dot (swCoef scipyNorm 3) (sort xs) ^ 2 = (o 3 - o 1) ^ 2 / 2 := by
    rw [dot, sum_mapIdx_sort ho, hn]
    simp only [Finset.sum_Icc_succ_top (show 1 ≤ 2 + 1 by omega),
      Finset.sum_Icc_succ_top (show 1 ≤ 1 + 1 by omega), Finset.Icc_self, Finset.sum_singleton]
    simp only [swCoef, if_true]
    norm_num
    have := Real.sq_sqrt (show (0 : ℝ) ≤ 2 by norm_num)
    have h2 : √(2 : ℝ) ≠ 0 := by positivity
    field_simp
    rw [this]
    ring
  refine ⟨(o 3 - o 1) ^ 2 / 2 / coDeviation 3 o o, ?_, rfl, ?_, ?_, ?_, ?_⟩
  · simp only [NormStat.value, Normal.shapiroWilk]
    rw [if_neg (by omega), if_neg (by omega), hd, hn, hdot, sort_points ho, devSq_points, hn]
    rfl
  · rw [le_div_iff₀ hpos, hco]
    nlinarith
  · rw [div_le_one hpos, hco]
    nlinarith [sq_nonneg (o 1 + o 3 - 2 * o 2)]
  · rw [div_eq_one_iff_eq hpos.ne', hco]
    constructor
    · intro h
      have : (o 1 + o 3 - 2 * o 2) ^ 2 = 0 := by linarith
      have := pow_eq_zero_iff two_ne_zero |>.1 this
      linarith
    · intro h
      have : o 1 + o 3 - 2 * o 2 = 0 := by linarith
      rw [this]
      ring
  · rw [div_eq_iff hpos.ne', hco]
    constructor
    · intro h
      have : (o 2 - o 1) * (o 2 - o 3) = 0 := by nlinarith
      rcases mul_eq_zero.1 this with h | h
      · exact .inl (by linarith)
      · exact .inr (by linarith)
    · rintro (h | h) <;> rw [h] <;> ring

/-! ### The hypotheses are met -/

theorem Phi_le_linear {t : ℝ} (ht : 0 ≤ t) : Phi t ≤ 1 / 2 + 0.4 * t := by
  have h1 : Phi t - Phi 0 = stdNormal.real (Set.Ioc 0 t) := by
    rw [Phi_eq, Phi_eq, ← Set.Iic_union_Ioc_eq_Iic ht, measureReal_union (by
      rw [Set.disjoint_left]; intro x h1 h2; exact absurd h2.1 (not_lt.2 h1)) measurableSet_Ioc]
    ring
  have h2 : stdNormal.real (Set.Ioc 0 t) ≤ 0.4 * t := by
    have h3 : stdNormal (Set.Ioc 0 t) = ∫⁻ x in Set.Ioc 0 t, gaussianPDF 0 1 x :=
      gaussianReal_apply 0 one_ne_zero _
    have h4 : stdNormal (Set.Ioc 0 t) ≤ ENNReal.ofReal 0.4 * ENNReal.ofReal t := by
      rw [h3]
      refine (setLIntegral_mono measurable_const fun x _ => ?_).trans (b := ∫⁻ _ in Set.Ioc 0 t, ENNReal.ofReal 0.4) ?_
      · refine ENNReal.ofReal_le_ofReal ?_
        rw [gaussianPDFReal]
        have e1 : Real.exp (-(x - 0) ^ 2 / (2 * ((1 : NNReal) : ℝ))) ≤ 1 := by
          apply Real.exp_le_one_iff.2
          simp only [NNReal.coe_one, mul_one]
          have := sq_nonneg (x - 0)
          linarith [show -(x - 0) ^ 2 / 2 = -((x - 0) ^ 2 / 2) by ring]
        have e2 : (√(2 * Real.pi * ((1 : NNReal) : ℝ)))⁻¹ ≤ 0.4 := by
          rw [inv_le_comm₀ (by positivity) (by norm_num)]
          apply Real.le_sqrt_of_sq_le
          have := Real.pi_gt_d2
          norm_num
          linarith
        have e3 : 0 ≤ (√(2 * Real.pi * ((1 : NNReal) : ℝ)))⁻¹ := by positivity
        nlinarith [Real.exp_pos (-(x - 0) ^ 2 / (2 * ((1 : NNReal) : ℝ)))]
      · simp
    rw [Measure.real]
    refine ENNReal.toReal_le_of_le_ofReal (by positivity) (h4.trans ?_)
    rw [← ENNReal.ofReal_mul (by norm_num)]
  rw [Phi_zero] at h1
  linarith

theorem Phi_two : 0.875 ≤ Phi 2 := by
  have h := meas_ge_le_variance_div_sq (μ := stdNormal) (X := id) (memLp_id_gaussianReal 2) (c := 2) two_pos
  rw [variance_id_gaussianReal] at h
  have hm : stdNormal[id] = 0 := by simp
  rw [hm] at h
  have h1 : stdNormal.real {x | 2 ≤ |id x - 0|} ≤ 1 / 4 := by
    rw [Measure.real]
    refine ENNReal.toReal_le_of_le_ofReal (by norm_num) (h.trans (le_of_eq ?_))
    norm_num
  have h2 : stdNormal.real (Set.Iic (-2)) + stdNormal.real (Set.Ioi 2) ≤ stdNormal.real {x | 2 ≤ |id x - 0|} := by
    rw [← measureReal_union (by
      rw [Set.disjoint_left]; intro x h1 h2; simp at h1 h2; linarith) measurableSet_Ioi]
    refine measureReal_mono fun x hx => ?_
    simp only [Set.mem_union, Set.mem_Iic, Set.mem_Ioi, id, sub_zero] at hx ⊢
    change 2 ≤ |x|
    rcases hx with hx | hx
    · rw [abs_of_neg (by linarith)]; linarith
    · exact hx.le.trans (le_abs_self x)
  have h3 : stdNormal.real (Set.Ioi 2) = 1 - Phi 2 := by
    have := probReal_compl_eq_one_sub (μ := stdNormal) (measurableSet_Iic (a := (2 : ℝ)))
    rwa [Set.compl_Iic, ← Phi_eq] at this
  rw [h3, ← Phi_eq, Phi_neg] at h2
  linarith

theorem exists_scores {n : ℕ} {p : ℕ → ℝ} (h : ∀ i, 1 ≤ i → i ≤ n → 0 < p i ∧ p i < 1) :
    NormalScores n p fun i => PhiInv (p i) := fun i h1 h2 => Phi_PhiInv (h i h1 h2).1 (h i h1 h2).2

theorem position_mem {α : ℝ} (h1 : α ≤ 1 / 2) {n i : ℕ} (hi : 1 ≤ i) (hi' : i ≤ n) :
    0 < position α n i ∧ position α n i < 1 := by
  have a : (1 : ℝ) ≤ i := by exact_mod_cast hi
  have b : (i : ℝ) ≤ n := by exact_mod_cast hi'
  exact ⟨div_pos (by linarith) (by linarith), (div_lt_one (by linarith)).2 (by linarith)⟩

/-- Royston's weights exist for four observations. -/
theorem exists_royston_four {m : ℕ → ℝ} (hm : NormalScores 4 (position (3 / 8) 4) m) :
    ∃ a, RoystonWeights 4 m a := by
  have h3 : Phi (m 3) = position (3 / 8) 4 3 := hm 3 (by norm_num) (by norm_num)
  have h4 : Phi (m 4) = position (3 / 8) 4 4 := hm 4 (by norm_num) (by norm_num)
  norm_num [position] at h3 h4
  have h30 : 0 < m 3 := Phi_strictMono.lt_iff_lt.1 (by rw [h3, Phi_zero]; norm_num)
  have h40 : 0 < m 4 := Phi_strictMono.lt_iff_lt.1 (by rw [h4, Phi_zero]; norm_num)
  have l3 : 0.294 ≤ m 3 := by
    have := Phi_le_linear h30.le
    rw [h3] at this
    linarith
  have u4 : m 4 < 2 := Phi_strictMono.lt_iff_lt.1 (by rw [h4]; have := Phi_two; linarith)
  have s3 := scores_symm hm 3 (by norm_num) (by norm_num)
  have s4 := scores_symm hm 4 (by norm_num) (by norm_num)
  norm_num at s3 s4
  set M := ∑ i ∈ Finset.Icc 1 4, m i ^ 2 with hM
  have hMv : M = 2 * (m 3 ^ 2 + m 4 ^ 2) := by
    rw [hM]
    simp only [Finset.sum_Icc_succ_top (show 1 ≤ 3 + 1 by omega), Finset.sum_Icc_succ_top (show 1 ≤ 2 + 1 by omega),
      Finset.sum_Icc_succ_top (show 1 ≤ 1 + 1 by omega), Finset.Icc_self, Finset.sum_singleton, s3, s4]
    ring
  have hMp : 0 < M := by rw [hMv]; positivity
  have hc : m 4 / √M ≤ 0.69965 := by
    rw [div_le_iff₀ (Real.sqrt_pos.2 hMp)]
    rw [← Real.sqrt_sq h40.le, ← Real.sqrt_sq (show (0 : ℝ) ≤ 0.69965 by norm_num), ← Real.sqrt_mul (by positivity)]
    refine Real.sqrt_le_sqrt ?_
    rw [hMv]
    nlinarith
  have hc0 : 0 < m 4 / √M := div_pos h40 (Real.sqrt_pos.2 hMp)
  set w := m 4 / √M + 0.0072880625 with hw
  have hw2 : w ^ 2 < 1 / 2 := by nlinarith
  have hb : 0 < 1 / 2 - w ^ 2 := by linarith
  have hbs := Real.sq_sqrt hb.le
  have hb' := Real.sqrt_pos.2 hb
  set b := √(1 / 2 - w ^ 2) with hbdef
  refine ⟨fun i => if i = 1 then -w else if i = 2 then -b else if i = 3 then b else w, ?_, ?_, ?_, ?_, ?_⟩
  · intro i h1 h2
    interval_cases i <;> simp
  · simp only [Finset.sum_Icc_succ_top (show 1 ≤ 3 + 1 by omega), Finset.sum_Icc_succ_top (show 1 ≤ 2 + 1 by omega),
      Finset.sum_Icc_succ_top (show 1 ≤ 1 + 1 by omega), Finset.Icc_self, Finset.sum_singleton]
    norm_num
    linarith
  · intro u hu
    have : u = 1 / 2 := by
      rw [hu, show ((4 : ℕ) : ℝ) = 2 ^ 2 by norm_num, Real.sqrt_sq (by norm_num)]
    rw [this, ← hM]
    norm_num [hw]
    ring
  · intro h
    omega
  · refine ⟨m 3 / b, by positivity, fun i hi => ?_⟩
    simp only [show 4 ≤ 5 by omega, if_true] at hi
    obtain ⟨h1, h2⟩ := hi
    interval_cases i
    · simp [s3]
      field_simp
    · simp
      field_simp

theorem exists_filliben {n : ℕ} (hn : 1 < n) : ∃ p, FillibenPositions n p ∧ ∀ i, 1 ≤ i → i ≤ n → 0 < p i ∧ p i < 1 := by
  have hn0 : n ≠ 0 := by omega
  have h0 : (0 : ℝ) < (1 / 2 : ℝ) ^ (1 / (n : ℝ)) := by positivity
  have h1 : (1 / 2 : ℝ) ^ (1 / (n : ℝ)) < 1 := Real.rpow_lt_one (by norm_num) (by norm_num) (by positivity)
  have hp : ((1 / 2 : ℝ) ^ (1 / (n : ℝ))) ^ n = 1 / 2 := by
    rw [one_div (n : ℝ), Real.rpow_inv_natCast_pow (by norm_num) hn0]
  refine ⟨fun i => if i = n then (1 / 2 : ℝ) ^ (1 / (n : ℝ)) else if i = 1 then 1 - (1 / 2 : ℝ) ^ (1 / (n : ℝ))
    else (i - 0.3175) / (n + 0.365), ⟨?_, ?_, ?_⟩, ?_⟩
  · simp only [show ¬ 1 = n by omega, if_false, if_true]
    exact ⟨by linarith, by linarith, by rw [sub_sub_cancel, hp]⟩
  · simp only [if_true]
    exact ⟨h0.le, hp⟩
  · intro i hi hi'
    simp only [show ¬ i = n by omega, show ¬ i = 1 by omega, if_false]
  · intro i hi hi'
    have a : (1 : ℝ) ≤ i := by exact_mod_cast hi
    have b : (i : ℝ) ≤ n := by exact_mod_cast hi'
    dsimp only
    split_ifs
    · exact ⟨h0, h1⟩
    · exact ⟨by linarith, by linarith⟩
    · exact ⟨div_pos (by linarith) (by linarith), (div_lt_one (by linarith)).2 (by linarith)⟩

/-- The hypotheses are met by a sample of four observations with a tie. -/
example : Varies [3, 1, 3, (2 : ℝ)] ∧ (∃ o, OrderStats [3, 1, 3, 2] o) ∧
    (∃ p z, FillibenPositions 4 p ∧ NormalScores 4 p z) ∧
    (∃ z a, NormalScores 4 (position (3 / 8) 4) z ∧ RoystonWeights 4 z a) ∧
    (∀ α : RjAlpha, ∃ z, NormalScores 4 (position α.val 4) z) ∧
    (∃ m, NormalScores 4 (fun i => (i : ℝ) / ((4 : ℕ) + 1)) m) := by
  obtain ⟨p, hp, hp'⟩ := exists_filliben (n := 4) (by norm_num)
  have hz := exists_scores (n := 4) fun i h1 h2 => position_mem (α := 3 / 8) (by norm_num) h1 h2
  obtain ⟨a, ha⟩ := exists_royston_four hz
  refine ⟨⟨3, by simp, 1, by simp, by norm_num⟩, exists_orderStats _, ⟨p, _, hp, exists_scores hp'⟩,
    ⟨_, a, hz, ha⟩, fun α => ⟨_, exists_scores fun i h1 h2 => position_mem (RjAlpha.val_le α) h1 h2⟩,
    _, exists_scores fun i h1 h2 => ?_⟩
  have := position_mem (α := 0) (by norm_num) h1 h2
  simpa [position] using this

/-- Positions averaged over ties are orders of quantiles too. -/
example {n : ℕ} (o : ℕ → ℝ) (α : RjAlpha) :
    ∃ z, NormalScores n (tiedAverage n o (position α.val n)) z := by
  refine ⟨_, exists_scores fun i h1 h2 => ?_⟩
  have hne : i ∈ (Finset.Icc 1 n).filter fun j => o j = o i := by simp; omega
  have hc : (0 : ℝ) < ((Finset.Icc 1 n).filter fun j => o j = o i).card := by
    exact_mod_cast Finset.card_pos.2 ⟨i, hne⟩
  have hmem : ∀ j ∈ (Finset.Icc 1 n).filter fun j => o j = o i,
      0 < position α.val n j ∧ position α.val n j < 1 := fun j hj => by
    simp only [Finset.mem_filter, Finset.mem_Icc] at hj
    exact position_mem (RjAlpha.val_le α) hj.1.1 hj.1.2
  refine ⟨div_pos (Finset.sum_pos (fun j hj => (hmem j hj).1) ⟨i, hne⟩) hc, (div_lt_one hc).2 ?_⟩
  calc _ < ∑ _j ∈ (Finset.Icc 1 n).filter fun j => o j = o i, (1 : ℝ) :=
        Finset.sum_lt_sum_of_nonempty ⟨i, hne⟩ fun j hj => (hmem j hj).2
    _ = _ := by simp

end Pysatl.Props
