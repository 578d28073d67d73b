import Verif.Model.NormalTail
import Verif.Props.Royston
import Verif.Props.KsEvidence

/-! # C80 for the normality criteria -/

namespace Pysatl.Props

open Pysatl.Decision Pysatl.Graph Pysatl.Edf Pysatl.Exponent Pysatl.Spec Pysatl.Normal
open MeasureTheory ProbabilityTheory

/-- The scores of the probability plot criteria for `n` observations. -/
inductive PlotScores (n : ℕ) (z : ℕ → ℝ) : NormStat → Prop
  | filli (p : ℕ → ℝ) : FillibenPositions n p → NormalScores n p z → PlotScores n z .filli
  | looneyGulledge : NormalScores n (position (3 / 8) n) z → PlotScores n z .looneyGulledge
  | ryanJoiner (α : RjAlpha) : NormalScores n (position α.val n) z → PlotScores n z (.ryanJoiner false α)
  | shapiroFrancia : NormalScores n (position (3 / 8) n) z → PlotScores n z .shapiroFrancia
  | shapiroWilk (m : ℕ → ℝ) : 3 < n → NormalScores n (position (3 / 8) n) m → RoystonWeights n m z →
      PlotScores n z .shapiroWilk

theorem PlotScores.value {s : NormStat} {xs : List ℝ} {o z : ℕ → ℝ} (h : PlotScores xs.length z s)
    (hv : Varies xs) (ho : OrderStats xs o) :
    s.alternative = .left ∧ ∃ v, s.value scipyNorm xs = .ok (some v) ∧ PlotRange xs.length z o v := by
  cases h with
  | filli p hp hz => exact ⟨rfl, C114_filliben_range hv ho hp hz⟩
  | looneyGulledge hz => exact ⟨rfl, C114_looneyGulledge_range hv ho hz⟩
  | ryanJoiner α hz => exact ⟨rfl, C114_ryanJoiner_range hv ho α hz⟩
  | shapiroFrancia hz => exact ⟨rfl, C114_shapiroFrancia_range hv ho hz⟩
  | shapiroWilk m hn hm ha => exact ⟨rfl, C114_shapiroWilk_range hn hv ho hm ha⟩

theorem normal_execute {lib : NormLib} {s : NormStat} {code : String} {params : Option (List (String × ℝ))}
    {xs : List ℝ} {v : ℝ} (h : s.value lib xs = .ok (some v)) :
    (s.statistic lib code params).execute xs = .ok v := by
  simp only [NormStat.statistic, h]
  rfl

/-- **C80 (partial)**: the probability plot criteria of normality.  A sample whose plot is a straight line is
rejected only if every sample of its size is. -/
theorem C80_plot_partial {σ : Type} {s : NormStat} (code : String) (params : Option (List (String × ℝ)))
    {xs ys : List ℝ} (hlen : ys.length = xs.length) {z o : ℕ → ℝ} (hs : PlotScores xs.length z s)
    (ho : OrderStats xs o) (hline : ∃ a b, 0 < b ∧ ∀ i, 1 ≤ i → i ≤ xs.length → o i = a + b * z i)
    (hvx : Varies xs) (hvy : Varies ys) (α : ℝ) (m : DecisionMethod σ ℝ) (w w₁ w₂ : σ) (res res' : TestResult ℝ)
    (hne : ∀ r L w', (m = .pValue r ∨ m = .criticalValue r) →
      (r (s.statistic scipyNorm code params) xs.length).exec w = (.ok (some L), w') → L ≠ [])
    (h : (gofTest (s.statistic scipyNorm code params) xs α m).exec w = (.ok res, w₁))
    (h' : (gofTest (s.statistic scipyNorm code params) ys α m).exec w = (.ok res', w₂))
    (hrej : res.rejected = true) : res'.rejected = true := by
  obtain ⟨v, hv, h⟩ := gofTest_ok h
  obtain ⟨v', hv', h'⟩ := gofTest_ok h'
  obtain ⟨halt, v₀, h1, -, -, h2⟩ := hs.value hvx ho
  obtain ⟨o', ho'⟩ := exists_orderStats ys
  rw [← hlen] at hs
  obtain ⟨-, v₁, h3, -, h4, -⟩ := hs.value hvy ho'
  have e := hv.symm.trans (normal_execute h1)
  cases e
  have e := hv'.symm.trans (normal_execute h3)
  cases e
  rw [hlen] at h'
  exact (decide_monotone hne h' h (h4.trans_eq (h2.2 hline).symm)).2 halt hrej

/-- **C80 is false for Rahman-Govindarajulu.**  The statistic is a squared correlation, which is `1` for a
perfect fit, but the criterion is right-tailed: if any sample is rejected, so is the one that follows the
weights exactly. -/
theorem C80_refuted_swrg {σ : Type} (code : String) (params : Option (List (String × ℝ)))
    {xs ys : List ℝ} (hn : 3 < xs.length) (hlen : ys.length = xs.length) {o m : ℕ → ℝ}
    (hm : NormalScores xs.length (fun i => (i : ℝ) / (xs.length + 1)) m)
    (ho : OrderStats xs o) (hvx : Varies xs)
    (hline : ∃ a b, 0 < b ∧ ∀ i, 1 ≤ i → i ≤ xs.length → o i = a + b * rgWeight xs.length m i)
    (α : ℝ) (d : DecisionMethod σ ℝ) (w w₁ w₂ : σ) (res res' : TestResult ℝ)
    (hne : ∀ r L w', (d = .pValue r ∨ d = .criticalValue r) →
      (r (NormStat.swrg.statistic scipyNorm code params) xs.length).exec w = (.ok (some L), w') → L ≠ [])
    (h : (gofTest (NormStat.swrg.statistic scipyNorm code params) xs α d).exec w = (.ok res, w₁))
    (h' : (gofTest (NormStat.swrg.statistic scipyNorm code params) ys α d).exec w = (.ok res', w₂))
    (hrej : res'.rejected = true) : res.rejected = true := by
  obtain ⟨v, hv, h⟩ := gofTest_ok h
  obtain ⟨v', hv', h'⟩ := gofTest_ok h'
  obtain ⟨v₁, h3, -, h4⟩ := C114_swrg_range (xs := ys) (by omega)
  have e := hv.symm.trans (normal_execute (C114_swrg hn ho hm))
  cases e
  have e := hv'.symm.trans (normal_execute h3)
  cases e
  rw [hlen] at h'
  refine (decide_monotone hne h' h ?_).1 rfl hrej
  have hone : correlation xs.length (rgWeight xs.length m) o = 1 := by
    obtain ⟨hn1, hlt⟩ := orderStats_lt ho hvx
    obtain ⟨a, b, hb, hl⟩ := hline
    refine (correlation_range (fun i j h1 h2 h3 => ?_) (fun i j h1 h2 h3 => orderStats_mono ho h1 h2 h3)
      (by omega) ?_ hlt).2.2.2 ⟨a, b, hb, hl⟩
    · have := orderStats_mono ho h1 h2 h3
      rw [hl i h1 (by omega), hl j (by omega) h3] at this
      exact le_of_mul_le_mul_left (by linarith) hb
    · rw [hl 1 le_rfl (by omega), hl xs.length (by omega) le_rfl] at hlt
      exact lt_of_mul_lt_mul_left (by linarith) hb.le
  rw [hone, one_pow]
  exact h4

/-! ### The hypotheses are met -/

theorem pdf_std (x : ℝ) : gaussianPDFReal 0 1 x = (√(2 * Real.pi))⁻¹ * Real.exp (-(x ^ 2 / 2)) := by
  simp [gaussianPDFReal, neg_div]

theorem inv_sqrt_two_pi : 0.39 ≤ (√(2 * Real.pi))⁻¹ ∧ (√(2 * Real.pi))⁻¹ ≤ 0.4 := by
  have h1 := Real.pi_gt_d2
  have h2 := Real.pi_lt_d2
  constructor
  · rw [le_inv_comm₀ (by norm_num) (by positivity)]
    rw [Real.sqrt_le_left (by norm_num)]
    norm_num
    linarith
  · rw [inv_le_comm₀ (by positivity) (by norm_num)]
    apply Real.le_sqrt_of_sq_le
    norm_num
    linarith

theorem pdf_ge (x : ℝ) : 0.39 * (1 - x ^ 2 / 2) ≤ gaussianPDFReal 0 1 x := by
  rw [pdf_std]
  have h1 := Real.add_one_le_exp (-(x ^ 2 / 2))
  have h2 := Real.exp_pos (-(x ^ 2 / 2))
  have h3 := inv_sqrt_two_pi.1
  nlinarith

theorem pdf_le (x : ℝ) : gaussianPDFReal 0 1 x ≤ 0.4 / (1 + x ^ 2 / 2) := by
  rw [pdf_std, Real.exp_neg]
  have h1 := Real.add_one_le_exp (x ^ 2 / 2)
  have h3 := inv_sqrt_two_pi.2
  have h5 : 0 < 1 + x ^ 2 / 2 := by positivity
  have h4 : (Real.exp (x ^ 2 / 2))⁻¹ ≤ (1 + x ^ 2 / 2)⁻¹ := inv_anti₀ h5 (by linarith)
  rw [div_eq_mul_inv]
  exact mul_le_mul h3 h4 (by positivity) (by norm_num)

theorem le_Phi_cubic {t : ℝ} (ht : 0 ≤ t) : 1 / 2 + 0.39 * (t - t ^ 3 / 6) ≤ Phi t := by
  have h1 : Phi t - Phi 0 = stdNormal.real (Set.Ioc 0 t) := by
    rw [Phi_eq, Phi_eq, ← Set.Iic_union_Ioc_eq_Iic ht, measureReal_union (by
      rw [Set.disjoint_left]; intro x h1 h2; exact absurd h2.1 (not_lt.2 h1)) measurableSet_Ioc]
    ring
  have h3 : stdNormal.real (Set.Ioc 0 t) = ∫ x in (0 : ℝ)..t, gaussianPDFReal 0 1 x := by
    rw [Measure.real, gaussianReal_apply_eq_integral 0 one_ne_zero, ENNReal.toReal_ofReal
      (integral_nonneg fun x => gaussianPDFReal_nonneg _ _ _), intervalIntegral.integral_of_le ht]
  have h4 : ∫ x in (0 : ℝ)..t, (0.39 * (1 - x ^ 2 / 2)) = 0.39 * (t - t ^ 3 / 6) := by
    rw [intervalIntegral.integral_eq_sub_of_hasDerivAt (f := fun x => 0.39 * (x - x ^ 3 / 6))]
    · simp
    · intro x _
      have := ((hasDerivAt_id x).sub ((hasDerivAt_pow 3 x).div_const 6)).const_mul (0.39 : ℝ)
      refine this.congr_deriv ?_
      push_cast
      ring
    · exact Continuous.intervalIntegrable (by fun_prop) _ _
  have h5 : ∫ x in (0 : ℝ)..t, (0.39 * (1 - x ^ 2 / 2)) ≤ ∫ x in (0 : ℝ)..t, gaussianPDFReal 0 1 x := by
    refine intervalIntegral.integral_mono_on ht (Continuous.intervalIntegrable (by fun_prop) _ _)
      (integrable_gaussianPDFReal 0 1).intervalIntegrable fun x _ => pdf_ge x
  rw [Phi_zero] at h1
  linarith

/-- For four observations the weights increase. -/
theorem rgWeight_four {m : ℕ → ℝ} (hm : NormalScores 4 (fun i => (i : ℝ) / ((4 : ℕ) + 1)) m) :
    rgWeight 4 m 1 = -rgWeight 4 m 4 ∧ rgWeight 4 m 2 = -rgWeight 4 m 3 ∧
      0 < rgWeight 4 m 3 ∧ rgWeight 4 m 3 < rgWeight 4 m 4 := by
  have h1 : Phi (m 1) = (1 : ℕ) / ((4 : ℕ) + 1) := hm 1 (by norm_num) (by norm_num)
  have h2 : Phi (m 2) = (2 : ℕ) / ((4 : ℕ) + 1) := hm 2 (by norm_num) (by norm_num)
  have h3 : Phi (m 3) = (3 : ℕ) / ((4 : ℕ) + 1) := hm 3 (by norm_num) (by norm_num)
  have h4 : Phi (m 4) = (4 : ℕ) / ((4 : ℕ) + 1) := hm 4 (by norm_num) (by norm_num)
  norm_num at h1 h2 h3 h4
  have s1 : m 1 = -m 4 := Phi_strictMono.injective (by rw [Phi_neg, h1, h4]; norm_num)
  have s2 : m 2 = -m 3 := Phi_strictMono.injective (by rw [Phi_neg, h2, h3]; norm_num)
  have h30 : 0 < m 3 := Phi_strictMono.lt_iff_lt.1 (by rw [h3, Phi_zero]; norm_num)
  have h40 : 0 < m 4 := Phi_strictMono.lt_iff_lt.1 (by rw [h4, Phi_zero]; norm_num)
  have l3 : 0.25 ≤ m 3 := by have := Phi_le_linear h30.le; rw [h3] at this; linarith
  have l4 : 0.75 ≤ m 4 := by have := Phi_le_linear h40.le; rw [h4] at this; linarith
  have u3 : m 3 ≤ 0.26 := Phi_strictMono.le_iff_le.1 (by
    rw [h3]; refine le_trans ?_ (le_Phi_cubic (t := 0.26) (by norm_num)); norm_num)
  have u4 : m 4 ≤ 0.9 := Phi_strictMono.le_iff_le.1 (by
    rw [h4]; refine le_trans ?_ (le_Phi_cubic (t := 0.9) (by norm_num)); norm_num)
  have hneg : ∀ x : ℝ, gaussianPDFReal 0 1 (-x) = gaussianPDFReal 0 1 x := fun x => by simp [gaussianPDFReal]
  have e3 : rgWeight 4 m 3 = 30 * gaussianPDFReal 0 1 (m 3) *
      (3 * (m 3 * gaussianPDFReal 0 1 (m 3)) - m 4 * gaussianPDFReal 0 1 (m 4)) := by
    simp [rgWeight, s2, hneg]
    ring
  have e4 : rgWeight 4 m 4 = 30 * gaussianPDFReal 0 1 (m 4) *
      (2 * (m 4 * gaussianPDFReal 0 1 (m 4)) - m 3 * gaussianPDFReal 0 1 (m 3)) := by
    simp [rgWeight]
    exact Or.inl (Or.inl (by norm_num))
  have e2 : rgWeight 4 m 2 = -rgWeight 4 m 3 := by
    rw [e3]
    simp [rgWeight, s1, s2, hneg]
    ring
  have e1 : rgWeight 4 m 1 = -rgWeight 4 m 4 := by
    rw [e4]
    simp [rgWeight, s1, s2, hneg]
    ring
  have x3 : m 3 ^ 2 ≤ 0.26 ^ 2 := pow_le_pow_left₀ h30.le u3 2
  have x4 : m 4 ^ 2 ≤ 0.9 ^ 2 := pow_le_pow_left₀ h40.le u4 2
  have y4 : 0.75 ^ 2 ≤ m 4 ^ 2 := pow_le_pow_left₀ (by norm_num) l4 2
  have p3 : 0.3768 ≤ gaussianPDFReal 0 1 (m 3) := le_trans (by linarith) (pdf_ge (m 3))
  have p4 : 0.232 ≤ gaussianPDFReal 0 1 (m 4) := le_trans (by linarith) (pdf_ge (m 4))
  have q3 : gaussianPDFReal 0 1 (m 3) ≤ 0.4 := (pdf_le (m 3)).trans (by
    rw [div_le_iff₀ (by positivity)]; linarith [sq_nonneg (m 3)])
  have q4 : gaussianPDFReal 0 1 (m 4) ≤ 0.3123 := (pdf_le (m 4)).trans (by
    rw [div_le_iff₀ (by positivity)]; linarith)
  have a3 : 0.25 * 0.3768 ≤ m 3 * gaussianPDFReal 0 1 (m 3) := mul_le_mul l3 p3 (by norm_num) h30.le
  have b3 : m 3 * gaussianPDFReal 0 1 (m 3) ≤ 0.26 * 0.4 := mul_le_mul u3 q3 (by linarith) (by norm_num)
  have a4 : 0.75 * 0.232 ≤ m 4 * gaussianPDFReal 0 1 (m 4) := mul_le_mul l4 p4 (by norm_num) h40.le
  have b4 : m 4 * gaussianPDFReal 0 1 (m 4) ≤ 0.9 * 0.3123 := mul_le_mul u4 q4 (by linarith) (by norm_num)
  rw [e1, e2, e3, e4]
  clear e1 e2 e3 e4 hm h1 h2 h3 h4 s1 s2 hneg
  generalize m 3 * gaussianPDFReal 0 1 (m 3) = g3 at *
  generalize m 4 * gaussianPDFReal 0 1 (m 4) = g4 at *
  generalize gaussianPDFReal 0 1 (m 3) = f3 at *
  generalize gaussianPDFReal 0 1 (m 4) = f4 at *
  refine ⟨rfl, rfl, ?_, ?_⟩
  · have : 0 < 3 * g3 - g4 := by linarith
    positivity
  · have h5 : f3 * (3 * g3 - g4) ≤ 0.4 * 0.138 := mul_le_mul q3 (by linarith) (by linarith) (by norm_num)
    have h6 : 0.232 * 0.244 ≤ f4 * (2 * g4 - g3) := mul_le_mul p4 (by linarith) (by norm_num) (by linarith)
    linarith

/-- A sorted list gives its own order statistics. -/
theorem orderStats_points {n : ℕ} {z : ℕ → ℝ} (h : ∀ i j, 1 ≤ i → i ≤ j → j ≤ n → z i ≤ z j) :
    OrderStats (points n z) z := by
  obtain ⟨o, ho⟩ := exists_orderStats (points n z)
  have hs : sort (points n z) = points n z :=
    List.Perm.eq_of_pairwise (le := (· ≤ ·)) (fun a b _ _ h1 h2 => le_antisymm h1 h2)
      (sort_pairwise _) (points_pairwise h) (sort_perm _)
  intro i h1 h2
  have e := at_sort_orderStats ho (i := i - 1) (by omega)
  rw [hs, Nat.sub_add_cancel h1] at e
  rw [length_points] at h2
  have e' : at_ (points n z) (i - 1) = z i := by
    rw [at_, List.getD_eq_getElem _ _ (by rw [length_points]; omega)]
    simp [points, Nat.sub_add_cancel h1]
  rw [← e', e]
  exact ho i h1 (by rwa [length_points])

/-- The hypotheses of `C80_refuted_swrg` are met by the sample of the four weights. -/
example : ∃ (xs : List ℝ) (o m : ℕ → ℝ), xs.length = 4 ∧
    NormalScores 4 (fun i => (i : ℝ) / ((4 : ℕ) + 1)) m ∧ OrderStats xs o ∧ Varies xs ∧
    ∃ a b, 0 < b ∧ ∀ i, 1 ≤ i → i ≤ 4 → o i = a + b * rgWeight 4 m i := by
  have hm := exists_scores (n := 4) (p := fun i => (i : ℝ) / ((4 : ℕ) + 1)) fun i h1 h2 => by
    have := position_mem (α := 0) (by norm_num) h1 h2
    simpa [position] using this
  obtain ⟨e1, e2, h3, h4⟩ := rgWeight_four hm
  refine ⟨points 4 (rgWeight 4 _), rgWeight 4 _, _, length_points _ _, hm, orderStats_points ?_, ?_,
    0, 1, one_pos, fun i _ _ => by ring⟩
  · intro i j hi hij hj
    interval_cases j <;> interval_cases i <;> first | exact le_rfl | linarith
  · exact ⟨_, List.mem_map.2 ⟨2, by simp, rfl⟩, _, List.mem_map.2 ⟨3, by simp, rfl⟩, h4.ne⟩

/-- The hypotheses of `C80_plot_partial` are met by the sample of the scores. -/
example : ∃ (xs : List ℝ) (o z : ℕ → ℝ), xs.length = 5 ∧ PlotScores 5 z .shapiroFrancia ∧ OrderStats xs o ∧
    Varies xs ∧ ∃ a b, 0 < b ∧ ∀ i, 1 ≤ i → i ≤ 5 → o i = a + b * z i := by
  have hz := exists_scores (n := 5) fun i h1 h2 => position_mem (α := 3 / 8) (by norm_num) h1 h2
  refine ⟨points 5 _, _, _, length_points _ _, .shapiroFrancia hz, orderStats_points ?_, ?_, 0, 1, one_pos,
    fun i _ _ => by ring⟩
  · exact fun i j h1 h2 h3 => scores_mono hz h1 (by omega) (by omega) h3 (position_mono (by norm_num) i j h1 h2 h3)
  · exact ⟨_, List.mem_map.2 ⟨0, by simp, rfl⟩, _, List.mem_map.2 ⟨4, by simp, rfl⟩,
      (scores_lt hz (by norm_num) (by norm_num) (by norm_num) (by norm_num)
        (position_lt (by norm_num) (by norm_num) (by norm_num))).ne⟩

/-! ### Two-sided judgement of a sum of squares -/

/-- A statistic below all simulated values has the two-sided p-value `0`. -/
theorem twoSided_below {L : List ℝ} (hL : L ≠ []) {v : ℝ} (h : ∀ x ∈ L, v < x) :
    twoSidedPValue L v = .ok 0 := by
  have h0 : L.length ≠ 0 := fun h => hL (List.length_eq_zero_iff.1 h)
  have hc : L.countP (fun x => decide (x ≤ v)) = 0 := by
    rw [List.countP_eq_zero]
    intro x hx
    simpa using h x hx
  simp only [twoSidedPValue, ecdfEvaluate, if_neg h0, hc]
  simp [Bind.bind, Except.bind, pure, Except.pure]

/-- The criteria of Hosking are two-sided. -/
def IsHosking (s : NormStat) : Prop := s = .hosking1 ∨ s = .hosking2 ∨ s = .hosking3 ∨ s = .hosking4

/-- A criterion judged two-sided rejects, at every level and with the p-value `0`, each sample whose statistic is
below all simulated values. -/
theorem rejects_below {σ : Type} {s : NormStat} (hs : s.alternative = .twoTailed) {lib : NormLib} {code : String}
    {params : Option (List (String × ℝ))} {xs : List ℝ} {v : ℝ} (hv : s.value lib xs = .ok (some v)) {α : ℝ}
    (hα : 0 ≤ α) {r : Resolver σ ℝ} {w w₁ w₂ : σ} {L : List ℝ} (hL : L ≠ []) (hpos : ∀ x ∈ L, v < x)
    (hr : (r (s.statistic lib code params) xs.length).exec w = (.ok (some L), w₁)) {res : TestResult ℝ}
    (h : (gofTest (s.statistic lib code params) xs α (.pValue r)).exec w = (.ok res, w₂)) :
    res.rejected = true ∧ res.pValue = some 0 := by
  obtain ⟨v', hv', h⟩ := gofTest_ok h
  have e := hv'.symm.trans (normal_execute hv)
  cases e
  obtain ⟨L', p, hr', hp, rfl⟩ := pDecide_ok h
  rw [hr] at hr'
  obtain rfl : L = L' := by simpa using (congrArg Prod.fst hr')
  have halt : (s.statistic lib code params).alternative = .twoTailed := hs
  rw [halt] at hp
  change twoSidedPValue L v = .ok p at hp
  rw [twoSided_below hL hpos] at hp
  cases hp
  simp [hα]

/-- **C80 is false for the criteria of Hosking.**  The statistic is a sum of two squares, `0` when the sample
L-skewness and L-kurtosis are exactly those of the normal law, and never negative, but the criterion is
two-sided: whenever the simulated values are positive, a perfect fit is rejected at every level. -/
theorem C80_refuted_hosking {σ : Type} {s : NormStat} (hs : IsHosking s) (lib : NormLib) (code : String)
    (params : Option (List (String × ℝ))) {xs : List ℝ} (hv : s.value lib xs = .ok (some 0)) {α : ℝ}
    (hα : 0 ≤ α) (r : Resolver σ ℝ) (w w₁ w₂ : σ) {L : List ℝ} (hL : L ≠ []) (hpos : ∀ x ∈ L, 0 < x)
    (hr : (r (s.statistic lib code params) xs.length).exec w = (.ok (some L), w₁)) {res : TestResult ℝ}
    (h : (gofTest (s.statistic lib code params) xs α (.pValue r)).exec w = (.ok res, w₂)) :
    res.rejected = true ∧ res.pValue = some 0 :=
  rejects_below (by rcases hs with rfl | rfl | rfl | rfl <;> rfl) hv hα hL hpos hr h

/-- **C80 is false for Lilliefors and Spiegelhalter.**  Their statistics grow with the departure from normality,
the greatest vertical distance and Spiegelhalter's `T`, but the criteria are two-sided: a sample that fits better
than every simulated one is rejected at every level. -/
theorem C80_refuted_two_sided {σ : Type} {s : NormStat} (hs : s = .lilliefors ∨ s = .spiegelhalter) (lib : NormLib)
    (code : String) (params : Option (List (String × ℝ))) {xs : List ℝ} {v : ℝ}
    (hv : s.value lib xs = .ok (some v)) {α : ℝ} (hα : 0 ≤ α) (r : Resolver σ ℝ) (w w₁ w₂ : σ) {L : List ℝ}
    (hL : L ≠ []) (hpos : ∀ x ∈ L, v < x)
    (hr : (r (s.statistic lib code params) xs.length).exec w = (.ok (some L), w₁)) {res : TestResult ℝ}
    (h : (gofTest (s.statistic lib code params) xs α (.pValue r)).exec w = (.ok res, w₂)) :
    res.rejected = true ∧ res.pValue = some 0 :=
  rejects_below (by rcases hs with rfl | rfl <;> rfl) hv hα hL hpos hr h

/-- The hypotheses of `C80_refuted_two_sided` are met by a sample of four and one simulated value above its
statistic, and the test gives a verdict. -/
example : ∃ (v : ℝ) (L : List ℝ) (res : TestResult ℝ), NormStat.value scipyNorm .spiegelhalter [-1, 0, 0, 1] =
    .ok (some v) ∧ L ≠ [] ∧ (∀ x ∈ L, v < x) ∧
    (gofTest (NormStat.spiegelhalter.statistic scipyNorm "" none) [-1, 0, 0, 1] 0.01
      (.pValue (constResolver L))).exec () = (.ok res, ()) := by
  obtain ⟨v, hv⟩ : ∃ v, NormStat.value scipyNorm .spiegelhalter [-1, 0, 0, 1] = .ok (some v) := ⟨_, rfl⟩
  have hp : twoSidedPValue [v + 1] v = .ok 0 := twoSided_below (by simp) (by simp)
  refine ⟨v, [v + 1], ⟨v, some 0, none, true, 0.01⟩, hv, by simp, by simp, ?_⟩
  have he := normal_execute (code := "") (params := none) hv
  have key : ∀ (e : Except PyErr ℝ) (q : ℝ → Except PyErr ℝ), e = .ok v → q v = .ok 0 →
      ((liftM e >>= fun u => (do
        let p ← liftM (q u)
        return ⟨u, some p, none, decide (p ≤ 0.01), 0.01⟩) : Py Unit (TestResult ℝ))).exec () =
      (.ok ⟨v, some 0, none, decide ((0 : ℝ) ≤ 0.01), 0.01⟩, ()) := by
    rintro _ q rfl hq
    change (((do
        let p ← liftM (q v)
        return ⟨v, some p, none, decide (p ≤ 0.01), 0.01⟩) : Py Unit (TestResult ℝ))).exec () = _
    rw [hq]
    rfl
  have := key _ (twoSidedPValue [v + 1]) he hp
  rw [show decide ((0 : ℝ) ≤ 0.01) = true by norm_num] at this
  exact this

theorem hoskingStat_nonneg (t n : ℕ) (l2 l3 l4 : ℝ) : 0 ≤ hoskingStat t n l2 l3 l4 := by
  have hc : 0 < (hoskingConst t n).2.1 ∧ 0 < (hoskingConst t n).2.2 := by
    unfold hoskingConst
    split <;> split_ifs <;> norm_num
  unfold hoskingStat
  have := hc.1
  have := hc.2
  dsimp only
  positivity

/-- No sample fits better than one with statistic `0`. -/
theorem C80_hosking_nonneg {s : NormStat} (hs : IsHosking s) {lib : NormLib} {xs : List ℝ} {v : ℝ}
    (h : s.value lib xs = .ok (some v)) : 0 ≤ v := by
  rcases hs with rfl | rfl | rfl | rfl <;> simp only [NormStat.value, guarded, Except.map] at h <;>
    split_ifs at h <;> first | (cases h; done) | (cases h; first | exact hoskingStat_nonneg _ _ _ _ _ | exact le_rfl)

/-- There is such a sample. -/
theorem exists_hosking_zero (lib : NormLib) :
    ∃ xs, xs.length = 4 ∧ NormStat.value lib .hosking1 xs = .ok (some 0) := by
  refine ⟨[-(912383 / 262851), -1, 1, 912383 / 262851], rfl, ?_⟩
  have hs : sort ([-(912383 / 262851), -1, 1, 912383 / 262851] : List ℝ) =
      [-(912383 / 262851), -1, 1, 912383 / 262851] :=
    List.Perm.eq_of_pairwise (le := (· ≤ ·)) (fun a b _ _ h1 h2 => le_antisymm h1 h2)
      (sort_pairwise _) (by norm_num) (sort_perm _)
  simp only [NormStat.value, guarded, Normal.hosking1, hs, hoskingStat, hoskingConst, dot]
  norm_num [Except.map]

end Pysatl.Props
