import Verif.Spec.Range
import Verif.Props.ConsistencyDeviation
import Verif.Props.ConsistencyHermite
import Verif.Props.ConsistencyHegazy

/-! # C137: Spiegelhalter's criterion -/

namespace Pysatl.Props

open Pysatl.Decision Pysatl.Resolver Pysatl.Spec Pysatl.Edf Pysatl.Graph Pysatl.Gen Pysatl.Normal Pysatl.Exponent
open MeasureTheory ProbabilityTheory Filter Topology

/-! ### The range of a growing sample -/

theorem left_mass (μ : Measure ℝ) : ∀ᵐ x ∂μ, 0 < μ (Set.Iic x) := by
  rw [ae_iff]
  set S := {x : ℝ | ¬0 < μ (Set.Iic x)} with hS
  have hmem : ∀ x, x ∈ S ↔ μ (Set.Iic x) = 0 := fun x => by simp [hS]
  set U := ⋃ q : {q : ℚ // (q : ℝ) ∈ S}, Set.Iic ((q : ℚ) : ℝ) with hU
  have hU0 : μ U = 0 := measure_iUnion_null fun q => (hmem _).1 q.2
  by_cases h : S ⊆ U
  · exact measure_mono_null h hU0
  · obtain ⟨x, hx, hxU⟩ := Set.not_subset.1 h
    refine measure_mono_null (t := Set.Iic x) (fun y hy => ?_) ((hmem x).1 hx)
    by_contra hxy
    obtain ⟨q, h1, h2⟩ := exists_rat_btwn (not_le.1 (show ¬y ≤ x from hxy))
    have hq : (q : ℝ) ∈ S := (hmem _).2 (measure_mono_null (Set.Iic_subset_Iic.2 h2.le) ((hmem y).1 hy))
    exact hxU (Set.mem_iUnion.2 ⟨⟨q, hq⟩, h1.le⟩)

theorem right_mass (μ : Measure ℝ) : ∀ᵐ x ∂μ, 0 < μ (Set.Ici x) := by
  rw [ae_iff]
  set S := {x : ℝ | ¬0 < μ (Set.Ici x)} with hS
  have hmem : ∀ x, x ∈ S ↔ μ (Set.Ici x) = 0 := fun x => by simp [hS]
  set U := ⋃ q : {q : ℚ // (q : ℝ) ∈ S}, Set.Ici ((q : ℚ) : ℝ) with hU
  have hU0 : μ U = 0 := measure_iUnion_null fun q => (hmem _).1 q.2
  by_cases h : S ⊆ U
  · exact measure_mono_null h hU0
  · obtain ⟨x, hx, hxU⟩ := Set.not_subset.1 h
    refine measure_mono_null (t := Set.Ici x) (fun y hy => ?_) ((hmem x).1 hx)
    by_contra hxy
    obtain ⟨q, h1, h2⟩ := exists_rat_btwn (not_le.1 (show ¬x ≤ y from hxy))
    have hq : (q : ℝ) ∈ S := (hmem _).2 (measure_mono_null (Set.Ici_subset_Ici.2 h1.le) ((hmem y).1 hy))
    exact hxU (Set.mem_iUnion.2 ⟨⟨q, hq⟩, h2.le⟩)

/-- What has positive probability is observed. -/
theorem observed {μ : Measure ℝ} [IsProbabilityMeasure μ] {A : Set ℝ} (hA : MeasurableSet A) (h : 0 < μ A) :
    ∀ᵐ ω ∂seqLaw μ, ∃ i, ω i ∈ A := by
  have hm : Measurable (A.indicator fun _ => (1 : ℝ)) := measurable_const.indicator hA
  have hi : Integrable (A.indicator fun _ => (1 : ℝ)) μ := (integrable_const 1).indicator hA
  filter_upwards [law_of_large_numbers hm hi] with ω hω
  by_contra hne
  push Not at hne
  have h0 : ∀ i, A.indicator (fun _ => (1 : ℝ)) (ω i) = 0 := fun i => Set.indicator_of_notMem (hne i) _
  simp only [h0, Finset.sum_const_zero, zero_div] at hω
  have h1 := tendsto_nhds_unique hω tendsto_const_nhds
  rw [integral_indicator hA, integral_const, smul_eq_mul, mul_one, measureReal_restrict_apply_univ] at h1
  exact h.ne' ((measureReal_eq_zero_iff).1 h1)

section
variable {μ : Measure ℝ} [IsProbabilityMeasure μ]

theorem inverseWidth_bdd (μ : Measure ℝ) :
    BddBelow {y | ∃ a b : ℝ, a < b ∧ 0 < μ (Set.Iic a) ∧ 0 < μ (Set.Ici b) ∧ y = 1 / (b - a)} := by
  refine ⟨0, ?_⟩
  rintro y ⟨a, b, hab, -, -, rfl⟩
  exact (one_div_pos.2 (sub_pos.2 hab)).le

theorem inverseWidth_nonneg (μ : Measure ℝ) : 0 ≤ inverseWidth μ := by
  refine Real.sInf_nonneg ?_
  rintro y ⟨a, b, hab, -, -, rfl⟩
  exact (one_div_pos.2 (sub_pos.2 hab)).le

theorem inverseWidth_nonempty (h2 : Integrable (fun x => |x| ^ 2) μ) (hv : 0 < lawVariance μ) :
    {y | ∃ a b : ℝ, a < b ∧ 0 < μ (Set.Iic a) ∧ 0 < μ (Set.Ici b) ∧ y = 1 / (b - a)}.Nonempty := by
  obtain ⟨ω, h1, h2, h3⟩ := ((seq_ae (left_mass μ)).and ((seq_ae (right_mass μ)).and (eventually_varies h2 hv))).exists
  obtain ⟨n, x, hx, y, hy, hxy⟩ := h3.exists
  obtain ⟨i, rfl⟩ := List.mem_ofFn.1 hx
  obtain ⟨j, rfl⟩ := List.mem_ofFn.1 hy
  rcases lt_or_gt_of_ne hxy with h | h
  · exact ⟨_, _, _, h, h1 _, h2 _, rfl⟩
  · exact ⟨_, _, _, h, h1 _, h2 _, rfl⟩

/-- The reciprocal of the range of the sample settles at the reciprocal of the width of the law. -/
theorem range_settles (h2 : Integrable (fun x => |x| ^ 2) μ) (hv : 0 < lawVariance μ) : ∀ᵐ ω ∂seqLaw μ, ∀ u v : ℕ → ℝ,
    (∀ᶠ n in atTop, (u n ∈ List.ofFn (firsts n ω) ∧ ∀ x ∈ List.ofFn (firsts n ω), x ≤ u n) ∧
      v n ∈ List.ofFn (firsts n ω) ∧ ∀ x ∈ List.ofFn (firsts n ω), v n ≤ x) →
    (∀ᶠ n in atTop, v n < u n) ∧ Tendsto (fun n => 1 / (u n - v n)) atTop (𝓝 (inverseWidth μ)) := by
  obtain ⟨y, -, hy, hmem⟩ := exists_seq_tendsto_sInf (inverseWidth_nonempty h2 hv) (inverseWidth_bdd μ)
  choose a b hab ha hb hyk using hmem
  filter_upwards [seq_ae (left_mass μ), seq_ae (right_mass μ), eventually_varies h2 hv,
    ae_all_iff.2 fun k => observed measurableSet_Iic (ha k), ae_all_iff.2 fun k => observed measurableSet_Ici (hb k)]
    with ω hl hr hvar hA hB u v huv
  have hlt : ∀ᶠ n in atTop, v n < u n := by
    filter_upwards [huv, hvar] with n ⟨⟨_, h1⟩, _, h2⟩ ⟨x, hx, z, hz, hxz⟩
    by_contra hge
    exact hxz (le_antisymm (((h1 x hx).trans (not_lt.1 hge)).trans (h2 z hz))
      (((h1 z hz).trans (not_lt.1 hge)).trans (h2 x hx)))
  refine ⟨hlt, ?_⟩
  rw [Metric.tendsto_nhds]
  intro ε hε
  obtain ⟨k, hk⟩ := (hy.eventually (gt_mem_nhds (show sInf _ < inverseWidth μ + ε by
    change inverseWidth μ < _
    linarith))).exists
  obtain ⟨i, hi⟩ := hA k
  obtain ⟨j, hj⟩ := hB k
  filter_upwards [huv, hlt, eventually_gt_atTop i, eventually_gt_atTop j] with n ⟨⟨hu, hu'⟩, hv, hv'⟩ hn hni hnj
  have lower : inverseWidth μ ≤ 1 / (u n - v n) := by
    obtain ⟨p, hp⟩ := List.mem_ofFn.1 hu
    obtain ⟨q, hq⟩ := List.mem_ofFn.1 hv
    exact csInf_le (inverseWidth_bdd μ) ⟨v n, u n, hn, by rw [← hq]; exact hl _, by rw [← hp]; exact hr _, rfl⟩
  have e1 : v n ≤ a k := (hv' (ω i) (List.mem_ofFn.2 ⟨⟨i, hni⟩, rfl⟩)).trans hi
  have e2 : b k ≤ u n := le_trans hj (hu' (ω j) (List.mem_ofFn.2 ⟨⟨j, hnj⟩, rfl⟩))
  have upper : 1 / (u n - v n) ≤ y k := by
    rw [hyk k]
    exact one_div_le_one_div_of_le (sub_pos.2 (hab k)) (by linarith)
  rw [Real.dist_eq, abs_lt]
  constructor <;> linarith

end

/-! ### Limits -/

theorem power_mean_settles {x y : ℕ → ℝ} {a b : ℝ} (hx : Tendsto x atTop (𝓝 a)) (hy : Tendsto y atTop (𝓝 b))
    (hx0 : ∀ᶠ n in atTop, 0 ≤ x n) (hy0 : ∀ᶠ n in atTop, 0 ≤ y n) :
    Tendsto (fun n : ℕ => (x n ^ ((n : ℝ) - 1) + y n ^ ((n : ℝ) - 1)) ^ (1 / ((n : ℝ) - 1))) atTop (𝓝 (max a b)) := by
  have hm := hx.max hy
  have hroot : Tendsto (fun n : ℕ => (2 : ℝ) ^ (1 / ((n : ℝ) - 1))) atTop (𝓝 1) := by
    have h0 : Tendsto (fun n : ℕ => 1 / ((n : ℝ) - 1)) atTop (𝓝 0) := by
      simp only [one_div]
      exact tendsto_inv_atTop_zero.comp (tendsto_atTop_add_const_right _ _ tendsto_natCast_atTop_atTop)
    have := (Real.continuousAt_const_rpow (two_ne_zero (α := ℝ)) (b := 0)).tendsto.comp h0
    simpa [Function.comp_def] using this
  have hup := hroot.mul hm
  rw [one_mul] at hup
  refine tendsto_of_tendsto_of_tendsto_of_le_of_le' hm hup ?_ ?_
  · filter_upwards [hx0, hy0, eventually_gt_atTop 1] with n h1 h2 hn
    have hn' : (0 : ℝ) < (n : ℝ) - 1 := by
      have : (1 : ℝ) < n := by exact_mod_cast hn
      linarith
    have p1 := Real.rpow_nonneg h1 ((n : ℝ) - 1)
    have p2 := Real.rpow_nonneg h2 ((n : ℝ) - 1)
    refine max_le ?_ ?_
    · calc x n = (x n ^ ((n : ℝ) - 1)) ^ (1 / ((n : ℝ) - 1)) := by
            rw [← Real.rpow_mul h1, mul_one_div_cancel hn'.ne', Real.rpow_one]
        _ ≤ _ := Real.rpow_le_rpow p1 (by linarith) (by positivity)
    · calc y n = (y n ^ ((n : ℝ) - 1)) ^ (1 / ((n : ℝ) - 1)) := by
            rw [← Real.rpow_mul h2, mul_one_div_cancel hn'.ne', Real.rpow_one]
        _ ≤ _ := Real.rpow_le_rpow p2 (by linarith) (by positivity)
  · filter_upwards [hx0, hy0, eventually_gt_atTop 1] with n h1 h2 hn
    have hn' : (0 : ℝ) < (n : ℝ) - 1 := by
      have : (1 : ℝ) < n := by exact_mod_cast hn
      linarith
    have h3 : 0 ≤ max (x n) (y n) := h1.trans (le_max_left _ _)
    have p1 := Real.rpow_nonneg h1 ((n : ℝ) - 1)
    have p2 := Real.rpow_nonneg h2 ((n : ℝ) - 1)
    have q1 := Real.rpow_le_rpow h1 (le_max_left (x n) (y n)) hn'.le
    have q2 := Real.rpow_le_rpow h2 (le_max_right (x n) (y n)) hn'.le
    calc (x n ^ ((n : ℝ) - 1) + y n ^ ((n : ℝ) - 1)) ^ (1 / ((n : ℝ) - 1))
        ≤ (2 * max (x n) (y n) ^ ((n : ℝ) - 1)) ^ (1 / ((n : ℝ) - 1)) :=
          Real.rpow_le_rpow (by linarith) (by linarith) (by positivity)
      _ = _ := by
          rw [Real.mul_rpow two_pos.le (Real.rpow_nonneg h3 _), ← Real.rpow_mul h3, mul_one_div_cancel hn'.ne', Real.rpow_one]

/-- The constant of the criterion settles at `1 / (2 e)`. -/
theorem spiegelhalter_constant : Tendsto (fun n : ℕ => stirling n ^ (1 / ((n : ℝ) - 1)) / (2 * n)) atTop
    (𝓝 (1 / (2 * Real.exp 1))) := by
  have h0 : Tendsto (fun n : ℕ => 1 / ((n : ℝ) - 1)) atTop (𝓝 0) := by
    simp only [one_div]
    exact tendsto_inv_atTop_zero.comp (tendsto_atTop_add_const_right _ _ tendsto_natCast_atTop_atTop)
  have h1 : Tendsto (fun n : ℕ => (2 * Real.pi) ^ (1 / ((n : ℝ) - 1) / 2)) atTop (𝓝 1) := by
    have := (Real.continuousAt_const_rpow (show 2 * Real.pi ≠ 0 by positivity) (b := 0 / 2)).tendsto.comp (h0.div_const 2)
    simpa [Function.comp_def] using this
  have h2 : Tendsto (fun n : ℕ => Real.exp 1 ^ (1 / ((n : ℝ) - 1))) atTop (𝓝 1) := by
    have := (Real.continuousAt_const_rpow (Real.exp_pos 1).ne' (b := 0)).tendsto.comp h0
    simpa [Function.comp_def] using this
  have h3 : Tendsto (fun n : ℕ => (n : ℝ) ^ ((3 / 2 : ℝ) / (1 * (n : ℝ) + -1))) atTop (𝓝 1) :=
    (tendsto_rpow_div_mul_add (3 / 2) 1 (-1) zero_ne_one).comp tendsto_natCast_atTop_atTop
  have h4 := (h1.mul (h3.mul (h2.inv₀ one_ne_zero))).div_const (2 * Real.exp 1)
  rw [inv_one, one_mul, one_mul] at h4
  refine h4.congr' ?_
  filter_upwards [eventually_ge_atTop 2] with n hn
  have hn' : (2 : ℝ) ≤ n := by exact_mod_cast hn
  have hn0 : (0 : ℝ) < n := by linarith
  rw [← stirling_const hn]
  have e1 : 1 / (2 * ((n : ℝ) - 1)) = 1 / ((n : ℝ) - 1) / 2 := by rw [mul_comm, div_div]
  have e2 : (n : ℝ) * √n = (n : ℝ) ^ (3 / 2 : ℝ) := by
    rw [Real.sqrt_eq_rpow, ← Real.rpow_one_add' hn0.le (by norm_num)]
    norm_num
  rw [e1, e2, Real.div_rpow (by positivity) (Real.exp_pos 1).le, ← Real.rpow_mul hn0.le, div_eq_mul_inv (_ ^ _) (Real.exp 1 ^ _)]
  congr 4
  rw [mul_one_div, one_mul, ← sub_eq_add_neg]

/-! ### Spiegelhalter -/

section
variable (code : String) (params : Option (List (String × ℝ)))

theorem spiegelhalter_settles {Q : Measure ℝ} [IsProbabilityMeasure Q] (h2 : Integrable (fun x => |x| ^ 2) Q)
    (hQ : 0 < lawVariance Q) : ValueSettles (NormStat.spiegelhalter.statistic scipyNorm code params)
      (fun _ x => x) Q (max (2 * Real.exp 1 * √(lawVariance Q) * inverseWidth Q) (lawGeary Q)) := by
  have hi : Integrable (fun x => x) Q := by simpa using integrable_power h2 (j := 1) (by norm_num) 0
  filter_upwards [settles_stdDev h2, settles_absDeviation hi, range_settles h2 hQ] with ω a b hr
  have hd := absDeviation_law_pos h2 hQ (lawMean Q)
  have hs := Real.sqrt_pos.2 hQ
  choose o ho using fun n => exists_orderStats (List.ofFn (firsts n ω))
  have hext : ∀ᶠ n in atTop, (o n n ∈ List.ofFn (firsts n ω) ∧ ∀ x ∈ List.ofFn (firsts n ω), x ≤ o n n) ∧
      o n 1 ∈ List.ofFn (firsts n ω) ∧ ∀ x ∈ List.ofFn (firsts n ω), o n 1 ≤ x := by
    filter_upwards [eventually_gt_atTop 0] with n hn
    have hne : List.ofFn (firsts n ω) ≠ [] := by simpa using hn.ne'
    obtain ⟨e1, e2⟩ := npMax_orderStats hne (ho n)
    rw [List.length_ofFn] at e1
    exact ⟨npMax_eq_ok.1 e1, pyMin_eq_ok.1 e2⟩
  obtain ⟨hlt, hw⟩ := hr _ _ hext
  have hs1 : Tendsto (fun n => stdDev1 (List.ofFn (firsts n ω))) atTop (𝓝 √(lawVariance Q)) := by
    have := a.div ratio_tendsto.sqrt (by simp)
    rw [Real.sqrt_one, div_one] at this
    refine this.congr' ?_
    filter_upwards [eventually_gt_atTop 1] with n hn
    rw [stdDev1_eq hn (List.length_ofFn)]
    rfl
  have hx : Tendsto (fun n : ℕ => 1 / (stirling n ^ (1 / ((n : ℝ) - 1)) / (2 * n)) *
      stdDev1 (List.ofFn (firsts n ω)) * (1 / (o n n - o n 1))) atTop
      (𝓝 (2 * Real.exp 1 * √(lawVariance Q) * inverseWidth Q)) := by
    have h := (((tendsto_const_nhds (x := (1 : ℝ))).div spiegelhalter_constant (by positivity)).mul hs1).mul hw
    simpa using h
  have hy : Tendsto (fun n : ℕ => √(((n : ℝ) - 1) / n) * (stdDev1 (List.ofFn (firsts n ω)) /
      absDeviation (meanOf id (List.ofFn (firsts n ω))) (List.ofFn (firsts n ω)))) atTop (𝓝 (lawGeary Q)) := by
    have h := ratio_tendsto.sqrt.mul (hs1.div b hd.ne')
    rw [Real.sqrt_one, one_mul] at h
    exact h
  have hpos : ∀ᶠ n in atTop, 0 < stdDev1 (List.ofFn (firsts n ω)) := hs1.eventually (lt_mem_nhds hs)
  have hbpos := b.eventually (lt_mem_nhds hd)
  have hst : ∀ n : ℕ, 0 < n → 0 < stirling n := fun n hn => by
    have : (0 : ℝ) < n := by exact_mod_cast hn
    have := Real.pi_pos
    unfold stirling
    positivity
  refine ⟨_, power_mean_settles hx hy ?_ ?_, ?_⟩
  · filter_upwards [hlt, hpos, eventually_gt_atTop 0] with n h1 h2 hn
    have := hst n hn
    have := sub_pos.2 h1
    positivity
  · filter_upwards [hpos, hbpos] with n h1 h2
    exact mul_nonneg (Real.sqrt_nonneg _) (div_pos h1 h2).le
  · filter_upwards [hlt, hpos, hbpos, eventually_gt_atTop 200] with n h1 h2 h3 hn
    have hl : (List.ofFn (firsts n ω)).length = n := List.length_ofFn
    have hn' : (200 : ℝ) < n := by exact_mod_cast hn
    rw [normal_value (C117_spiegelhalter scipyNorm (by rw [hl]; omega) (ho n)), hl, if_neg (by omega), spiegelhalterStat]
    have p := hst n (by omega)
    have pc : 0 < stirling n ^ (1 / ((n : ℝ) - 1)) / (2 * n) := by positivity
    generalize stirling n ^ (1 / ((n : ℝ) - 1)) / (2 * n) = c at pc ⊢
    generalize absDeviation (meanOf id (List.ofFn (firsts n ω))) (List.ofFn (firsts n ω)) = d at h3 ⊢
    generalize stdDev1 (List.ofFn (firsts n ω)) = s at h2 ⊢
    have h4 := sub_pos.2 h1
    generalize o n n - o n 1 = R at h4 ⊢
    have r1 : 0 < √(n : ℝ) := Real.sqrt_pos.2 (by linarith)
    have r2 : 0 < √((n : ℝ) - 1) := Real.sqrt_pos.2 (by linarith)
    rw [Real.sqrt_div' _ (by positivity : (0 : ℝ) ≤ n), Real.rpow_neg (by positivity), Real.rpow_neg (by positivity),
      ← Real.inv_rpow (by positivity), ← Real.inv_rpow (by positivity)]
    congr 4
    · congr 1
      field_simp
    · field_simp

theorem gaussian_width (m : ℝ) {v : ℝ} (hv : 0 < v) : inverseWidth (gaussianReal m v.toNNReal) = 0 := by
  refine le_antisymm (le_of_forall_pos_le_add fun ε hε => ?_) (inverseWidth_nonneg _)
  have hac := gaussianReal_absolutelyContinuous' m (toNNReal_ne hv)
  rw [zero_add]
  refine csInf_le (inverseWidth_bdd _) ⟨0, 1 / ε, by positivity, ?_, ?_, ?_⟩
  · exact pos_iff_ne_zero.2 fun h => by simpa using hac h
  · exact pos_iff_ne_zero.2 fun h => by simpa using hac h
  · rw [sub_zero, one_div_one_div]

/-- **C137, Spiegelhalter**: in the long run the criterion is the larger of the ratio of standard deviation to mean absolute
deviation and of `2 e` times the ratio of standard deviation to width.  Every law with a finite variance for which it is not
that of the normal laws, `√(π/2)`, is rejected in the long run. -/
theorem C137_spiegelhalter {classes : List GeneratorClass} (hp : classes.Perm generatorClasses) (m : ℝ) {v : ℝ} (hv : 0 < v) :
    ∃ G, (Gen.Family.normal m v).simulator classes = .ok G ∧
    (∀ n, G.generate n = .ok (iid n (gaussianReal m v.toNNReal))) ∧
    ∀ Q : Measure ℝ, IsProbabilityMeasure Q → Integrable (fun x => |x| ^ 2) Q → (∀ c, Q ≠ Measure.dirac c) →
      max (2 * Real.exp 1 * √(lawVariance Q) * inverseWidth Q) (lawGeary Q) ≠ √(Real.pi / 2) →
      Consistent (NormStat.spiegelhalter.statistic scipyNorm code params) Q (gaussianReal m v.toNNReal) := by
  refine with_normal hp m hv fun Q _ h2 hQ h => ?_
  have hV := (lawVariance_pos h2).2 hQ
  have hg := spiegelhalter_settles code params (gaussian_moment_finite m v.toNNReal 2) (gaussian_variance_pos m hv)
  rw [gaussian_geary m hv, gaussian_width m hv, mul_zero, max_eq_right (Real.sqrt_nonneg _)] at hg
  refine value_consistent (normal_meas _ code params) (.of_forall fun _ => strictMono_id)
    (spiegelhalter_settles code params h2 hV) hg ?_
  rcases lt_or_gt_of_ne h with h | h
  · exact Or.inr ⟨(fun h => by cases h), h⟩
  · exact Or.inl ⟨(fun h => by cases h), h⟩

end

/-! ### Concrete cases -/

/-- Uniform observations: the standard deviation is `1/√12` of the width. -/
example : Consistent (NormStat.spiegelhalter.statistic scipyNorm "SPIEGELHALTER" none) (uniformLaw 0 1)
    (gaussianReal 2 (Real.toNNReal 5)) := by
  have hpr := (cdf_uniformLaw (one_pos (α := ℝ))).1
  obtain ⟨_, _, _, h⟩ := C137_spiegelhalter "SPIEGELHALTER" none (List.Perm.refl _) 2 (v := 5) (by norm_num)
  refine h _ hpr (uniform_moment 2) (uniform_not_const one_pos) (ne_of_gt (lt_max_of_lt_left ?_))
  have hw : 1 ≤ inverseWidth (uniformLaw 0 1) := by
    have hV := (lawVariance_pos (uniform_moment (b := 1) 2)).2 (uniform_not_const one_pos)
    refine le_csInf (inverseWidth_nonempty (uniform_moment 2) hV) ?_
    rintro y ⟨a, b, hab, ha, hb, rfl⟩
    have hin := uniform_inside (one_pos (α := ℝ))
    have h1 : 0 ≤ a := by
      by_contra hlt
      refine ha.ne' (measure_mono_null (fun x hx => ?_) (ae_iff.1 hin))
      simp only [Set.mem_Iic] at hx
      simp only [Set.mem_setOf_eq, not_and]
      intro h0
      linarith
    have h2 : b ≤ 1 := by
      by_contra hlt
      refine hb.ne' (measure_mono_null (fun x hx => ?_) (ae_iff.1 hin))
      simp only [Set.mem_Ici] at hx
      simp only [Set.mem_setOf_eq, not_and]
      intro h0
      linarith
    rw [le_div_iff₀ (sub_pos.2 hab)]
    linarith
  rw [lawVariance_uniform one_pos]
  have hs : √(Real.pi / 2) < 1.26 := by
    rw [Real.sqrt_lt' (by norm_num)]
    linarith [Real.pi_lt_d2]
  have hq : (0.28 : ℝ) ≤ √(1 ^ 2 / 12) := Real.le_sqrt_of_sq_le (by norm_num)
  have he := Real.exp_one_gt_d9
  calc √(Real.pi / 2) < 2 * 2.7 * 0.28 * 1 := hs.trans (by norm_num)
    _ ≤ 2 * Real.exp 1 * √(1 ^ 2 / 12) * inverseWidth (uniformLaw 0 1) := by gcongr; linarith

end Pysatl.Props
