import Verif.Props.OutlierMoments
import Verif.Props.NormalDomainScores

/-! # C110 and C118 of the kurtosis criterion, for every sample size

The transform of the kurtosis has a pole. No sample of up to thirty-four observations reaches it, and samples of
every larger size do. -/

namespace Pysatl.Props

open Pysatl.Decision Pysatl.Graph Pysatl.Edf Pysatl.Exponent Pysatl.Normal Pysatl.Spec Filter Topology

theorem kurtosis_ge_one {zs : List ℝ} (hv : Varies zs) : 1 ≤ kurtosis zs := by
  have hσ := stdDev_pos hv
  have hn : (0 : ℝ) < zs.length := by exact_mod_cast List.length_pos_iff.2 hv.ne_nil
  have h := sq_sum_le_length ((zs.map fun x => x - meanOf id zs).map (· ^ 2))
  have e : (((zs.map fun x => x - meanOf id zs).map (· ^ 2)).map (· ^ 2)).sum =
      zs.length * Spec.centralMoment 4 zs := by
    rw [← centred_sq hv.ne_nil 4, List.map_map]
    congr 2
    funext x
    simp only [Function.comp]
    ring
  rw [centred_sq hv.ne_nil 2] at h
  rw [e, List.length_map, List.length_map, ← stdDev_sq] at h
  rw [kurtosis, le_div_iff₀ (by positivity), one_mul]
  have : (zs.length : ℝ) ^ 2 * stdDev zs ^ 4 ≤ (zs.length : ℝ) ^ 2 * Spec.centralMoment 4 zs := by
    linarith
  exact le_of_mul_le_mul_left this (by positivity)

/-- Up to thirty-four observations, every sample is beyond the pole. -/
theorem kurtosis_clear {zs : List ℝ} (hv : Varies zs) (h5 : 5 ≤ zs.length) (h34 : zs.length ≤ 34) {E V A : ℝ}
    (h : AnscombeGlynn zs.length E V A) : 0 < 1 + (kurtosis zs - E) / √V * √(2 / (A - 4)) := by
  have h5' : (5 : ℝ) ≤ zs.length := by exact_mod_cast h5
  obtain ⟨-, hA, hV⟩ := kurtosis_param h5' h rfl
  have hE : 1 < E := by
    rw [h.mean, lt_div_iff₀ (by linarith)]
    linarith
  refine ((kurtosis_pole hV (by linarith) hE).1.2 (kurtosis_pole_low h5 h34 h)).trans_le ?_
  have : (1 - E) / √V ≤ (kurtosis zs - E) / √V :=
    div_le_div_of_nonneg_right (by linarith [kurtosis_ge_one hv]) (Real.sqrt_nonneg _)
  have := mul_le_mul_of_nonneg_right this (Real.sqrt_nonneg (2 / (A - 4)))
  linarith

/-- **C110**: up to thirty-four observations, the kurtosis criterion and the D'Agostino-Pearson statistic never
divide by zero. -/
theorem C110_kurtosis_small (lib : NormLib) {xs : List ℝ} (hv : Varies xs) (h5 : 5 ≤ xs.length)
    (h34 : xs.length ≤ 34) : NormStat.kurtosis.checked lib xs = NormStat.kurtosis.value lib xs ∧
      NormStat.dap.checked lib xs = NormStat.dap.value lib xs := by
  obtain ⟨E, V, A, h⟩ := exists_anscombeGlynn (n := xs.length) (by exact_mod_cast h5)
  exact C110_kurtosis_partial lib hv h5 h (kurtosis_clear hv h5 h34 h).ne'

/-- **C110 (refuted)** of both statistics at every larger sample size: some sample makes them divide by zero. -/
theorem C110_refuted_kurtosis_large (lib : NormLib) {n : ℕ} (hn : 35 ≤ n) : ∃ xs : List ℝ, xs.length = n ∧
    Varies xs ∧ NormStat.kurtosis.checked lib xs = .error .zeroDivisionError ∧
    NormStat.dap.checked lib xs = .error .zeroDivisionError := by
  have hn' : (35 : ℝ) ≤ n := by exact_mod_cast hn
  obtain ⟨E, V, A, h⟩ := exists_anscombeGlynn (n := n) (by linarith)
  obtain ⟨d₀, hd, hz⟩ := kurtosis_near_pole hn h
  obtain ⟨zs, hl, hv, e⟩ := hz 0 hd le_rfl
  have e : kurtosisTestC zs = .error .zeroDivisionError := by
    rw [kurtosisTestC_eq hv (by omega), hl, (kurtosisZC_ok (by linarith) h).2 e]
  refine ⟨zs, hl, hv, ?_, ?_⟩ <;> simp only [NormStat.checked, dapC]
  · rw [e]; rfl
  · rw [skewTestC_ok hv, skewTest, if_neg (by omega), ok_bind, e]; rfl

/-- **C118**: up to thirty-four observations, the kurtosis criterion orders samples of the same size by their
kurtosis. -/
theorem C118_kurtosis_order_small (lib : NormLib) {xs ys : List ℝ} (hx : Varies xs) (hy : Varies ys)
    (h5 : 5 ≤ xs.length) (h34 : xs.length ≤ 34) (hl : xs.length = ys.length) :
    ∃ v w, NormStat.value lib .kurtosis xs = .ok (some v) ∧ NormStat.value lib .kurtosis ys = .ok (some w) ∧
      (v < w ↔ kurtosis xs < kurtosis ys) := by
  obtain ⟨E, V, A, h⟩ := exists_anscombeGlynn (n := xs.length) (by exact_mod_cast h5)
  have ex := kurtosis_value lib h5
  have ey := kurtosis_value lib (xs := ys) (by omega)
  refine ⟨_, _, ex, ey, fun hvw => ?_, fun hlt => ?_⟩
  · by_contra hge
    rcases (not_lt.1 hge).lt_or_eq with h1 | h1
    · obtain ⟨v, w, hv, hw, h2⟩ := C118_kurtosis_order_partial lib (xs := ys) (ys := xs) (by omega) hl.symm
        (hl ▸ h) (Or.inl (kurtosis_clear hy (by omega) (by omega) (hl ▸ h))) h1
      rw [ey] at hv
      rw [ex] at hw
      simp only [Except.ok.injEq, Option.some.injEq] at hv hw
      linarith
    · rw [h1, hl] at hvw
      exact lt_irrefl _ hvw
  · obtain ⟨v, w, hv, hw, h2⟩ := C118_kurtosis_order_partial lib h5 hl h
      (Or.inl (kurtosis_clear hx h5 h34 h)) hlt
    rw [ex] at hv
    rw [ey] at hw
    simp only [Except.ok.injEq, Option.some.injEq] at hv hw
    linarith

/-- **C118 (refuted)** of the kurtosis criterion at every larger sample size: of two samples of that size, the one
with the smaller kurtosis gets the larger value. -/
theorem C118_refuted_kurtosis_large (lib : NormLib) {n : ℕ} (hn : 35 ≤ n) : ∃ xs ys : List ℝ, ∃ v w,
    xs.length = n ∧ ys.length = n ∧ Varies xs ∧ Varies ys ∧ kurtosis xs < kurtosis ys ∧
    NormStat.value lib .kurtosis xs = .ok (some v) ∧ NormStat.value lib .kurtosis ys = .ok (some w) ∧ w < v := by
  have hn' : (35 : ℝ) ≤ n := by exact_mod_cast hn
  obtain ⟨E, V, A, h⟩ := exists_anscombeGlynn (n := n) (by linarith)
  obtain ⟨-, hA, hV⟩ := kurtosis_param (by linarith) h rfl
  have hV' : 0 < √V := Real.sqrt_pos.2 hV
  have hr : 0 < √(2 / (A - 4)) := Real.sqrt_pos.2 (div_pos two_pos (by linarith))
  obtain ⟨d₀, hd, hz⟩ := kurtosis_near_pole hn h
  obtain ⟨zs, hl, hv, e⟩ := hz (d₀ / 2) (by linarith) (by linarith)
  have hy : E ≤ kurtosis (two n 2) := by
    rw [h.mean]
    exact kurtosis_two_ge (by omega)
  have hpos : 0 ≤ (kurtosis (two n 2) - E) / √V * √(2 / (A - 4)) :=
    mul_nonneg (div_nonneg (by linarith) hV'.le) hr.le
  refine ⟨zs, two n 2, _, _, hl, length_two (by omega), hv, varies_two (by omega) two_pos, ?_,
    kurtosis_value lib (by omega), kurtosis_value lib (by rw [length_two] <;> omega), ?_⟩
  · by_contra hge
    have : (kurtosis (two n 2) - E) / √V * √(2 / (A - 4)) ≤ (kurtosis zs - E) / √V * √(2 / (A - 4)) :=
      mul_le_mul_of_nonneg_right (div_le_div_of_nonneg_right (by linarith) hV'.le) hr.le
    linarith
  · rw [hl, length_two (by omega), kurtosisZ_of_pos (b := kurtosis (two n 2)) (by linarith) h (by linarith),
      kurtosisZ_spec (by linarith) h rfl, e, Real.sign_of_neg (by linarith)]
    refine div_lt_div_of_pos_right ?_ (Real.sqrt_pos.2 (by positivity))
    have ha : 0 < 1 - 2 / A := sub_pos.2 ((div_lt_one (by linarith)).2 (by linarith))
    have p1 := Real.rpow_pos_of_pos (div_pos ha (abs_pos.2 (show d₀ / 2 ≠ 0 by linarith))) (1 / 3 : ℝ)
    have p2 := Real.rpow_pos_of_pos (div_pos ha (show 0 < 1 + (kurtosis (two n 2) - E) / √V * √(2 / (A - 4)) by
      linarith)) (1 / 3 : ℝ)
    linarith

/-! ### The hypotheses hold of concrete samples -/

example (lib : NormLib) : NormStat.kurtosis.checked lib (two 20 3) = NormStat.kurtosis.value lib (two 20 3) :=
  (C110_kurtosis_small lib (varies_two (by norm_num) (by norm_num)) (by rw [length_two] <;> norm_num)
    (by rw [length_two] <;> norm_num)).1

example : 5 ≤ (two 20 3).length ∧ (two 20 3).length ≤ 34 ∧ (two 20 3).length = (two 20 10).length ∧
    Varies (two 20 3) ∧ Varies (two 20 10) ∧ kurtosis (two 20 10) < kurtosis (two 20 3) := by
  refine ⟨by rw [length_two] <;> norm_num, by rw [length_two] <;> norm_num,
    by rw [length_two (by norm_num), length_two (by norm_num)], varies_two (by norm_num) (by norm_num),
    varies_two (by norm_num) (by norm_num), ?_⟩
  rw [kurtosis_two (by norm_num) (by norm_num), kurtosis_two (by norm_num) (by norm_num), inv2, inv2]
  norm_num

end Pysatl.Props
