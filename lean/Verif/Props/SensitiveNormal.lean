import Verif.Props.SensitiveExp
import Verif.Props.NormalMoments
import Verif.Props.ShapiroWilk

/-! # C96 for the criteria of normality -/

namespace Pysatl.Props

open Pysatl.Decision Pysatl.Graph Pysatl.Edf Pysatl.Exponent Pysatl.Spec Pysatl.Normal
open MeasureTheory ProbabilityTheory

/-! ### Samples of zeros and ones -/

/-- `k` of the `n` observations are one, the others zero. -/
noncomputable def two (n k : ℕ) : List ℝ := List.replicate (n - k) 0 ++ List.replicate k 1

theorem length_two {n k : ℕ} (h : k ≤ n) : (two n k).length = n := by simp [two]; omega

theorem varies_two {n k : ℕ} (h : k < n) (h0 : 0 < k) : Varies (two n k) :=
  ⟨0, List.mem_append_left _ (List.mem_replicate.2 ⟨by omega, rfl⟩), 1,
    List.mem_append_right _ (List.mem_replicate.2 ⟨by omega, rfl⟩), zero_ne_one⟩

theorem sum_two {n k : ℕ} (h : k ≤ n) (f : ℝ → ℝ) : ((two n k).map f).sum = (n - k) * f 0 + k * f 1 := by
  simp [two, Nat.cast_sub h]

theorem meanOf_two {n k : ℕ} (h : k ≤ n) (f : ℝ → ℝ) : meanOf f (two n k) = ((n - k) * f 0 + k * f 1) / n := by
  rw [meanOf, sum_two h, length_two h]

/-- The inverse of the product of the two frequencies. -/
noncomputable def inv2 (n k : ℕ) : ℝ := (n : ℝ) ^ 2 / (k * (n - k))

theorem inv2_facts {n k : ℕ} (h : k < n) (h0 : 0 < k) : (0 : ℝ) < k ∧ (0 : ℝ) < n - k ∧ (0 : ℝ) < n := by
  have h1 : (k : ℝ) < n := by exact_mod_cast h
  have h2 : (0 : ℝ) < k := by exact_mod_cast h0
  exact ⟨h2, by linarith, by linarith⟩

theorem inv2_ge {n k : ℕ} (h : k < n) (h0 : 0 < k) : 4 ≤ inv2 n k := by
  obtain ⟨hk, hm, hn⟩ := inv2_facts h h0
  rw [inv2, le_div_iff₀ (mul_pos hk hm)]
  nlinarith [sq_nonneg ((n : ℝ) - 2 * k)]

theorem inv2_lt {n : ℕ} (hn : 4 ≤ n) : inv2 n 2 < inv2 n 1 := by
  have h : (4 : ℝ) ≤ n := by exact_mod_cast hn
  rw [inv2, inv2]
  push_cast
  refine div_lt_div_of_pos_left (by positivity) (by linarith) (by linarith)

theorem mean_two {n k : ℕ} (h : k < n) (h0 : 0 < k) : meanOf id (two n k) = k / n := by
  rw [meanOf_two h.le]
  simp

theorem moment2_two {n k : ℕ} (h : k < n) (h0 : 0 < k) : Spec.centralMoment 2 (two n k) = 1 / inv2 n k := by
  obtain ⟨hk, hm, hn⟩ := inv2_facts h h0
  rw [Spec.centralMoment, mean_two h h0, meanOf_two h.le, inv2]
  generalize (n : ℝ) = N at *
  generalize (k : ℝ) = m at *
  field_simp
  ring

theorem moment3_two {n k : ℕ} (h : k < n) (h0 : 0 < k) : Spec.centralMoment 3 (two n k) =
    1 / inv2 n k * ((n - 2 * k) / n) := by
  obtain ⟨hk, hm, hn⟩ := inv2_facts h h0
  rw [Spec.centralMoment, mean_two h h0, meanOf_two h.le, inv2]
  generalize (n : ℝ) = N at *
  generalize (k : ℝ) = m at *
  field_simp
  ring

theorem moment4_two {n k : ℕ} (h : k < n) (h0 : 0 < k) : Spec.centralMoment 4 (two n k) =
    1 / inv2 n k * (1 - 3 / inv2 n k) := by
  obtain ⟨hk, hm, hn⟩ := inv2_facts h h0
  rw [Spec.centralMoment, mean_two h h0, meanOf_two h.le, inv2]
  generalize (n : ℝ) = N at *
  generalize (k : ℝ) = m at *
  field_simp
  ring

theorem kurtosis_two {n k : ℕ} (h : k < n) (h0 : 0 < k) : kurtosis (two n k) = inv2 n k - 3 := by
  have h4 := inv2_ge h h0
  rw [kurtosis, show stdDev (two n k) ^ 4 = (stdDev (two n k) ^ 2) ^ 2 by ring, stdDev_sq, moment2_two h h0, moment4_two h h0]
  generalize inv2 n k = r at *
  have : 0 < r := by linarith
  field_simp

theorem skewness_two_sq {n k : ℕ} (h : k < n) (h0 : 0 < k) : skewness (two n k) ^ 2 = inv2 n k - 4 := by
  obtain ⟨hk, hm, hn⟩ := inv2_facts h h0
  have h4 := inv2_ge h h0
  rw [skewness, div_pow, show (stdDev (two n k) ^ 3) ^ 2 = (stdDev (two n k) ^ 2) ^ 3 by ring, stdDev_sq, moment2_two h h0,
    moment3_two h h0]
  have e : (((n : ℝ) - 2 * k) / n) ^ 2 = 1 - 4 / inv2 n k := by
    rw [inv2]
    field_simp
    ring
  rw [mul_pow, e]
  generalize inv2 n k = r at *
  have : 0 < r := by linarith
  field_simp

theorem skewness_two_pos {n k : ℕ} (h : 2 * k < n) (h0 : 0 < k) : 0 < skewness (two n k) := by
  have hkn : k < n := by omega
  have h4 := inv2_ge hkn h0
  obtain ⟨hk, hm, hn⟩ := inv2_facts hkn h0
  have : (2 * k : ℝ) < n := by exact_mod_cast h
  rw [skewness, moment3_two hkn h0]
  exact div_pos (mul_pos (by positivity) (div_pos (by linarith) hn)) (pow_pos (stdDev_pos (varies_two hkn h0)) 3)

/-! ### Execution -/

variable {code : String} {params : Option (List (String × ℝ))}

theorem run_some {lib : NormLib} {s : NormStat} {xs : List ℝ} {v : ℝ} (h : s.value lib xs = .ok (some v)) :
    (s.statistic lib code params).execute xs = .ok v := by
  simp only [NormStat.statistic, h]
  rfl

theorem tells_two {lib : NormLib} {s : NormStat} {n j k : ℕ} (hj : j < n) (hj0 : 0 < j) (hk : k < n) (hk0 : 0 < k) {v w : ℝ}
    (hv : s.value lib (two n j) = .ok (some v)) (hw : s.value lib (two n k) = .ok (some w)) (h : v ≠ w) :
    TellsApart Varies (s.statistic lib code params).execute n :=
  ⟨_, _, v, w, ⟨length_two hj.le, varies_two hj hj0⟩, ⟨length_two hk.le, varies_two hk hk0⟩, run_some hv,
    run_some hw, h⟩

/-! ### Moment criteria -/

theorem tells_jarqueBera (lib : NormLib) {n : ℕ} (hn : 4 ≤ n) :
    TellsApart Varies (NormStat.jarqueBera.statistic lib code params).execute n := by
  have ne : ∀ {k}, k < n → 0 < k → two n k ≠ [] := fun h h0 => (varies_two h h0).ne_nil
  have h1 := C117_jarqueBera lib (ne (k := 1) (by omega) one_pos)
  have h2 := C117_jarqueBera lib (ne (k := 2) (by omega) two_pos)
  refine tells_two (by omega) one_pos (by omega) two_pos h1 h2 ?_
  rw [length_two (by omega), length_two (by omega), skewness_two_sq (by omega) one_pos, skewness_two_sq (by omega) two_pos,
    kurtosis_two (by omega) one_pos, kurtosis_two (by omega) two_pos]
  have hlt := inv2_lt hn
  have hge := inv2_ge (n := n) (k := 2) (by omega) two_pos
  have h0 : (0 : ℝ) < n := by exact_mod_cast (by omega : 0 < n)
  refine ne_of_gt (mul_lt_mul_of_pos_left ?_ h0)
  nlinarith

theorem tells_skew (lib : NormLib) {n : ℕ} (hn : 8 ≤ n) :
    TellsApart Varies (NormStat.skew.statistic lib code params).execute n := by
  have p1 := skewness_two_pos (n := n) (k := 1) (by omega) one_pos
  have p2 := skewness_two_pos (n := n) (k := 2) (by omega) two_pos
  obtain ⟨v, w, hv, hw, -, h⟩ := C118_skew_order lib (xs := two n 2) (ys := two n 1) (by rw [length_two] <;> omega)
    (by rw [length_two (by omega), length_two (by omega)]) p2.ne' p1.ne'
  refine tells_two (by omega) two_pos (by omega) one_pos hv hw (h.2 ?_).ne
  refine lt_of_pow_lt_pow_left₀ 2 p1.le ?_
  rw [skewness_two_sq (by omega) one_pos, skewness_two_sq (by omega) two_pos]
  linarith [inv2_lt (n := n) (by omega)]

theorem kurtosis_two_ge {n : ℕ} (hn : 8 ≤ n) : 3 * ((n : ℝ) - 1) / (n + 1) ≤ kurtosis (two n 2) := by
  have h : (8 : ℝ) ≤ n := by exact_mod_cast hn
  rw [kurtosis_two (by omega) two_pos, inv2]
  push_cast
  rw [div_le_iff₀ (by linarith), sub_mul, div_mul_eq_mul_div, le_sub_iff_add_le, le_div_iff₀ (by linarith)]
  nlinarith [mul_nonneg (sub_nonneg.2 h) (sub_nonneg.2 h), mul_nonneg (mul_nonneg (sub_nonneg.2 h) (sub_nonneg.2 h)) (sub_nonneg.2 h)]

theorem tells_kurtosis (lib : NormLib) {n : ℕ} (hn : 8 ≤ n) :
    TellsApart Varies (NormStat.kurtosis.statistic lib code params).execute n := by
  have h8 : (8 : ℝ) ≤ n := by exact_mod_cast hn
  obtain ⟨E, V, A, hE⟩ := exists_anscombeGlynn (n := n) (by linarith)
  have l2 : (two n 2).length = n := length_two (by omega)
  obtain ⟨v, w, hv, hw, h⟩ := C118_kurtosis_order_partial lib (xs := two n 2) (ys := two n 1) (by omega)
    (by rw [l2, length_two (by omega)]) (l2.symm ▸ hE) (.inr (by rw [hE.mean]; exact kurtosis_two_ge hn))
    (by rw [kurtosis_two (by omega) one_pos, kurtosis_two (by omega) two_pos]; linarith [inv2_lt (n := n) (by omega)])
  exact tells_two (by omega) two_pos (by omega) one_pos hv hw h.ne

/-- From the mean of the kurtosis of normal samples on, the kurtosis criterion is positive. -/
theorem kurtosisZ_pos {n E V A b : ℝ} (hn : 5 ≤ n) (h : AnscombeGlynn n E V A) (hb : E ≤ b) : 0 < kurtosisZ n b := by
  obtain ⟨-, hA, hV⟩ := kurtosis_param hn h rfl
  rw [kurtosisZ_spec hn h rfl]
  have h1 : (1 : ℝ) ≤ 1 + (b - E) / √V * √(2 / (A - 4)) :=
    le_add_of_nonneg_right (mul_nonneg (div_nonneg (sub_nonneg.2 hb) (Real.sqrt_nonneg _)) (Real.sqrt_nonneg _))
  rw [Real.sign_of_pos (by linarith), abs_of_pos (by linarith), one_mul]
  refine div_pos (sub_pos.2 ?_) (Real.sqrt_pos.2 (by positivity))
  have ha : 0 < 1 - 2 / A := sub_pos.2 ((div_lt_one (by linarith)).2 (by linarith))
  have h2 : (1 - 2 / A) / (1 + (b - E) / √V * √(2 / (A - 4))) ≤ 1 - 2 / A := div_le_self ha.le h1
  have h3 := Real.rpow_le_rpow (z := 1 / 3) (div_nonneg ha.le (by linarith)) h2 (by norm_num)
  refine h3.trans_lt ?_
  have hp : 0 < 2 / (9 * A) := by positivity
  have h4 : (1 - 2 / A : ℝ) = 1 - 9 * (2 / (9 * A)) := by field_simp
  have hq : 0 < 1 - 2 / (9 * A) := by rw [h4] at ha; linarith
  have h5 : ((1 - 2 / A : ℝ)) < (1 - 2 / (9 * A)) ^ 3 := by
    rw [h4]
    generalize 2 / (9 * A) = t at *
    nlinarith [mul_pos hp hp, mul_pos (mul_pos hp hp) hq]
  have h6 := Real.rpow_lt_rpow ha.le h5 (by norm_num : (0 : ℝ) < 1 / 3)
  rwa [← Real.rpow_natCast (1 - 2 / (9 * A)) 3, ← Real.rpow_mul hq.le, show ((3 : ℕ) : ℝ) * (1 / 3) = 1 by norm_num,
    Real.rpow_one] at h6

theorem tells_dap (lib : NormLib) {n : ℕ} (hn : 8 ≤ n) :
    TellsApart Varies (NormStat.dap.statistic lib code params).execute n := by
  have h8 : (8 : ℝ) ≤ n := by exact_mod_cast hn
  have p1 := skewness_two_pos (n := n) (k := 1) (by omega) one_pos
  have p2 := skewness_two_pos (n := n) (k := 2) (by omega) two_pos
  have l1 : (two n 1).length = n := length_two (by omega)
  have l2 : (two n 2).length = n := length_two (by omega)
  obtain ⟨v₂, v₁, a₂, a₁, hpos, h⟩ := C118_skew_order lib (xs := two n 2) (ys := two n 1) (by omega) (by omega) p2.ne' p1.ne'
  have hlt := inv2_lt (n := n) (by omega)
  have hs : v₂ < v₁ := h.2 (lt_of_pow_lt_pow_left₀ 2 p1.le (by
    rw [skewness_two_sq (by omega) one_pos, skewness_two_sq (by omega) two_pos]; linarith))
  have hs0 := hpos.2 p2
  obtain ⟨E, V, A, hE⟩ := exists_anscombeGlynn (n := n) (by linarith)
  obtain ⟨w₂, w₁, b₂, b₁, hk⟩ := C118_kurtosis_order_partial lib (xs := two n 2) (ys := two n 1) (by omega)
    (by omega) (l2.symm ▸ hE) (.inr (by rw [hE.mean]; exact kurtosis_two_ge hn))
    (by rw [kurtosis_two (by omega) one_pos, kurtosis_two (by omega) two_pos]; linarith)
  have hk0 : 0 < w₂ := by
    rw [kurtosis_value lib (by omega), l2] at b₂
    rw [← Option.some.inj (Except.ok.inj b₂)]
    exact kurtosisZ_pos (by linarith) hE (by rw [hE.mean]; exact kurtosis_two_ge hn)
  obtain ⟨v, w, e1, e2, e3⟩ := C118_dap lib (xs := two n 1) (by omega)
  obtain ⟨v', w', e1', e2', e3'⟩ := C118_dap lib (xs := two n 2) (by omega)
  rw [a₁] at e1; rw [b₁] at e2; rw [a₂] at e1'; rw [b₂] at e2'
  cases e1; cases e2; cases e1'; cases e2'
  refine tells_two (by omega) one_pos (by omega) two_pos e3 e3' (ne_of_gt ?_)
  nlinarith

theorem absDeviation_two {n k : ℕ} (h : k < n) (h0 : 0 < k) : absDeviation (meanOf id (two n k)) (two n k) = 2 / inv2 n k := by
  obtain ⟨hk, hm, hn⟩ := inv2_facts h h0
  rw [absDeviation, mean_two h h0, meanOf_two h.le, zero_sub, abs_neg, abs_of_pos (by positivity), abs_of_nonneg (by
    rw [sub_nonneg, div_le_one hn]; linarith), inv2]
  field_simp
  ring

theorem tells_bonettSeier (lib : NormLib) {n : ℕ} (hn : 4 ≤ n) :
    TellsApart Varies (NormStat.bonettSeier.statistic lib code params).execute n := by
  have v1 : Varies (two n 1) := varies_two (by omega) one_pos
  have v2 : Varies (two n 2) := varies_two (by omega) two_pos
  have h1 := (C117_bonettSeier lib v1 (by rw [length_two] <;> omega) rfl).1
  have h2 := (C117_bonettSeier lib v2 (by rw [length_two] <;> omega) rfl).1
  refine tells_two (by omega) one_pos (by omega) two_pos h1 h2 ?_
  rw [length_two (by omega), length_two (by omega), absDeviation_two (by omega) one_pos, absDeviation_two (by omega) two_pos]
  have hlt := inv2_lt hn
  have hge := inv2_ge (n := n) (k := 2) (by omega) two_pos
  have h0 : (0 : ℝ) < n := by exact_mod_cast (by omega : 0 < n)
  have hd : ∀ {k}, k < n → 0 < k → stdDev (two n k) / (2 / inv2 n k) = √(inv2 n k) / 2 := fun {k} h h0 => by
    have := inv2_ge h h0
    rw [stdDev, moment2_two h h0, Real.sqrt_div one_pos.le, Real.sqrt_one]
    have hs : 0 < √(inv2 n k) := Real.sqrt_pos.2 (by linarith)
    have := Real.sq_sqrt (show 0 ≤ inv2 n k by linarith)
    rw [div_div_eq_mul_div, one_div_mul_eq_div, div_div, div_eq_div_iff (by positivity) (by positivity)]
    nlinarith
  rw [hd (by omega) one_pos, hd (by omega) two_pos]
  have hq : 0 < √((n : ℝ) + 2) := Real.sqrt_pos.2 (by linarith)
  have hs : 0 < √(inv2 n 2) := Real.sqrt_pos.2 (by linarith)
  have hss := Real.sqrt_lt_sqrt (by linarith) hlt
  have hlog := Real.log_lt_log (by positivity) (show √(inv2 n 2) / 2 < √(inv2 n 1) / 2 by linarith)
  refine ne_of_gt (div_lt_div_of_pos_right (mul_lt_mul_of_pos_left ?_ hq) (by norm_num))
  linarith

theorem sort_two (n k : ℕ) : sort (two n k) = two n k :=
  sort_of_sorted (List.pairwise_append.2 ⟨sorted_replicate _ _, sorted_replicate _ _, fun a ha b hb => by
    rw [List.eq_of_mem_replicate ha, List.eq_of_mem_replicate hb]; exact zero_le_one⟩)

theorem at_two {n k i : ℕ} (hk : k ≤ n) (hi : i < n) : at_ (two n k) i = if i < n - k then 0 else 1 := by
  simp only [at_, two]
  rw [List.getD_eq_getElem?_getD, List.getElem?_append]
  simp only [List.length_replicate, List.getElem?_replicate]
  split_ifs <;> first | rfl | omega

/-- When at most half of the observations are ones, their frequency is the mean absolute deviation from the median. -/
theorem medianDeviation_two {n k : ℕ} (h : 2 * k ≤ n) (h0 : 0 < k) :
    ((two n k).map fun x => |x - median (sort (two n k))|).sum = k := by
  have hk : k ≤ n := by omega
  rw [sum_two hk, sort_two, median, length_two hk]
  have hc : (2 * k : ℝ) ≤ n := by exact_mod_cast h
  rcases h.lt_or_eq with h | h
  · have e : (if n % 2 = 0 then (at_ (two n k) (n / 2) + at_ (two n k) (n / 2 - 1)) / 2 else at_ (two n k) (n / 2)) = 0 := by
      rw [at_two hk (by omega), at_two hk (by omega), if_pos (show n / 2 < n - k by omega),
        if_pos (show n / 2 - 1 < n - k by omega)]
      simp
    rw [e]
    simp
  · subst h
    rw [if_pos (by omega), at_two hk (by omega), at_two hk (by omega), if_neg (by omega), if_pos (by omega)]
    push_cast
    norm_num
    ring

theorem gmg_two (lib : NormLib) {n k : ℕ} (hn : 3 < n) (h : 2 * k ≤ n) (h0 : 0 < k) : NormStat.gmg.value lib (two n k) =
    .ok (some (√(1 / inv2 n k) / (√(Real.pi / 2) * (k / n)))) := by
  have hk : k < n := by omega
  have e : ((two n k).map fun x => (x - mean (two n k)) ^ 2).sum / ((two n k).length : ℝ) = 1 / inv2 n k := by
    rw [← moment2_two hk h0, Spec.centralMoment, meanOf, mean_spec]
  simp only [NormStat.value, guarded, length_two hk.le, if_pos hn, Except.map, Normal.gmg, medianDeviation_two h h0]
  rw [length_two hk.le] at e
  rw [e, mul_div_assoc]

theorem tells_gmg (lib : NormLib) {n : ℕ} (hn : 4 ≤ n) :
    TellsApart Varies (NormStat.gmg.statistic lib code params).execute n := by
  refine tells_two (by omega) one_pos (by omega) two_pos (gmg_two lib hn (by omega) one_pos)
    (gmg_two lib hn (by omega) two_pos) (ne_of_gt ?_)
  have h4 : (4 : ℝ) ≤ n := by exact_mod_cast hn
  have hp : 0 < √(Real.pi / 2) := Real.sqrt_pos.2 (by positivity)
  have e : ∀ {k : ℕ}, k < n → 0 < k → √(1 / inv2 n k) / (√(Real.pi / 2) * (k / n)) =
      √((n - k) / k) / √(Real.pi / 2) := fun {k} h h0 => by
    obtain ⟨hk, hm, hn⟩ := inv2_facts h h0
    have : √(1 / inv2 n k) = √((n - k) / k) * (k / n) := by
      rw [inv2, ← Real.sqrt_sq (show 0 ≤ (k : ℝ) / n by positivity), ← Real.sqrt_mul (by positivity)]
      congr 1
      field_simp
    rw [this]
    field_simp
  rw [e (by omega) one_pos, e (by omega) two_pos]
  push_cast
  refine div_lt_div_of_pos_right (Real.sqrt_lt_sqrt (div_nonneg (by linarith) (by norm_num)) ?_) hp
  linarith

theorem robust_two (lib : NormLib) {n k : ℕ} (h : 2 * k ≤ n) (h0 : 0 < k) : NormStat.robustJarqueBera.value lib (two n k) =
    .ok (some (n / 6 * ((n / k - 1) * (n / k - 2) / √(Real.pi / 2) ^ 3) ^ 2 +
      n / 64 * ((n / k - 1) * ((n / k) ^ 2 - 3 * (n / k) + 3) / √(Real.pi / 2) ^ 4 - 3) ^ 2)) := by
  have hk' : k < n := by omega
  obtain ⟨hk, hm, hn⟩ := inv2_facts hk' h0
  have hp : 0 < √(Real.pi / 2) := Real.sqrt_pos.2 (by positivity)
  have med := medianDeviation_two h h0
  rw [sort_two] at med
  simp only [NormStat.value, Normal.robustJarqueBera, med, length_two hk'.le, sort_two, moment_spec,
    moment3_two hk' h0, moment4_two hk' h0, inv2]
  generalize √(Real.pi / 2) = c at *
  generalize (n : ℝ) = N at *
  generalize (k : ℝ) = m at *
  have e1 : 1 / (N ^ 2 / (m * (N - m))) * ((N - 2 * m) / N) / (c / N * m) ^ 3 = (N / m - 1) * (N / m - 2) / c ^ 3 := by
    field_simp
  have e2 : 1 / (N ^ 2 / (m * (N - m))) * (1 - 3 / (N ^ 2 / (m * (N - m)))) / (c / N * m) ^ 4 =
      (N / m - 1) * ((N / m) ^ 2 - 3 * (N / m) + 3) / c ^ 4 := by
    field_simp
    ring
  rw [e1, e2]

theorem tells_robust (lib : NormLib) {n : ℕ} (hn : 8 ≤ n) :
    TellsApart Varies (NormStat.robustJarqueBera.statistic lib code params).execute n := by
  refine tells_two (by omega) one_pos (by omega) two_pos (robust_two lib (by omega) one_pos)
    (robust_two lib (by omega) two_pos) (ne_of_gt ?_)
  have h8 : (8 : ℝ) ≤ n := by exact_mod_cast hn
  have hp : 0 < √(Real.pi / 2) := Real.sqrt_pos.2 (by positivity)
  have h4 : √(Real.pi / 2) ^ 4 ≤ 4 := by
    rw [show √(Real.pi / 2) ^ 4 = (√(Real.pi / 2) ^ 2) ^ 2 by ring, Real.sq_sqrt (by positivity)]
    have := Real.pi_le_four
    have := Real.pi_pos
    nlinarith
  push_cast
  generalize √(Real.pi / 2) = c at *
  have hN : (0 : ℝ) < n := by linarith
  have hN6 : (0 : ℝ) < n / 6 := by positivity
  have hN64 : (0 : ℝ) < n / 64 := by positivity
  have c3 : 0 < c ^ 3 := by positivity
  have c4 : 0 < c ^ 4 := by positivity
  have ht : (4 : ℝ) ≤ n / 2 := by linarith
  have ht' : (n : ℝ) / 1 = 2 * (n / 2) := by ring
  rw [ht']
  generalize (n : ℝ) / 2 = t at *
  have a0 : 0 ≤ (t - 1) * (t - 2) / c ^ 3 := div_nonneg (by nlinarith) c3.le
  have a1 : (t - 1) * (t - 2) / c ^ 3 ≤ (2 * t - 1) * (2 * t - 2) / c ^ 3 := div_le_div_of_nonneg_right (by nlinarith) c3.le
  have b0 : 0 ≤ (t - 1) * (t ^ 2 - 3 * t + 3) / c ^ 4 - 3 := by
    rw [sub_nonneg, le_div_iff₀ c4]
    nlinarith [mul_nonneg (sub_nonneg.2 ht) (sub_nonneg.2 ht), mul_nonneg (mul_nonneg (sub_nonneg.2 ht) (sub_nonneg.2 ht)) (sub_nonneg.2 ht)]
  have b1 : (t - 1) * (t ^ 2 - 3 * t + 3) / c ^ 4 - 3 < (2 * t - 1) * ((2 * t) ^ 2 - 3 * (2 * t) + 3) / c ^ 4 - 3 :=
    sub_lt_sub_right (div_lt_div_of_pos_right (by
      nlinarith [mul_nonneg (sub_nonneg.2 ht) (sub_nonneg.2 ht), mul_nonneg (mul_nonneg (sub_nonneg.2 ht) (sub_nonneg.2 ht)) (sub_nonneg.2 ht)]) c4) 3
  exact add_lt_add_of_le_of_lt (mul_le_mul_of_nonneg_left (pow_le_pow_left₀ a0 a1 2) hN6.le)
    (mul_lt_mul_of_pos_left (pow_lt_pow_left₀ b1 b0 two_ne_zero) hN64)

theorem var1'_two {n k : ℕ} (h : k < n) (h0 : 0 < k) : var1' (two n k) = n / (n - 1) / inv2 n k := by
  have e := variance_raw (two n k)
  rw [moment2_two h h0] at e
  have e1 : ((two n k).map (· ^ 2)).sum / ((two n k).length : ℝ) - mean (two n k) ^ 2 = 1 / inv2 n k := by
    rw [← e, mean_spec]; rfl
  rw [var1', e1, length_two h.le]
  ring

theorem sum_hermite {n k : ℕ} (h : k < n) (h0 : 0 < k) {s : ℝ} (hs : s ≠ 0) :
    (((two n k).map fun x => (x - mean (two n k)) / s).map fun v => he3 v / √6).sum =
      n * (Spec.centralMoment 3 (two n k) / s ^ 3) / √6 ∧
    (((two n k).map fun x => (x - mean (two n k)) / s).map fun v => he4 v / (2 * √6)).sum =
      n * (Spec.centralMoment 4 (two n k) / s ^ 4 - 6 * (Spec.centralMoment 2 (two n k) / s ^ 2) + 3) / (2 * √6) := by
  obtain ⟨hk, hm, hn⟩ := inv2_facts h h0
  have h6 : √(6 : ℝ) ≠ 0 := (Real.sqrt_pos.2 (by norm_num)).ne'
  simp only [List.map_map, Function.comp_def, mean_spec, mean_two h h0, moment2_two h h0, moment3_two h h0, moment4_two h h0,
    sum_two h.le, he3, he4, inv2]
  generalize √(6 : ℝ) = c at *
  generalize (n : ℝ) = N at *
  generalize (k : ℝ) = m at *
  constructor
  · field_simp
    ring
  · field_simp
    ring

theorem meddahi_two (lib : NormLib) {n k : ℕ} (hn : 3 < n) (h : k < n) (h0 : 0 < k) {a : ℝ} (ha : a = ((n : ℝ) - 1) / n) :
    NormStat.bontempsMeddahi1.value lib (two n k) =
    .ok (some (n * (a ^ 3 * (inv2 n k - 4) / 6 + (a ^ 2 * (inv2 n k - 3) - 6 * a + 3) ^ 2 / 24))) := by
  obtain ⟨hk, hm, hn0⟩ := inv2_facts h h0
  have h1 : (1 : ℝ) < n := by exact_mod_cast (by omega : 1 < n)
  have hr := inv2_ge h h0
  have hv : var1' (two n k) = 1 / (a * inv2 n k) := by
    rw [var1'_two h h0, ha]
    have : (n : ℝ) - 1 ≠ 0 := by linarith
    field_simp
  have ha0 : 0 < a := by rw [ha]; exact div_pos (by linarith) hn0
  have hpos : 0 < 1 / (a * inv2 n k) := by positivity
  have hs2 : √(1 / (a * inv2 n k)) ^ 2 = 1 / (a * inv2 n k) := Real.sq_sqrt hpos.le
  have hs0 : √(1 / (a * inv2 n k)) ≠ 0 := (Real.sqrt_pos.2 hpos).ne'
  obtain ⟨e3, e4⟩ := sum_hermite h h0 hs0
  simp only [NormStat.value, guarded, length_two h.le, if_pos hn, Except.map, Normal.bontempsMeddahi1, hv, e3, e4]
  have hsk := skewness_two_sq h h0
  rw [skewness, div_pow, show (stdDev (two n k) ^ 3) ^ 2 = (stdDev (two n k) ^ 2) ^ 3 by ring, stdDev_sq] at hsk
  have q3 : (Spec.centralMoment 3 (two n k) / √(1 / (a * inv2 n k)) ^ 3) ^ 2 = a ^ 3 * (inv2 n k - 4) := by
    rw [div_pow, ← pow_mul, show 3 * 2 = 2 * 3 by norm_num, pow_mul, hs2, ← hsk, moment2_two h h0]
    generalize Spec.centralMoment 3 (two n k) = t
    field_simp
  have q4 : Spec.centralMoment 4 (two n k) / √(1 / (a * inv2 n k)) ^ 4 = a ^ 2 * (inv2 n k - 3) := by
    rw [show 4 = 2 * 2 by norm_num, pow_mul, hs2, moment4_two h h0]
    field_simp
  have q2 : Spec.centralMoment 2 (two n k) / √(1 / (a * inv2 n k)) ^ 2 = a := by
    rw [hs2, moment2_two h h0]
    field_simp
  rw [q4, q2, div_pow, mul_pow, q3, div_pow, mul_pow, mul_pow, Real.sq_sqrt (by norm_num)]
  congr 2
  field_simp
  ring

theorem tells_meddahi (lib : NormLib) {n : ℕ} (hn : 4 ≤ n) :
    TellsApart Varies (NormStat.bontempsMeddahi1.statistic lib code params).execute n := by
  refine tells_two (by omega) one_pos (by omega) two_pos (meddahi_two lib hn (by omega) one_pos rfl)
    (meddahi_two lib hn (by omega) two_pos rfl) (ne_of_gt ?_)
  have h4 : (4 : ℝ) ≤ n := by exact_mod_cast hn
  have hlt := inv2_lt hn
  have hge := inv2_ge (n := n) (k := 2) (by omega) two_pos
  have ha0 : 0 < ((n : ℝ) - 1) / n := div_pos (by linarith) (by linarith)
  have ha1 : ((n : ℝ) - 1) / n < 1 := (div_lt_one (by linarith)).2 (by linarith)
  refine mul_lt_mul_of_pos_left ?_ (by linarith)
  generalize ((n : ℝ) - 1) / n = a at *
  generalize inv2 n 1 = r at *
  generalize inv2 n 2 = s at *
  have : (a ^ 3 * (r - 4) / 6 + (a ^ 2 * (r - 3) - 6 * a + 3) ^ 2 / 24) -
      (a ^ 3 * (s - 4) / 6 + (a ^ 2 * (s - 3) - 6 * a + 3) ^ 2 / 24) =
      a ^ 2 * (r - s) / 24 * (a ^ 2 * (r + s - 8) + 2 * ((1 - a) * (3 - a))) := by ring
  have h1 : 0 < a ^ 2 * (r - s) / 24 := div_pos (mul_pos (by positivity) (by linarith)) (by norm_num)
  have h2 : 0 < a ^ 2 * (r + s - 8) + 2 * ((1 - a) * (3 - a)) :=
    add_pos_of_nonneg_of_pos (mul_nonneg (by positivity) (by linarith)) (mul_pos two_pos (mul_pos (by linarith) (by linarith)))
  linarith [mul_pos h1 h2]

/-! ### Spiegelhalter -/

theorem npMax_two {n k : ℕ} (h : k < n) (h0 : 0 < k) : npMax (two n k) = .ok 1 := by
  rw [npMax_eq_ok]
  refine ⟨List.mem_append_right _ (List.mem_replicate.2 ⟨by omega, rfl⟩), fun x hx => ?_⟩
  rcases List.mem_append.1 hx with hx | hx <;> rw [List.eq_of_mem_replicate hx]
  exact zero_le_one

theorem pyMin_two {n k : ℕ} (h : k < n) (h0 : 0 < k) : pyMin (two n k) = .ok 0 := by
  rw [pyMin_eq_ok]
  refine ⟨List.mem_append_left _ (List.mem_replicate.2 ⟨by omega, rfl⟩), fun x hx => ?_⟩
  rcases List.mem_append.1 hx with hx | hx <;> rw [List.eq_of_mem_replicate hx]
  exact zero_le_one

theorem spiegelhalter_two {n : ℕ} (hn : 3 < n) : ∃ A B : ℝ, 0 < A ∧ 0 < B ∧ ∀ (lib : NormLib) {k : ℕ}, k < n → 0 < k →
    NormStat.spiegelhalter.value lib (two n k) = .ok (some ((A / √(inv2 n k) ^ ((n : ℝ) - 1) +
      B * √(inv2 n k) ^ ((n : ℝ) - 1)) ^ (1 / ((n : ℝ) - 1)))) := by
  have h4 : (4 : ℝ) ≤ n := by exact_mod_cast hn
  set c : ℝ := if n < 150 then 0.5 * Real.Gamma ((n : ℝ) + 1) ^ (1 / ((n : ℝ) - 1)) / n
    else (2 * Real.pi) ^ (1 / (2 * ((n : ℝ) - 1))) * (((n : ℝ) * √n) / Real.exp 1) ^ (1 / ((n : ℝ) - 1)) /
      (2 * Real.exp 1) with hc
  have hc0 : 0 < c := by
    rw [hc]
    have := Real.Gamma_pos_of_pos (show (0 : ℝ) < n + 1 by linarith)
    have hs : 0 < √(n : ℝ) := Real.sqrt_pos.2 (by linarith)
    have : (0 : ℝ) < n := by linarith
    split_ifs <;> positivity
  set d : ℝ := √((n : ℝ) / (n - 1)) with hd
  have hd0 : 0 < d := Real.sqrt_pos.2 (div_pos (by linarith) (by linarith))
  refine ⟨(c / d) ^ (-((n : ℝ) - 1)), (2 : ℝ) ^ (-((n : ℝ) - 1)), Real.rpow_pos_of_pos (by positivity) _,
    Real.rpow_pos_of_pos (by norm_num) _, fun lib k h h0 => ?_⟩
  obtain ⟨hk, hm, hn0⟩ := inv2_facts h h0
  have hr := inv2_ge h h0
  have hsq : 0 < √(inv2 n k) := Real.sqrt_pos.2 (by linarith)
  have hsd : √(var1 (two n k)) = d / √(inv2 n k) := by
    rw [hd, ← Real.sqrt_div (div_nonneg (by linarith) (by linarith))]
    congr 1
    have e : ((two n k).map fun x => (x - mean (two n k)) ^ 2).sum / ((two n k).length : ℝ) = 1 / inv2 n k := by
      rw [← moment2_two h h0, Spec.centralMoment, meanOf, mean_spec]
    rw [length_two h.le, div_eq_iff hn0.ne'] at e
    rw [var1, e, length_two h.le]
    ring
  have hab : ((two n k).map fun x => |x - mean (two n k)|).sum = n * (2 / inv2 n k) := by
    have := absDeviation_two h h0
    rw [absDeviation, meanOf, length_two h.le, div_eq_iff hn0.ne'] at this
    rw [mean_spec, this, mul_comm]
  have hsum : n * (2 / inv2 n k) / (d / √(inv2 n k) * √(n : ℝ) * √((n : ℝ) - 1)) = 2 / √(inv2 n k) := by
    have e : d * √((n : ℝ) - 1) = √(n : ℝ) := by
      rw [hd, ← Real.sqrt_mul (div_nonneg (by linarith) (by linarith)), div_mul_cancel₀ _ (by linarith)]
    have e1 := Real.mul_self_sqrt hn0.le
    have e2 := Real.mul_self_sqrt (show 0 ≤ inv2 n k by linarith)
    rw [show d / √(inv2 n k) * √(n : ℝ) * √((n : ℝ) - 1) = (d * √((n : ℝ) - 1)) * √(n : ℝ) / √(inv2 n k) by ring, e, e1]
    have : inv2 n k ≠ 0 := by linarith
    field_simp
    linarith
  simp only [NormStat.value, guarded, length_two h.le, if_pos hn, Normal.spiegelhalter, npMax_two h h0, pyMin_two h h0, hsd, hab,
    hsum, ← hc]
  have t1 : (c * (1 / (d / √(inv2 n k)))) ^ (-((n : ℝ) - 1)) = (c / d) ^ (-((n : ℝ) - 1)) / √(inv2 n k) ^ ((n : ℝ) - 1) := by
    rw [show c * (1 / (d / √(inv2 n k))) = c / d * √(inv2 n k) by field_simp, Real.mul_rpow (by positivity) hsq.le,
      Real.rpow_neg hsq.le, ← div_eq_mul_inv]
  have t2 : (2 / √(inv2 n k)) ^ (-((n : ℝ) - 1)) = (2 : ℝ) ^ (-((n : ℝ) - 1)) * √(inv2 n k) ^ ((n : ℝ) - 1) := by
    rw [Real.div_rpow (by norm_num) hsq.le, Real.rpow_neg hsq.le, div_inv_eq_mul]
  change (Except.ok (some (((c * ((1 - 0) / (d / √(inv2 n k)))) ^ (-((n : ℝ) - 1)) + (2 / √(inv2 n k)) ^ (-((n : ℝ) - 1))) ^
    (1 / ((n : ℝ) - 1)))) : Except PyErr (Option ℝ)) = _
  rw [sub_zero, t1, t2]

theorem tells_spiegelhalter (lib : NormLib) {n : ℕ} (hn : 6 ≤ n) :
    TellsApart Varies (NormStat.spiegelhalter.statistic lib code params).execute n := by
  obtain ⟨A, B, hA, hB, hv⟩ := spiegelhalter_two (n := n) (by omega)
  have h6 : (6 : ℝ) ≤ n := by exact_mod_cast hn
  have v1 := hv lib (k := 1) (by omega) one_pos
  have v2 := hv lib (k := 2) (by omega) two_pos
  have v3 := hv lib (k := 3) (by omega) (by norm_num)
  by_contra hcon
  have e12 := not_not.1 fun h => hcon (tells_two (by omega) one_pos (by omega) two_pos v1 v2 h)
  have e13 := not_not.1 fun h => hcon (tells_two (by omega) one_pos (by omega) (by norm_num) v1 v3 h)
  have p : ∀ {k}, k < n → 0 < k → 0 < √(inv2 n k) ^ ((n : ℝ) - 1) := fun h h0 =>
    Real.rpow_pos_of_pos (Real.sqrt_pos.2 (by linarith [inv2_ge h h0])) _
  have lt : ∀ {j k}, k < n → 0 < k → inv2 n k < inv2 n j → √(inv2 n k) ^ ((n : ℝ) - 1) < √(inv2 n j) ^ ((n : ℝ) - 1) :=
    fun h h0 hlt => Real.rpow_lt_rpow (Real.sqrt_nonneg _) (Real.sqrt_lt_sqrt (by linarith [inv2_ge h h0]) hlt) (by linarith)
  have l21 := lt (by omega) two_pos (inv2_lt (n := n) (by omega))
  have l32 : √(inv2 n 3) ^ ((n : ℝ) - 1) < √(inv2 n 2) ^ ((n : ℝ) - 1) := lt (by omega) (by norm_num) (by
    rw [inv2, inv2]
    push_cast
    exact div_lt_div_of_pos_left (by positivity) (by linarith) (by linarith))
  have p1 := p (k := 1) (by omega) one_pos
  have p2 := p (k := 2) (by omega) two_pos
  have p3 := p (k := 3) (by omega) (by norm_num)
  generalize √(inv2 n 1) ^ ((n : ℝ) - 1) = x at *
  generalize √(inv2 n 2) ^ ((n : ℝ) - 1) = y at *
  generalize √(inv2 n 3) ^ ((n : ℝ) - 1) = z at *
  have inj : ∀ {a b : ℝ}, 0 < a → 0 < b → a ^ (1 / ((n : ℝ) - 1)) = b ^ (1 / ((n : ℝ) - 1)) → a = b := fun ha hb h =>
    (Real.rpow_left_inj ha.le hb.le (one_div_ne_zero (by linarith))).1 h
  have q1 := inj (by positivity) (by positivity) e12
  have q2 := inj (by positivity) (by positivity) e13
  have r1 : (x - y) * (B * (x * y) - A) = 0 := by
    field_simp at q1
    linear_combination q1
  have r2 : (x - z) * (B * (x * z) - A) = 0 := by
    field_simp at q2
    linear_combination q2
  have s1 := (mul_eq_zero.1 r1).resolve_left (by linarith)
  have s2 := (mul_eq_zero.1 r2).resolve_left (by linarith)
  have : B * x * (y - z) = 0 := by linear_combination s1 - s2
  exact absurd this (mul_pos (mul_pos hB p1) (by linarith)).ne'

/-! ### Criteria whose values have no atoms -/

instance : NullSingletonClass (gaussianReal 0 1) := nullSingletonClass_gaussianReal one_ne_zero

theorem varies_of_nodup {xs : List ℝ} (h : xs.Nodup) (hl : 2 ≤ xs.length) : Varies xs := by
  match xs, hl with
  | a :: b :: l, _ => exact ⟨a, by simp, b, by simp, by simp at h; exact h.1.1⟩

/-- The statistic has a value for every sample of `n` different observations, and takes no value with positive probability
on normal samples. -/
structure Free (f : List ℝ → Except PyErr ℝ) (n : ℕ) : Prop where
  ok : ∀ xs, xs.length = n → xs.Nodup → ∃ v, f xs = .ok v
  null : ∀ c, iid n (gaussianReal 0 1) {x | (List.ofFn x).Nodup ∧ f (List.ofFn x) = .ok c} = 0

theorem ae_nodup (n : ℕ) : ∀ᵐ x ∂(iid n (gaussianReal 0 1)), (List.ofFn x).Nodup :=
  (ae_injective (μ := gaussianReal 0 1) (N := n)).mono fun _ hx => List.nodup_ofFn.2 hx

theorem Free.tells {f : List ℝ → Except PyErr ℝ} {n : ℕ} (h : Free f n) (hn : 2 ≤ n) : TellsApart Varies f n := by
  have hnd := ae_nodup n
  obtain ⟨x, hx⟩ := hnd.exists
  obtain ⟨v, hv⟩ := h.ok (List.ofFn x) List.length_ofFn hx
  have hne : ∀ᵐ y ∂(iid n (gaussianReal 0 1)), ¬ ((List.ofFn y).Nodup ∧ f (List.ofFn y) = .ok v) := by
    rw [ae_iff]; simpa using h.null v
  obtain ⟨y, hy, hy'⟩ := (hnd.and hne).exists
  obtain ⟨w, hw⟩ := h.ok (List.ofFn y) List.length_ofFn hy
  exact ⟨_, _, v, w, ⟨List.length_ofFn, varies_of_nodup hx (by simpa using hn)⟩,
    ⟨List.length_ofFn, varies_of_nodup hy (by simpa using hn)⟩, hv, hw, fun e => hy' ⟨hy, e ▸ hw⟩⟩

/-- A statistic whose value determines the square of a linear combination of the order statistics, divided by the sum of
squares. -/
theorem free_quadric {f : List ℝ → Except PyErr ℝ} {n : ℕ} (hn : 3 ≤ n) {c : ℕ → ℝ} (hc : ∃ k < n, c k ≠ 0) {g : ℝ → ℝ}
    (hok : ∀ xs, xs.length = n → xs.Nodup → ∃ v, f xs = .ok v ∧
      dot c (sort xs) ^ 2 = g v * (xs.map fun t => (t - mean xs) ^ 2).sum) : Free f n := by
  refine ⟨fun xs hl hd => ?_, fun v => ?_⟩
  · obtain ⟨v, hv, -⟩ := hok xs hl hd
    exact ⟨v, hv⟩
  · refine measure_mono_null (fun x hx => ?_) (dot_quadric_null (μ := gaussianReal 0 1) hn (K := g v) (.inl hc))
    obtain ⟨w, hw, h⟩ := hok _ List.length_ofFn hx.1
    rw [hx.2] at hw
    cases hw
    exact h

theorem sumsq_pos_of_nodup {xs : List ℝ} (h : xs.Nodup) (hl : 2 ≤ xs.length) :
    0 < (xs.map fun t => (t - mean xs) ^ 2).sum := sumsq_pos (varies_of_nodup h hl) _

theorem sumsq_sort (xs : List ℝ) : ((sort xs).map fun t => (t - mean (sort xs)) ^ 2).sum =
    (xs.map fun t => (t - mean xs) ^ 2).sum := by
  have : mean (sort xs) = mean xs := by rw [mean, mean, (sort_perm xs).sum_eq, (sort_perm xs).length_eq]
  rw [this, ((sort_perm xs).map _).sum_eq]

/-! ### Normal scores -/

theorem ppf_lt {p q : ℝ} (h0 : 0 < p) (h : p < q) (h1 : q < 1) : scipyNorm.ppf p < scipyNorm.ppf q := by
  have e1 := Phi_PhiInv h0 (h.trans h1)
  have e2 := Phi_PhiInv (h0.trans h) h1
  refine Phi_strictMono.lt_iff_lt.1 ?_
  change Phi (PhiInv p) < Phi (PhiInv q)
  rwa [e1, e2]

theorem blom_lt {n i j : ℕ} (h : i < j) : blom n i < blom n j := by
  have : (i : ℝ) < j := by exact_mod_cast h
  have : (0 : ℝ) ≤ n := Nat.cast_nonneg n
  exact div_lt_div_of_pos_right (by linarith) (by linarith)

theorem blom_lt_one {n i : ℕ} (h : i < n) : blom n i < 1 := by
  have : (i : ℝ) + 1 ≤ n := by exact_mod_cast h
  have : (0 : ℝ) ≤ n := Nat.cast_nonneg n
  rw [blom, div_lt_one (by linarith)]
  linarith

theorem score_lt {n i j : ℕ} (h : i < j) (hj : j < n) : scipyNorm.ppf (blom n i) < scipyNorm.ppf (blom n j) :=
  ppf_lt (blom_pos n i) (blom_lt h) (blom_lt_one hj)

theorem score_neg {n i : ℕ} (h : 2 * i + 1 < n) : scipyNorm.ppf (blom n i) < 0 := by
  have h1 := score_lt (n := n) (i := i) (j := n - 1 - i) (by omega) (by omega)
  rw [ppf_blom scipyNorm_symmetric (by omega)] at h1
  linarith

/-! ### Correlations -/

theorem free_pearson {f : List ℝ → Except PyErr ℝ} {n : ℕ} (hn : 3 ≤ n) {z : ℕ → ℝ} {i j : ℕ} (hi : i < n) (hj : j < n)
    (hij : z i ≠ z j) (hf : ∀ xs, xs.length = n → xs.Nodup →
      f xs = pearsonr ((List.range n).map fun i : ℕ => z i) (sort xs)) : Free f n := by
  set Z := (List.range n).map fun i : ℕ => z i with hZ
  have lZ : Z.length = n := by simp [hZ]
  have hS : ∑ i ∈ Finset.range n, (z i - mean Z) = 0 := by
    have : ∑ i ∈ Finset.range n, z i = Z.sum := by rw [hZ, sum_map_range]
    rw [Finset.sum_sub_distrib, this, mean, lZ, Finset.sum_const, Finset.card_range, nsmul_eq_mul]
    have : (n : ℝ) ≠ 0 := by exact_mod_cast (by omega : n ≠ 0)
    field_simp
    ring
  have hSZ : 0 < (Z.map fun a => (a - mean Z) ^ 2).sum := sumsq_pos ⟨z i, List.mem_map.2 ⟨i, by simpa using hi, rfl⟩, z j,
    List.mem_map.2 ⟨j, by simpa using hj, rfl⟩, hij⟩ _
  refine free_quadric hn (c := fun i => z i - mean Z) (g := fun v => v ^ 2 * (Z.map fun a => (a - mean Z) ^ 2).sum) ?_
    fun xs hl hd => ?_
  · by_contra hcon
    push Not at hcon
    have h1 := hcon i hi
    have h2 := hcon j hj
    exact hij (by linarith)
  · have ls : (sort xs).length = n := by rw [length_sort, hl]
    have hX := sumsq_pos_of_nodup hd (by omega)
    have hN : (List.zipWith (fun a b => (a - mean Z) * (b - mean (sort xs))) Z (sort xs)).sum =
        dot (fun i => z i - mean Z) (sort xs) := by
      have e : List.zipWith (fun a b => (a - mean Z) * (b - mean (sort xs))) Z (sort xs) =
          (sort xs).mapIdx fun i x => (z i - mean Z) * (x - mean (sort xs)) :=
        List.ext_getElem (by simp [lZ, ls]) fun i h1 h2 => by simp [hZ]
      rw [e, sum_mapIdx_at, dot_at, ls]
      have : ∀ i ∈ Finset.range n, (z i - mean Z) * (at_ (sort xs) i - mean (sort xs)) =
          at_ (sort xs) i * (z i - mean Z) - mean (sort xs) * (z i - mean Z) := fun i _ => by ring
      rw [Finset.sum_congr rfl this, Finset.sum_sub_distrib, ← Finset.mul_sum, hS, mul_zero, sub_zero]
    rw [hf xs hl hd, pearsonr, if_neg (by omega), hN, sumsq_sort]
    refine ⟨_, rfl, ?_⟩
    rw [div_pow, mul_pow, Real.sq_sqrt hSZ.le, Real.sq_sqrt hX.le]
    field_simp

theorem execute_map {s : NormStat} {lib : NormLib} {xs : List ℝ} {r : Except PyErr ℝ} (h : s.value lib xs = r.map some) :
    (s.statistic lib code params).execute xs = r := by
  simp only [NormStat.statistic, h]
  cases r <;> rfl

theorem filliMedian_mem {n : ℕ} (hn : 2 ≤ n) : 0 < filliMedian n 0 ∧ filliMedian n 0 < filliMedian n (n - 1) ∧
    filliMedian n (n - 1) < 1 := by
  have h2 : (2 : ℝ) ≤ n := by exact_mod_cast hn
  have hpos : (0 : ℝ) < 1 / n := by positivity
  have h1 : (1 / 2 : ℝ) ^ (1 / (n : ℝ)) < 1 := Real.rpow_lt_one (by norm_num) (by norm_num) hpos
  have h3 : (1 / 2 : ℝ) < (1 / 2 : ℝ) ^ (1 / (n : ℝ)) := by
    have : (1 / 2 : ℝ) ^ (1 : ℝ) < (1 / 2 : ℝ) ^ (1 / (n : ℝ)) :=
      Real.rpow_lt_rpow_of_exponent_gt (by norm_num) (by norm_num) (by rw [div_lt_one] <;> linarith)
    rwa [Real.rpow_one] at this
  simp only [filliMedian, if_neg (show ¬ (0 = n - 1) by omega), if_true]
  exact ⟨by linarith, by linarith, h1⟩

theorem free_filli {n : ℕ} (hn : 3 ≤ n) :
    Free (NormStat.filli.statistic scipyNorm code params).execute n := by
  obtain ⟨h0, h, h1⟩ := filliMedian_mem (n := n) (by omega)
  refine free_pearson hn (z := fun i => scipyNorm.ppf (filliMedian n i)) (i := 0) (j := n - 1) (by omega) (by omega)
    (ppf_lt h0 h h1).ne fun xs hl _ => execute_map ?_
  simp only [NormStat.value, Normal.filli, hl, if_neg (show ¬ n = 0 by omega)]

theorem free_looneyGulledge {n : ℕ} (hn : 3 ≤ n) :
    Free (NormStat.looneyGulledge.statistic scipyNorm code params).execute n := by
  refine free_pearson hn (z := fun i => scipyNorm.ppf (blom n i)) (i := 0) (j := n - 1) (by omega) (by omega)
    (score_lt (by omega) (by omega)).ne fun xs hl _ => execute_map ?_
  simp only [NormStat.value, Normal.looneyGulledge, hl]

theorem groupMean_nodup {l : List ℝ} (h : l.Nodup) (u : ℕ → ℝ) {i : ℕ} (hi : i < l.length) : groupMean l u i = u i := by
  have e : (Finset.range l.length).filter (fun j => at_ l j = at_ l i) = {i} := by
    ext j
    simp only [Finset.mem_filter, Finset.mem_range, Finset.mem_singleton]
    constructor
    · rintro ⟨hj, he⟩
      rw [at_, at_, List.getD_eq_getElem _ _ hj, List.getD_eq_getElem _ _ hi] at he
      exact (h.getElem_inj_iff).1 he
    · rintro rfl
      exact ⟨hi, rfl⟩
  simp only [groupMean, e]
  simp

theorem free_ryanJoiner {n : ℕ} (hn : 3 ≤ n) (w : Bool) (α : RjAlpha) :
    Free ((NormStat.ryanJoiner w α).statistic scipyNorm code params).execute n := by
  have h3 : (3 : ℝ) ≤ n := by exact_mod_cast hn
  have ha : 0 ≤ α.val ∧ α.val ≤ 1 / 2 := by cases α <;> norm_num [RjAlpha.val]
  have hlast : ((n - 1 : ℕ) : ℝ) = n - 1 := by rw [Nat.cast_sub (by omega)]; simp
  refine free_pearson hn (z := fun i => scipyNorm.ppf (rjOrder α n i)) (i := 0) (j := n - 1) (by omega) (by omega)
    (ppf_lt ?_ ?_ ?_).ne fun xs hl hd => execute_map ?_
  · rw [rjOrder]
    exact div_pos (by push_cast; linarith) (by linarith)
  · rw [rjOrder, rjOrder, hlast]
    exact div_lt_div_of_pos_right (by push_cast; linarith) (by linarith)
  · rw [rjOrder, hlast, div_lt_one (by linarith)]
    linarith
  · simp only [NormStat.value, Normal.ryanJoiner, hl]
    congr 2
    refine List.map_congr_left fun i hi => ?_
    rw [groupMean_nodup ((sort_perm xs).nodup_iff.2 hd) _ (by rw [length_sort, hl]; exact List.mem_range.1 hi), ite_self]

theorem free_shapiroFrancia {n : ℕ} (hn : 3 ≤ n) :
    Free (NormStat.shapiroFrancia.statistic scipyNorm code params).execute n := by
  have h0 : scipyNorm.ppf (blom n 0) < 0 := score_neg (by omega)
  set E := ∑ i ∈ Finset.range n, (-scipyNorm.ppf (blom n i)) ^ 2 with hE
  have hE0 : 0 < E := lt_of_lt_of_le (show 0 < (-scipyNorm.ppf (blom n 0)) ^ 2 by nlinarith)
    (Finset.single_le_sum (f := fun i => (-scipyNorm.ppf (blom n i)) ^ 2) (fun i _ => sq_nonneg _)
      (Finset.mem_range.2 (by omega)))
  refine free_quadric hn (c := fun i => -scipyNorm.ppf (blom n i)) ⟨0, by omega, by simpa using h0.ne⟩ (g := fun v => v * E)
    fun xs hl hd => ?_
  refine ⟨_, run_some rfl, ?_⟩
  have hX := sumsq_pos_of_nodup hd (by omega)
  simp only [Normal.shapiroFrancia, hl, sumsq_sort, ← hE]
  field_simp

theorem free_shapiroWilk {n : ℕ} (hn : 3 ≤ n) :
    Free (NormStat.shapiroWilk.statistic scipyNorm code params).execute n := by
  have hc : ∃ k < n, swCoef scipyNorm n k ≠ 0 := by
    by_contra hcon
    push Not at hcon
    by_cases h3 : n = 3
    · have := hcon 0 (by omega)
      simp only [swCoef, if_pos h3, if_true] at this
      exact absurd this (Real.sqrt_pos.2 (by norm_num)).ne'
    have s0 := ppf_blom scipyNorm_symmetric (n := n) (i := 0) (by omega)
    have s1 := ppf_blom scipyNorm_symmetric (n := n) (i := 1) (by omega)
    rw [Nat.sub_zero] at s0
    rw [show n - 1 - 1 = n - 2 by omega] at s1
    have hlast := hcon (n - 1) (by omega)
    simp only [swCoef, if_neg h3] at hlast hcon
    set M := ∑ k ∈ Finset.range n, scipyNorm.ppf (blom n k) ^ 2 with hM
    set wn := polyval [-2.706056, 4.434685, -2.071190, -0.147981, 0.221157, scipyNorm.ppf (blom n (n - 1)) / √M] (1 / √n)
      with hwn
    by_cases h5 : n ≤ 5
    · simp only [if_pos h5, if_neg (show ¬ n - 1 = 0 by omega), if_true] at hlast
      have h1 := hcon 1 (by omega)
      simp only [if_pos h5, if_neg (show ¬ 1 = 0 by omega), if_neg (show ¬ 1 = n - 1 by omega), hlast] at h1
      have n1 := score_neg (n := n) (i := 1) (by omega)
      have hsub : ∑ k ∈ ({0, 1, n - 1} : Finset ℕ), scipyNorm.ppf (blom n k) ^ 2 ≤ M :=
        Finset.sum_le_sum_of_subset_of_nonneg (by
          intro k hk
          simp only [Finset.mem_insert, Finset.mem_singleton] at hk
          exact Finset.mem_range.2 (by omega)) fun _ _ _ => sq_nonneg _
      rw [Finset.sum_insert (by simp; omega), Finset.sum_insert (by simp; omega), Finset.sum_singleton, s0] at hsub
      rw [s0] at h1
      refine absurd h1 (div_neg_of_neg_of_pos n1 (Real.sqrt_pos.2 ?_)).ne
      norm_num
      nlinarith
    · simp only [if_neg h5, if_neg (show ¬ n - 1 = 0 by omega), if_neg (show ¬ n - 1 = 1 by omega),
        if_neg (show ¬ n - 1 = n - 2 by omega), if_true] at hlast
      have h1 := hcon 1 (by omega)
      have h2 := hcon 2 (by omega)
      simp only [if_neg h5, if_neg (show ¬ 1 = 0 by omega), if_true] at h1
      rw [neg_eq_zero] at h1
      simp only [if_neg h5, if_neg (show ¬ 2 = 0 by omega), if_neg (show ¬ 2 = 1 by omega),
        if_neg (show ¬ 2 = n - 2 by omega), if_neg (show ¬ 2 = n - 1 by omega), hlast, h1] at h2
      have n2 := score_neg (n := n) (i := 2) (by omega)
      have hsub : ∑ k ∈ ({0, 1, 2, n - 2, n - 1} : Finset ℕ), scipyNorm.ppf (blom n k) ^ 2 ≤ M :=
        Finset.sum_le_sum_of_subset_of_nonneg (by
          intro k hk
          simp only [Finset.mem_insert, Finset.mem_singleton] at hk
          exact Finset.mem_range.2 (by omega)) fun _ _ _ => sq_nonneg _
      rw [Finset.sum_insert (by simp; omega), Finset.sum_insert (by simp; omega), Finset.sum_insert (by simp; omega),
        Finset.sum_insert (by simp; omega), Finset.sum_singleton, s0, s1] at hsub
      rw [s0, s1] at h2
      refine absurd h2 (div_neg_of_neg_of_pos n2 (Real.sqrt_pos.2 ?_)).ne
      norm_num
      nlinarith
  refine free_quadric hn hc (g := fun v => v) fun xs hl hd => ?_
  have hX := sumsq_pos_of_nodup hd (by omega)
  refine ⟨_, run_some (v := dot (swCoef scipyNorm n) (sort xs) ^ 2 / (xs.map fun x => (x - mean xs) ^ 2).sum) ?_, ?_⟩
  · simp only [NormStat.value, Normal.shapiroWilk, hl, if_neg (show ¬ n < 2 by omega), if_neg (show ¬ n = 2 by omega)]
    rfl
  · rw [div_mul_cancel₀ _ hX.ne']

theorem swrgStar_ne_zero {n : ℕ} (hn : 2 ≤ n) : ∃ k < n, swrgStar scipyNorm n k ≠ 0 := by
  by_contra hcon
  push Not at hcon
  have hn0 : (0 : ℝ) < n := by exact_mod_cast (by omega : 0 < n)
  set m : ℕ → ℝ := fun i => scipyNorm.ppf (((i : ℝ) + 1) / (n + 1)) with hm
  set g : ℕ → ℝ := fun i => m i * scipyNorm.pdf (m i) with hg
  have pdf_pos : ∀ x, 0 < scipyNorm.pdf x := fun x => gaussianPDFReal_pos 0 1 x one_ne_zero
  have h2 : ∀ k < n, (if k = 0 then 0 else g (k - 1)) - 2 * g k + (if k = n - 1 then 0 else g (k + 1)) = 0 := fun k hk => by
    have := hcon k hk
    simp only [swrgStar] at this
    refine (mul_eq_zero.1 this).resolve_left (mul_ne_zero (neg_ne_zero.2 (by positivity)) (pdf_pos _).ne')
  have hlin : ∀ k < n, g k = (k + 1) * g 0 := by
    intro k
    induction k using Nat.strong_induction_on with
    | _ k ih =>
      intro hk
      match k, ih, hk with
      | 0, _, _ => simp
      | 1, ih, hk =>
        have := h2 0 (by omega)
        simp only [if_true, if_neg (show ¬ 0 = n - 1 by omega)] at this
        push_cast
        linarith
      | k + 2, ih, hk =>
        have := h2 (k + 1) (by omega)
        rw [if_neg (by omega), if_neg (by omega), ih (k + 1) (by omega) (by omega), Nat.add_sub_cancel,
          ih k (by omega) (by omega)] at this
        push_cast at this ⊢
        linarith
  have hend := h2 (n - 1) (by omega)
  rw [if_neg (by omega), if_pos rfl, hlin (n - 1) (by omega), hlin (n - 1 - 1) (by omega)] at hend
  rw [show n - 1 - 1 = n - 2 by omega, Nat.cast_sub (by omega), Nat.cast_sub (by omega)] at hend
  push_cast at hend
  have h0 : ((n : ℝ) + 1) * g 0 = 0 := by linarith
  have hg0 := (mul_eq_zero.1 h0).resolve_left (by positivity)
  have hm0 : m 0 = 0 := (mul_eq_zero.1 hg0).resolve_right (pdf_pos _).ne'
  have hlt : m 0 < m (n - 1) := by
    refine ppf_lt (by positivity) (div_lt_div_of_pos_right ?_ (by positivity)) ?_
    · rw [Nat.cast_sub (by omega)]
      have : (2 : ℝ) ≤ n := by exact_mod_cast hn
      push_cast
      linarith
    · rw [div_lt_one (by positivity), Nat.cast_sub (by omega)]
      push_cast
      linarith
  have hsym : m (n - 1) = -m 0 := by
    have := scipyNorm_symmetric.ppf (1 / ((n : ℝ) + 1)) (by positivity) (by rw [div_lt_one] <;> linarith)
    simp only [hm]
    rw [Nat.cast_sub (by omega)]
    push_cast
    rw [zero_add, ← this]
    congr 1
    field_simp
    ring
  rw [hsym, hm0] at hlt
  simp at hlt

theorem free_swrg {n : ℕ} (hn : 4 ≤ n) :
    Free (NormStat.swrg.statistic scipyNorm code params).execute n := by
  obtain ⟨k, hk, hk0⟩ := swrgStar_ne_zero (n := n) (by omega)
  set E := ∑ i ∈ Finset.range n, swrgStar scipyNorm n i ^ 2 with hE
  have hE0 : 0 < E := lt_of_lt_of_le (pow_pos (abs_pos.2 hk0) 2 |>.trans_eq (sq_abs _))
    (Finset.single_le_sum (f := fun i => swrgStar scipyNorm n i ^ 2) (fun i _ => sq_nonneg _) (Finset.mem_range.2 hk))
  refine free_quadric (by omega) (c := fun i => swrgStar scipyNorm n i / √E)
    ⟨k, hk, div_ne_zero hk0 (Real.sqrt_pos.2 hE0).ne'⟩ (g := fun v => v) fun xs hl hd => ?_
  have hX := sumsq_pos_of_nodup hd (by omega)
  refine ⟨_, run_some (v := dot (fun i => swrgStar scipyNorm n i / √E) (sort xs) ^ 2 /
    (xs.map fun x => (x - mean xs) ^ 2).sum) ?_, ?_⟩
  · simp only [NormStat.value, guarded, Normal.swrg, hl, if_pos (show 3 < n by omega), sumsq_sort, ← hE]
    rfl
  · rw [div_mul_cancel₀ _ hX.ne']

theorem free_dagostino {n : ℕ} (hn : 4 ≤ n) :
    Free (NormStat.dagostino.statistic scipyNorm code params).execute n := by
  have hval : ∀ xs : List ℝ, xs.length = n → NormStat.dagostino.value scipyNorm xs = .ok (some (Normal.dagostino xs)) :=
    fun xs hl => by
      simp only [NormStat.value, guarded, hl, if_pos (show 3 < n by omega)]
      rfl
  refine ⟨fun xs hl _ => ⟨_, run_some (hval xs hl)⟩, fun c =>
    measure_mono_null (fun x hx => ?_) (no_ties_dagostino (μ := gaussianReal 0 1) scipyNorm (n := n) (by omega) c)⟩
  have h1 := hx.2
  rw [run_some (hval _ List.length_ofFn)] at h1
  change _ = _
  rw [hval _ List.length_ofFn, Except.ok.inj h1]

/-! ### Chen-Shapiro -/

/-- Summation by parts. -/
theorem sum_npDiff (w : ℕ → ℝ) {l : List ℝ} {n : ℕ} (hl : l.length = n) (hn : 2 ≤ n) :
    ((npDiff l).mapIdx fun i d => d / w i).sum =
      dot (fun i => (if i = 0 then 0 else 1 / w (i - 1)) - if i = n - 1 then 0 else 1 / w i) l := by
  obtain ⟨k, rfl⟩ : ∃ k, n = k + 1 := ⟨n - 1, by omega⟩
  rw [sum_mapIdx_at, dot_at, length_npDiff, hl, Nat.add_sub_cancel]
  have e : ∀ i ∈ Finset.range k, at_ (npDiff l) i / w i = at_ l (i + 1) * (1 / w i) - at_ l i * (1 / w i) := fun i hi => by
    rw [at_npDiff _ _ (by have := Finset.mem_range.1 hi; omega)]
    ring
  simp only [mul_sub]
  rw [Finset.sum_congr rfl e, Finset.sum_sub_distrib, Finset.sum_sub_distrib]
  congr 1
  · rw [Finset.sum_range_succ']
    simp
  · rw [Finset.sum_range_succ]
    simp only [if_true, mul_zero, add_zero]
    exact Finset.sum_congr rfl fun i hi => by rw [if_neg (by have := Finset.mem_range.1 hi; omega)]

theorem free_chenShapiro {n : ℕ} (hn : 4 ≤ n) :
    Free (NormStat.chenShapiro.statistic scipyNorm code params).execute n := by
  have h4 : (4 : ℝ) ≤ n := by exact_mod_cast hn
  set w : ℕ → ℝ := fun i => scipyNorm.ppf (blom n (i + 1)) - scipyNorm.ppf (blom n i) with hw
  have hw0 : 0 < w 0 := sub_pos.2 (score_lt (by omega) (by omega))
  refine free_quadric (by omega) (c := fun i => (if i = 0 then 0 else 1 / w (i - 1)) - if i = n - 1 then 0 else 1 / w i)
    ⟨0, by omega, ?_⟩ (g := fun v => ((1 - v / √n) * (n - 1)) ^ 2 / (n - 1)) fun xs hl hd => ?_
  · rw [if_pos rfl, if_neg (by omega), zero_sub]
    exact neg_ne_zero.2 (one_div_ne_zero hw0.ne')
  have hX := sumsq_pos_of_nodup hd (by omega)
  have e := sum_npDiff w (l := sort xs) (n := n) (by rw [length_sort, hl]) (by omega)
  refine ⟨_, run_some (v := √n * (1 - ((npDiff (sort xs)).mapIdx fun i d => d / w i).sum / ((n - 1) * √(var1 xs)))) ?_, ?_⟩
  · simp only [NormStat.value, guarded, hl, if_pos (show 3 < n by omega), Normal.chenShapiro]
    rfl
  · rw [← e, var1, hl]
    generalize ((npDiff (sort xs)).mapIdx fun i d => d / w i).sum = D
    generalize (xs.map fun t => (t - mean xs) ^ 2).sum = S at *
    have hs : 0 < √(n : ℝ) := Real.sqrt_pos.2 (by linarith)
    have hn1 : (0 : ℝ) < n - 1 := by linarith
    have hv : 0 < S / ((n : ℝ) - 1) := div_pos hX hn1
    have hq := Real.sq_sqrt hv.le
    have hq0 := Real.sqrt_pos.2 hv
    rw [mul_div_cancel_left₀ _ hs.ne', sub_sub_cancel]
    generalize √(S / ((n : ℝ) - 1)) = q at *
    have : S = q ^ 2 * (n - 1) := by rw [hq]; field_simp
    rw [this]
    field_simp

/-! ### Zhang -/

theorem log_ratio_null {n : ℕ} {a b : ℕ → ℝ} {k l : ℕ} (hk : k < n) (hl : l < n) (ak : 0 < a k) (bk : b k < 0) (al : 0 < a l)
    (bl : 0 < b l) (c : ℝ) :
    iid n (gaussianReal 0 1) {x | Real.log (dot a (sort (List.ofFn x)) / dot b (sort (List.ofFn x))) = c} = 0 := by
  have key : ∀ r : ℝ, iid n (gaussianReal 0 1) {x | dot a (sort (List.ofFn x)) / dot b (sort (List.ofFn x)) = r} = 0 := fun r => by
    by_cases hr : 0 ≤ r
    · exact ratio_null hk (by nlinarith [mul_nonneg hr (neg_pos.2 bk).le] : a k - r * b k ≠ 0) hk bk.ne
    · exact ratio_null hl (by nlinarith [mul_pos (neg_pos.2 (not_le.1 hr)) bl] : a l - r * b l ≠ 0) hk bk.ne
  refine null_union (null_union (key (Real.exp c)) (key (-Real.exp c)) (subset_refl _)) (key 0) fun x hx => ?_
  simp only [Set.mem_union, Set.mem_ofPred_eq] at hx ⊢
  rcases lt_trichotomy (dot a (sort (List.ofFn x)) / dot b (sort (List.ofFn x))) 0 with h | h | h
  · left; right
    rw [← Real.log_neg_eq_log] at hx
    rw [← hx, Real.exp_log (neg_pos.2 h), neg_neg]
  · exact .inr h
  · left; left
    rw [← hx, Real.exp_log h]

theorem zq_signs {n : ℕ} (hn : 8 ≤ n) : 0 < zqA (fun i => scipyNorm.ppf (blom n i)) n 1 ∧
    zqB (fun i => scipyNorm.ppf (blom n i)) n 1 < 0 ∧ 0 < zqA (fun i => scipyNorm.ppf (blom n i)) n (n - 1) ∧
    0 < zqB (fun i => scipyNorm.ppf (blom n i)) n (n - 1) := by
  have h8 : (8 : ℝ) ≤ n := by exact_mod_cast hn
  have l1 := score_lt (n := n) (i := 0) (j := 1) (by omega) (by omega)
  have l2 := score_lt (n := n) (i := 1) (j := 1 + 4) (by omega) (by omega)
  have l3 := score_lt (n := n) (i := 0) (j := n - 1) (by omega) (by omega)
  have l4 := score_lt (n := n) (i := 0) (j := 0 + 4) (by omega) (by omega)
  have h1 : (0 : ℝ) < n - 1 := by linarith
  have h4 : (0 : ℝ) < n - 4 := by linarith
  refine ⟨?_, ?_, ?_, ?_⟩
  · rw [zqA, if_neg (by omega)]
    exact one_div_pos.2 (mul_pos h1 (by linarith))
  · rw [zqB, if_pos (by omega)]
    exact one_div_neg.2 (mul_neg_of_pos_of_neg h4 (by linarith))
  · rw [zqA, if_neg (by omega)]
    exact one_div_pos.2 (mul_pos h1 (by linarith))
  · rw [zqB, if_neg (by omega), if_pos (by omega), Nat.sub_self]
    exact neg_pos.2 (one_div_neg.2 (mul_neg_of_pos_of_neg h4 (by linarith)))

theorem dot_reverse (c : ℕ → ℝ) {l : List ℝ} {n : ℕ} (hl : l.length = n) : dot c l.reverse = dot (fun i => c (n - 1 - i)) l := by
  subst hl
  rw [dot_at, dot_at, List.length_reverse, ← Finset.sum_range_reflect]
  refine Finset.sum_congr rfl fun i hi => ?_
  have hi := Finset.mem_range.1 hi
  congr 1
  rw [at_, at_, List.getD_eq_getElem _ _ (by rw [List.length_reverse]; omega), List.getD_eq_getElem _ _ hi, List.getElem_reverse]
  congr 1
  omega

theorem free_zhangQ {n : ℕ} (hn : 8 ≤ n) :
    Free (NormStat.zhangQ.statistic scipyNorm code params).execute n := by
  obtain ⟨a1, b1, a2, b2⟩ := zq_signs hn
  set u : ℕ → ℝ := fun i => scipyNorm.ppf (blom n i) with hu
  have hval : ∀ xs : List ℝ, xs.length = n → NormStat.zhangQ.value scipyNorm xs =
      .ok (some (Real.log (dot (zqA u n) (sort xs) / dot (zqB u n) (sort xs)))) := fun xs hl => by
    simp only [NormStat.value, guarded, hl, if_pos (show 3 < n by omega), Normal.zhangQ, if_neg (show ¬ n < 8 by omega)]
    rfl
  refine ⟨fun xs hl _ => ⟨_, run_some (hval xs hl)⟩, fun c =>
    measure_mono_null (fun x hx => ?_) (log_ratio_null (n := n) (by omega) (by omega) a1 b1 a2 b2 c)⟩
  have h1 := hx.2
  rw [run_some (hval _ List.length_ofFn)] at h1
  exact Except.ok.inj h1

theorem free_zhangQStar {n : ℕ} (hn : 8 ≤ n) :
    Free (NormStat.zhangQStar.statistic scipyNorm code params).execute n := by
  obtain ⟨a1, b1, a2, b2⟩ := zq_signs hn
  set u : ℕ → ℝ := fun i => scipyNorm.ppf (blom n i) with hu
  have hval : ∀ xs : List ℝ, xs.length = n → NormStat.zhangQStar.value scipyNorm xs =
      .ok (some (Real.log (dot (fun i => zqA u n (n - 1 - i)) (sort xs) / dot (fun i => zqB u n (n - 1 - i)) (sort xs)))) :=
    fun xs hl => by
      have ls : (sort xs).length = n := by rw [length_sort, hl]
      simp only [NormStat.value, guarded, hl, if_pos (show 3 < n by omega), Normal.zhangQStar, if_neg (show ¬ n < 8 by omega),
        dot_reverse _ ls, neg_div_neg_eq]
      rfl
  refine ⟨fun xs hl _ => ⟨_, run_some (hval xs hl)⟩, fun c =>
    measure_mono_null (fun x hx => ?_) (log_ratio_null (n := n) (a := fun i => zqA u n (n - 1 - i))
      (b := fun i => zqB u n (n - 1 - i)) (k := n - 2) (l := 0) (by omega) (by omega)
      (by rw [show n - 1 - (n - 2) = 1 by omega]; exact a1) (by rw [show n - 1 - (n - 2) = 1 by omega]; exact b1) a2 b2 c)⟩
  have h1 := hx.2
  rw [run_some (hval _ List.length_ofFn)] at h1
  exact Except.ok.inj h1

/-! ### Doornik-Hansen -/

theorem tells_doornikHansen (lib : NormLib) {n : ℕ} (hn : 8 ≤ n) :
    TellsApart Varies (NormStat.doornikHansen.statistic lib code params).execute n := by
  have h8 : (8 : ℝ) ≤ n := by exact_mod_cast hn
  have p1 := skewness_two_pos (n := n) (k := 1) (by omega) one_pos
  have p2 := skewness_two_pos (n := n) (k := 2) (by omega) two_pos
  have l1 : (two n 1).length = n := length_two (by omega)
  have l2 : (two n 2).length = n := length_two (by omega)
  have hlt := inv2_lt (n := n) (by omega)
  have hge := inv2_ge (n := n) (k := 2) (by omega) two_pos
  have h1 := C118_doornikHansen lib (xs := two n 1) (by omega) (n := n) (by rw [l1]) rfl rfl rfl rfl rfl rfl
  have h2 := C118_doornikHansen lib (xs := two n 2) (by omega) (n := n) (by rw [l2]) rfl rfl rfl rfl rfl rfl
  rw [skewness_two_sq (by omega) one_pos, kurtosis_two (by omega) one_pos] at h1
  rw [skewness_two_sq (by omega) two_pos, kurtosis_two (by omega) two_pos] at h2
  refine tells_two (by omega) one_pos (by omega) two_pos h1 h2 (ne_of_gt ?_)
  have hs : skewness (two n 2) < skewness (two n 1) := lt_of_pow_lt_pow_left₀ 2 p1.le (by
    rw [skewness_two_sq (by omega) one_pos, skewness_two_sq (by omega) two_pos]; linarith)
  have hm := dagostinoSkew_strictMono h8
  have d0 := hm p2
  rw [dagostinoSkew_zero] at d0
  have d1 := hm hs
  have z : ∀ r : ℝ, r - 3 - 1 - (r - 4) = 0 := fun r => by ring
  rw [z, z, zero_mul]
  have hδ : (0 : ℝ) < (n - 3) * (n + 1) * (n ^ 2 + 15 * n - 4) :=
    mul_pos (mul_pos (by linarith) (by linarith)) (by nlinarith)
  have hc : (0 : ℝ) ≤ (n - 7) * (n + 5) * (n + 7) * (n ^ 2 + 2 * n - 5) / (6 * ((n - 3) * (n + 1) * (n ^ 2 + 15 * n - 4))) :=
    div_nonneg (mul_nonneg (mul_nonneg (mul_nonneg (by linarith) (by linarith)) (by linarith)) (by nlinarith)) (by linarith)
  have ha : (1 : ℝ) ≤ (n - 2) * (n + 5) * (n + 7) * (n ^ 2 + 27 * n - 70) / (6 * ((n - 3) * (n + 1) * (n ^ 2 + 15 * n - 4))) := by
    rw [le_div_iff₀ (by linarith), one_mul]
    have q1 : (n : ℝ) ^ 2 + 15 * n - 4 ≤ n ^ 2 + 27 * n - 70 := by linarith
    have q2 : 6 * (((n : ℝ) - 3) * (n + 1)) ≤ (n - 2) * (n + 5) * (n + 7) := by nlinarith [mul_nonneg (sub_nonneg.2 h8) (sub_nonneg.2 h8)]
    have q3 : (0 : ℝ) < n ^ 2 + 15 * n - 4 := by nlinarith
    have q4 : (0 : ℝ) ≤ (n - 2) * (n + 5) * (n + 7) := mul_nonneg (mul_nonneg (by linarith) (by linarith)) (by linarith)
    calc _ = 6 * (((n : ℝ) - 3) * (n + 1)) * (n ^ 2 + 15 * n - 4) := by ring
      _ ≤ (n - 2) * (n + 5) * (n + 7) * (n ^ 2 + 15 * n - 4) := mul_le_mul_of_nonneg_right q2 q3.le
      _ ≤ _ := mul_le_mul_of_nonneg_left q1 q4
  generalize ((n : ℝ) - 2) * (n + 5) * (n + 7) * (n ^ 2 + 27 * n - 70) / (6 * ((n - 3) * (n + 1) * (n ^ 2 + 15 * n - 4))) = A at *
  generalize ((n : ℝ) - 7) * (n + 5) * (n + 7) * (n ^ 2 + 2 * n - 5) / (6 * ((n - 3) * (n + 1) * (n ^ 2 + 15 * n - 4))) = C at *
  have w : ∀ α : ℝ, 1 ≤ α → wilsonHilferty (2 * α) 0 ^ 2 = 9 * α - 2 + 1 / (9 * α) := fun α hα => by
    have hp : 0 < 2 / (9 * (2 * α)) := by positivity
    rw [wilsonHilferty, zero_div, Real.zero_rpow (by norm_num), div_pow, Real.sq_sqrt hp.le]
    field_simp
    ring
  have b2 : 1 ≤ A + (inv2 n 2 - 4) * C := by nlinarith [mul_nonneg (sub_nonneg.2 hge) hc]
  have b1 : A + (inv2 n 2 - 4) * C ≤ A + (inv2 n 1 - 4) * C := by nlinarith [mul_nonneg (sub_nonneg.2 hlt.le) hc]
  rw [w _ b2, w _ (b2.trans b1)]
  generalize A + (inv2 n 2 - 4) * C = s at *
  generalize A + (inv2 n 1 - 4) * C = t at *
  have hst : 9 * s - 2 + 1 / (9 * s) ≤ 9 * t - 2 + 1 / (9 * t) := by
    have : (9 * t - 2 + 1 / (9 * t)) - (9 * s - 2 + 1 / (9 * s)) = (t - s) * (9 - 1 / (9 * (s * t))) := by
      have : s ≠ 0 := by linarith
      have : t ≠ 0 := by linarith
      field_simp
      ring
    have h3 : 1 / (9 * (s * t)) ≤ 1 := by
      rw [div_le_one (by nlinarith)]
      nlinarith
    nlinarith [mul_nonneg (sub_nonneg.2 b1) (sub_nonneg.2 (h3.trans (by norm_num : (1 : ℝ) ≤ 9)))]
  nlinarith

/-! ### Bontemps-Meddahi 2 -/

theorem moment5_two {n k : ℕ} (h : k < n) (h0 : 0 < k) : Spec.centralMoment 5 (two n k) =
    1 / inv2 n k * ((n - 2 * k) / n) * (1 - 2 / inv2 n k) := by
  obtain ⟨hk, hm, hn⟩ := inv2_facts h h0
  rw [Spec.centralMoment, mean_two h h0, meanOf_two h.le, inv2]
  generalize (n : ℝ) = N at *
  generalize (k : ℝ) = m at *
  field_simp
  ring

theorem moment6_two {n k : ℕ} (h : k < n) (h0 : 0 < k) : Spec.centralMoment 6 (two n k) =
    1 / inv2 n k * (1 - 5 / inv2 n k + 5 / inv2 n k ^ 2) := by
  obtain ⟨hk, hm, hn⟩ := inv2_facts h h0
  rw [Spec.centralMoment, mean_two h h0, meanOf_two h.le, inv2]
  generalize (n : ℝ) = N at *
  generalize (k : ℝ) = m at *
  field_simp
  ring

theorem sum_pow_two {n k : ℕ} (h : k < n) (h0 : 0 < k) {s : ℝ} (hs : s ≠ 0) (j : ℕ) :
    ((two n k).map fun x => ((x - mean (two n k)) / s) ^ j).sum = n * (Spec.centralMoment j (two n k) / s ^ j) := by
  obtain ⟨hk, hm, hn⟩ := inv2_facts h h0
  rw [Spec.centralMoment, ← mean_spec, meanOf_two h.le, sum_two h.le, div_pow, div_pow]
  field_simp

theorem sum_hermite' {n k : ℕ} (h : k < n) (h0 : 0 < k) {s : ℝ} (hs : s ≠ 0) (c : ℝ) :
    (((two n k).map fun x => (x - mean (two n k)) / s).map fun v => he5 v / c).sum =
      n * (Spec.centralMoment 5 (two n k) / s ^ 5 - 10 * (Spec.centralMoment 3 (two n k) / s ^ 3)) / c ∧
    (((two n k).map fun x => (x - mean (two n k)) / s).map fun v => he6 v / c).sum =
      n * (Spec.centralMoment 6 (two n k) / s ^ 6 - 15 * (Spec.centralMoment 4 (two n k) / s ^ 4) +
        45 * (Spec.centralMoment 2 (two n k) / s ^ 2) - 15) / c := by
  obtain ⟨hk, hm, hn⟩ := inv2_facts h h0
  have p1 := sum_pow_two h h0 hs 1
  have p2 := sum_pow_two h h0 hs 2
  have p3 := sum_pow_two h h0 hs 3
  have p4 := sum_pow_two h h0 hs 4
  have p5 := sum_pow_two h h0 hs 5
  have p6 := sum_pow_two h h0 hs 6
  have m1 : Spec.centralMoment 1 (two n k) = 0 := by
    rw [Spec.centralMoment, mean_two h h0, meanOf_two h.le]
    field_simp
    ring
  rw [m1, zero_div, mul_zero] at p1
  simp only [List.map_map, Function.comp_def, sum_two h.le] at *
  constructor
  · simp only [he5]
    linear_combination (p5 - 10 * p3 + 15 * p1) / c
  · simp only [he6]
    linear_combination (p6 - 15 * p4 + 45 * p2) / c

theorem var1_two {n k : ℕ} (h : k < n) (h0 : 0 < k) : var1 (two n k) = n / (n - 1) / inv2 n k := by
  obtain ⟨hk, hm, hn⟩ := inv2_facts h h0
  have e : ((two n k).map fun x => (x - mean (two n k)) ^ 2).sum / ((two n k).length : ℝ) = 1 / inv2 n k := by
    rw [← moment2_two h h0, Spec.centralMoment, meanOf, mean_spec]
  rw [length_two h.le, div_eq_iff hn.ne'] at e
  rw [var1, e, length_two h.le]
  ring

/-- The statistic of `k` ones, as a function of `r = n² / (k (n - k))`. -/
noncomputable def bm2Poly (a r : ℝ) : ℝ := a ^ 3 * (r - 4) / 6 + (a ^ 2 * (r - 3) - 6 * a + 3) ^ 2 / 24 +
  a ^ 3 * (r - 4) * (a * (r - 2) - 10) ^ 2 / 120 +
  (a ^ 3 * (r ^ 2 - 5 * r + 5) - 15 * (a ^ 2 * (r - 3)) + 45 * a - 15) ^ 2 / 720

theorem meddahi2_two (lib : NormLib) {n k : ℕ} (hn : 3 < n) (h : k < n) (h0 : 0 < k) {a : ℝ} (ha : a = ((n : ℝ) - 1) / n) :
    NormStat.bontempsMeddahi2.value lib (two n k) = .ok (some (n * bm2Poly a (inv2 n k))) := by
  obtain ⟨hk, hm, hn0⟩ := inv2_facts h h0
  have h1 : (1 : ℝ) < n := by exact_mod_cast (by omega : 1 < n)
  have hr := inv2_ge h h0
  have hv : var1 (two n k) = 1 / (a * inv2 n k) := by
    rw [var1_two h h0, ha]
    have : (n : ℝ) - 1 ≠ 0 := by linarith
    field_simp
  have ha0 : 0 < a := by rw [ha]; exact div_pos (by linarith) hn0
  have hpos : 0 < 1 / (a * inv2 n k) := by positivity
  have hs2 : √(1 / (a * inv2 n k)) ^ 2 = 1 / (a * inv2 n k) := Real.sq_sqrt hpos.le
  have hs0 : √(1 / (a * inv2 n k)) ≠ 0 := (Real.sqrt_pos.2 hpos).ne'
  obtain ⟨e3, e4⟩ := sum_hermite h h0 hs0
  have e5 := (sum_hermite' h h0 hs0 (2 * √30)).1
  have e6 := (sum_hermite' h h0 hs0 (12 * √5)).2
  simp only [NormStat.value, guarded, length_two h.le, if_pos hn, Except.map, Normal.bontempsMeddahi2, standardised, sd1, hv, e3, e4,
    e5, e6]
  have hsk := skewness_two_sq h h0
  rw [skewness, div_pow, show (stdDev (two n k) ^ 3) ^ 2 = (stdDev (two n k) ^ 2) ^ 3 by ring, stdDev_sq] at hsk
  have q3 : (Spec.centralMoment 3 (two n k) / √(1 / (a * inv2 n k)) ^ 3) ^ 2 = a ^ 3 * (inv2 n k - 4) := by
    rw [div_pow, ← pow_mul, show 3 * 2 = 2 * 3 by norm_num, pow_mul, hs2, ← hsk, moment2_two h h0]
    generalize Spec.centralMoment 3 (two n k) = t
    field_simp
  have q4 : Spec.centralMoment 4 (two n k) / √(1 / (a * inv2 n k)) ^ 4 = a ^ 2 * (inv2 n k - 3) := by
    rw [show 4 = 2 * 2 by norm_num, pow_mul, hs2, moment4_two h h0]
    field_simp
  have q2 : Spec.centralMoment 2 (two n k) / √(1 / (a * inv2 n k)) ^ 2 = a := by
    rw [hs2, moment2_two h h0]
    field_simp
  have q6 : Spec.centralMoment 6 (two n k) / √(1 / (a * inv2 n k)) ^ 6 = a ^ 3 * (inv2 n k ^ 2 - 5 * inv2 n k + 5) := by
    rw [show 6 = 2 * 3 by norm_num, pow_mul, hs2, moment6_two h h0]
    field_simp
  have q5 : Spec.centralMoment 5 (two n k) / √(1 / (a * inv2 n k)) ^ 5 =
      Spec.centralMoment 3 (two n k) / √(1 / (a * inv2 n k)) ^ 3 * (a * (inv2 n k - 2)) := by
    rw [show 5 = 3 + 2 by norm_num, pow_add, hs2, moment5_two h h0, moment3_two h h0]
    generalize √(1 / (a * inv2 n k)) = s at *
    field_simp
  rw [q5, q4, q2, q6, bm2Poly]
  have q5' : ∀ t c : ℝ, t * c - 10 * t = t * (c - 10) := fun t c => by ring
  rw [q5', div_pow, div_pow, div_pow, div_pow, mul_pow, mul_pow, mul_pow, mul_pow, mul_pow _ (_ - 10), mul_pow, mul_pow, mul_pow, q3,
    Real.sq_sqrt (by norm_num), Real.sq_sqrt (by norm_num), Real.sq_sqrt (by norm_num)]
  congr 2
  field_simp
  ring

theorem inv2_step {n k : ℕ} (h0 : 0 < k) (h : 2 * k + 1 < n) : inv2 n (k + 1) < inv2 n k := by
  have hk : (0 : ℝ) < k := by exact_mod_cast h0
  have hn : (2 : ℝ) * k + 1 < n := by exact_mod_cast h
  simp only [inv2]
  push_cast
  apply div_lt_div_of_pos_left (pow_pos (by linarith) 2) (mul_pos hk (by linarith))
  nlinarith

theorem tells_meddahi2 (lib : NormLib) {n : ℕ} (hn : 10 ≤ n) :
    TellsApart Varies (NormStat.bontempsMeddahi2.statistic lib code params).execute n := by
  have h1 : (1 : ℝ) < n := by exact_mod_cast (by omega : 1 < n)
  set a : ℝ := ((n : ℝ) - 1) / n with ha
  have ha0 : 0 < a := by rw [ha]; exact div_pos (by linarith) (by linarith)
  have s1 := inv2_step (n := n) (k := 1) (by norm_num) (by omega)
  have s2 := inv2_step (n := n) (k := 2) (by norm_num) (by omega)
  have s3 := inv2_step (n := n) (k := 3) (by norm_num) (by omega)
  have s4 := inv2_step (n := n) (k := 4) (by norm_num) (by omega)
  norm_num at s1 s2 s3 s4
  by_cases hall : ∀ i : Fin 5, bm2Poly a (inv2 n (i + 1)) = bm2Poly a (inv2 n 1)
  · exfalso
    set v := bm2Poly a (inv2 n 1)
    let P : Polynomial ℝ := .C (a ^ 3 / 6) * (.X - .C 4) + .C (1 / 24) * (.C (a ^ 2) * (.X - .C 3) - .C (6 * a - 3)) ^ 2 +
      .C (a ^ 3 / 120) * (.X - .C 4) * (.C a * (.X - .C 2) - .C 10) ^ 2 +
      .C (1 / 720) * (.C (a ^ 3) * (.X ^ 2 - .C 5 * .X + .C 5) - .C (15 * a ^ 2) * (.X - .C 3) + .C (45 * a - 15)) ^ 2 - .C v
    have hev : ∀ r : ℝ, P.eval r = bm2Poly a r - v := fun r => by
      simp only [P, Polynomial.eval_add, Polynomial.eval_sub, Polynomial.eval_mul, Polynomial.eval_pow, Polynomial.eval_C,
        Polynomial.eval_X, bm2Poly]
      ring
    have hP : P = 0 := by
      apply Polynomial.eq_zero_of_natDegree_lt_card_of_eval_eq_zero P (f := fun i : Fin 5 => inv2 n (i + 1))
      · apply StrictAnti.injective
        refine Fin.strictAnti_iff_succ_lt.2 fun i => ?_
        fin_cases i <;> simpa
      · intro i
        rw [hev, hall i, sub_self]
      · refine lt_of_le_of_lt (b := 4) ?_ (by simp)
        simp only [P]
        compute_degree
    have hz : ∀ r : ℝ, bm2Poly a r - v = 0 := fun r => by rw [← hev, hP, Polynomial.eval_zero]
    have e0 := hz 0
    have e1 := hz 1
    have e2 := hz 2
    have e3 := hz 3
    have e4 := hz 4
    have : a ^ 6 = 0 := by
      simp only [bm2Poly] at e0 e1 e2 e3 e4
      linear_combination 30 * (e0 - 4 * e1 + 6 * e2 - 4 * e3 + e4)
    exact absurd this (by positivity)
  · push Not at hall
    obtain ⟨i, hi⟩ := hall
    have hi5 := i.2
    exact tells_two (by omega) (by omega) (by omega) (by omega) (meddahi2_two lib (by omega) (by omega) (by omega) ha)
      (meddahi2_two lib (by omega) (by omega) (by omega) ha) fun h => hi (mul_left_cancel₀ (by positivity) h)

end Pysatl.Props
