import Verif.Props.NormalShape
import Verif.Props.NormalDomain

/-! # C118: the moment criteria of normality as transforms of the skewness and of the kurtosis -/

namespace Pysatl.Props

open Pysatl.Decision Pysatl.Graph Pysatl.Edf Pysatl.Normal Pysatl.Spec

/-! ### Skewness -/

theorem skew_w {β : ℝ} (h : 3 < β) : 1 < √(2 * (β - 1)) - 1 := by
  have : 2 < √(2 * (β - 1)) := Real.lt_sqrt_of_sq_lt (by linarith)
  linarith

theorem arsinh_log (x : ℝ) : Real.log (x + √(x ^ 2 + 1)) = Real.arsinh x := by
  rw [Real.arsinh, add_comm (x ^ 2)]

theorem skew_scale (n b : ℝ) :
    b * √((n + 1) * (n + 3) / (6 * (n - 2))) = b / √(6 * (n - 2) / ((n + 1) * (n + 3))) := by
  rw [div_eq_mul_inv b, ← Real.sqrt_inv, inv_div]

theorem skewZ_spec {n b : ℝ} (hn : 8 ≤ n) (hb : b ≠ 0) : skewZ n b = dagostinoSkew n b := by
  have hβ := skew_beta_gt hn
  have hw := skew_w hβ
  have hy : b * √((n + 1) * (n + 3) / (6 * (n - 2))) ≠ 0 :=
    mul_ne_zero hb (Real.sqrt_pos.2 (div_pos (by nlinarith) (by linarith))).ne'
  simp only [skewZ, dagostinoSkew]
  rw [if_neg hy, arsinh_log, skew_scale]
  rw [show -1 + √(2 * (3 * (n ^ 2 + 27 * n - 70) * (n + 1) * (n + 3) / ((n - 2) * (n + 5) * (n + 7) *
    (n + 9)) - 1)) = √(2 * (3 * (n ^ 2 + 27 * n - 70) * (n + 1) * (n + 3) / ((n - 2) * (n + 5) *
    (n + 7) * (n + 9)) - 1)) - 1 by ring]
  generalize √(2 * (3 * (n ^ 2 + 27 * n - 70) * (n + 1) * (n + 3) / ((n - 2) * (n + 5) *
    (n + 7) * (n + 9)) - 1)) - 1 = w at *
  rw [Real.sq_sqrt (by linarith), Real.log_sqrt (by linarith), one_div_mul_eq_div]
  congr 2
  ring

theorem dhZ1_spec {n b : ℝ} (hn : 8 ≤ n) : dhZ1 b n = dagostinoSkew n b := by
  have hw := skew_w (skew_beta_gt hn)
  simp only [dhZ1, dagostinoSkew]
  rw [arsinh_log, skew_scale]
  rw [show -1 + √(2 * (3 * (n ^ 2 + 27 * n - 70) * (n + 1) * (n + 3) / ((n - 2) * (n + 5) * (n + 7) *
    (n + 9)) - 1)) = √(2 * (3 * (n ^ 2 + 27 * n - 70) * (n + 1) * (n + 3) / ((n - 2) * (n + 5) *
    (n + 7) * (n + 9)) - 1)) - 1 by ring]
  generalize √(2 * (3 * (n ^ 2 + 27 * n - 70) * (n + 1) * (n + 3) / ((n - 2) * (n + 5) *
    (n + 7) * (n + 9)) - 1)) - 1 = w at *
  rw [Real.sq_sqrt (by linarith), one_div_mul_eq_div]

theorem dagostinoSkew_strictMono {n : ℝ} (hn : 8 ≤ n) : StrictMono (dagostinoSkew n) := by
  intro b c hbc
  have hw := skew_w (skew_beta_gt hn)
  simp only [dagostinoSkew]
  generalize √(2 * (3 * (n ^ 2 + 27 * n - 70) * (n + 1) * (n + 3) / ((n - 2) * (n + 5) *
    (n + 7) * (n + 9)) - 1)) - 1 = w at *
  rw [Real.sq_sqrt (by linarith)]
  have h1 : 0 < √(Real.log √w) :=
    Real.sqrt_pos.2 (Real.log_pos (Real.lt_sqrt_of_sq_lt (by linarith)))
  have h2 : 0 < √(2 / (w - 1)) := Real.sqrt_pos.2 (div_pos two_pos (by linarith))
  have h3 : 0 < √(6 * (n - 2) / ((n + 1) * (n + 3))) :=
    Real.sqrt_pos.2 (div_pos (by linarith) (by nlinarith))
  exact div_lt_div_of_pos_right (Real.arsinh_strictMono
    (div_lt_div_of_pos_right (div_lt_div_of_pos_right hbc h3) h2)) h1

theorem dagostinoSkew_zero (n : ℝ) : dagostinoSkew n 0 = 0 := by
  simp [dagostinoSkew]

/-- **C118**: the skewness criterion is D'Agostino's transform of the sample skewness, whenever that is
not zero. -/
theorem C118_skew (lib : NormLib) {xs : List ℝ} (hn : 8 ≤ xs.length) (hs : skewness xs ≠ 0) :
    NormStat.value lib .skew xs = .ok (some (dagostinoSkew xs.length (skewness xs))) := by
  have hn' : (8 : ℝ) ≤ xs.length := by exact_mod_cast hn
  simp only [NormStat.value, skewTest, if_neg (show ¬xs.length < 8 by omega), Except.map,
    skew_perm (sort_perm xs), skew_spec, skewZ_spec hn' hs]

/-- **C118**: the sign of the skewness criterion is the sign of the skewness, and between samples of the
same size more skewness gives a larger value. -/
theorem C118_skew_order (lib : NormLib) {xs ys : List ℝ} (hn : 8 ≤ xs.length)
    (hl : xs.length = ys.length) (hx : skewness xs ≠ 0) (hy : skewness ys ≠ 0) :
    ∃ v w, NormStat.value lib .skew xs = .ok (some v) ∧ NormStat.value lib .skew ys = .ok (some w) ∧
      (0 < v ↔ 0 < skewness xs) ∧ (v < w ↔ skewness xs < skewness ys) := by
  have hn' : (8 : ℝ) ≤ xs.length := by exact_mod_cast hn
  have hm := dagostinoSkew_strictMono hn'
  refine ⟨_, _, C118_skew lib hn hx, C118_skew lib (hl ▸ hn) hy, ?_, ?_⟩
  · have := hm.lt_iff_lt (a := 0) (b := skewness xs)
    rwa [dagostinoSkew_zero] at this
  · rw [← hl]
    exact hm.lt_iff_lt

/-- **C118** is false of a sample whose skewness is zero: the criterion returns a positive value, larger
than that of some samples with positive skewness. -/
theorem C118_refuted_skew (lib : NormLib) : ∃ xs ys : List ℝ, ∃ v w, xs.length = ys.length ∧
    8 ≤ xs.length ∧ skewness xs = 0 ∧ 0 < skewness ys ∧ NormStat.value lib .skew xs = .ok (some v) ∧
    NormStat.value lib .skew ys = .ok (some w) ∧ 0 < w ∧ w < v := by
  have hm := dagostinoSkew_strictMono (n := 8) le_rfl
  have s0 : skewness [-1, -1, -1, -1, 1, 1, 1, 1] = 0 := by
    have : Spec.centralMoment 3 [-1, -1, -1, -1, 1, 1, 1, 1] = 0 := by
      norm_num [Spec.centralMoment, meanOf]
    rw [skewness, this, zero_div]
  have hr : (0 : ℝ) < √15 := Real.sqrt_pos.2 (by norm_num)
  have hr2 : (√15 : ℝ) ^ 2 = 15 := Real.sq_sqrt (by norm_num)
  have s1 : skewness [0, 0, 0, 0, 0, 1, 1, 1] = 2 / √15 := by
    have h3 : Spec.centralMoment 3 [0, 0, 0, 0, 0, 1, 1, 1] = 15 / 256 := by
      norm_num [Spec.centralMoment, meanOf]
    have h2 : stdDev [0, 0, 0, 0, 0, 1, 1, 1] = √15 / 8 := by
      rw [stdDev, show Spec.centralMoment 2 [0, 0, 0, 0, 0, 1, 1, 1] = (√15 / 8) ^ 2 by
        rw [div_pow, hr2]; norm_num [Spec.centralMoment, meanOf], Real.sqrt_sq (by positivity)]
    rw [skewness, h3, h2, div_eq_div_iff (by positivity) (by positivity), div_pow,
      show (√15 : ℝ) ^ 3 = √15 ^ 2 * √15 by ring, hr2]
    ring
  have hpos : 0 < skewness [0, 0, 0, 0, 0, 1, 1, 1] := by rw [s1]; positivity
  refine ⟨[-1, -1, -1, -1, 1, 1, 1, 1], [0, 0, 0, 0, 0, 1, 1, 1], dagostinoSkew 8 (√(36 / 99)), _, rfl,
    by simp, s0, hpos, ?_, C118_skew lib (by simp) hpos.ne', ?_, ?_⟩
  · have hz : skewZ 8 0 = dagostinoSkew 8 (√(36 / 99)) := by
      have e : (√(36 / 99) : ℝ) * √(((8 : ℝ) + 1) * (8 + 3) / (6 * (8 - 2))) = 1 := by
        rw [← Real.sqrt_mul (by norm_num)]
        norm_num
      rw [← skewZ_spec le_rfl (by positivity)]
      simp only [skewZ, zero_mul, if_true]
      rw [e, if_neg one_ne_zero]
    simp only [NormStat.value, skewTest, Except.map, skew_perm (sort_perm _), skew_spec, s0]
    rw [if_neg (by simp), ← hz]
    norm_num
  · have := hm hpos
    rw [dagostinoSkew_zero 8] at this
    exact_mod_cast this
  · have : skewness [0, 0, 0, 0, 0, 1, 1, 1] < √(36 / 99) := by
      rw [s1]
      refine Real.lt_sqrt_of_sq_lt ?_
      rw [div_pow, hr2]
      norm_num
    exact_mod_cast hm this

/-! ### Doornik-Hansen -/

/-- **C118**: the statistic of Doornik and Hansen is the sum of two squared normal deviates: D'Agostino's
transform of the skewness, and the Wilson-Hilferty transform of a chi-square variable made of skewness
and kurtosis. -/
theorem C118_doornikHansen (lib : NormLib) {xs : List ℝ} (hn : 8 ≤ xs.length) {n s b c α χ δ : ℝ}
    (hN : n = xs.length) (hs : s = skewness xs) (hb : b = kurtosis xs)
    (hδ : δ = (n - 3) * (n + 1) * (n ^ 2 + 15 * n - 4))
    (hc : c = (n - 7) * (n + 5) * (n + 7) * (n ^ 2 + 2 * n - 5) / (6 * δ))
    (hα : α = (n - 2) * (n + 5) * (n + 7) * (n ^ 2 + 27 * n - 70) / (6 * δ) + s ^ 2 * c)
    (hχ : χ = (b - 1 - s ^ 2) *
      ((n + 5) * (n + 7) * (n ^ 3 + 37 * n ^ 2 + 11 * n - 313) / (6 * δ))) :
    NormStat.value lib .doornikHansen xs = .ok (some (dagostinoSkew n s ^ 2 +
      wilsonHilferty (2 * α) χ ^ 2)) := by
  have hn' : (8 : ℝ) ≤ n := by rw [hN]; exact_mod_cast hn
  have h1 : moment 3 xs / moment 2 xs ^ (1.5 : ℝ) = s := by
    rw [hs, ← skew_spec, skew]
    norm_num
  have h2 : moment 4 xs / moment 2 xs ^ 2 = b := by rw [hb, ← kurt_spec, kurt]
  have h3 : dhZ2 s b n = wilsonHilferty (2 * α) χ := by
    have hδ0 : 0 < δ := by
      rw [hδ]
      have : 0 < n ^ 2 + 15 * n - 4 := by nlinarith
      have : 0 < (n - 3) * (n + 1) := by nlinarith
      positivity
    have hc0 : 0 ≤ c := by
      rw [hc]
      have h7 : 0 ≤ (n - 7) * (n + 5) * (n + 7) :=
        mul_nonneg (mul_nonneg (by linarith) (by linarith)) (by linarith)
      exact div_nonneg (mul_nonneg h7 (by nlinarith)) (by linarith)
    have hα0 : 0 < α := by
      rw [hα]
      have h7 : 0 < (n - 2) * (n + 5) * (n + 7) :=
        mul_pos (mul_pos (by linarith) (by linarith)) (by linarith)
      have : 0 < n ^ 2 + 27 * n - 70 := by nlinarith
      have : 0 ≤ s ^ 2 * c := mul_nonneg (sq_nonneg _) hc0
      have : 0 < (n - 2) * (n + 5) * (n + 7) * (n ^ 2 + 27 * n - 70) / (6 * δ) :=
        div_pos (mul_pos h7 (by assumption)) (by linarith)
      linarith
    simp only [dhZ2, wilsonHilferty]
    rw [← hδ, ← hc, ← hα]
    have e1 : 0.5 * (2 * (b - 1 - s ^ 2) * ((n + 5) * (n + 7) * (n ^ 3 + 37 * n ^ 2 + 11 * n - 313) /
        (12 * δ))) / α = χ / (2 * α) := by
      rw [hχ]
      field_simp
      norm_num
      ring
    have e2 : √(2 / (9 * (2 * α))) = (√(9 * α))⁻¹ := by
      rw [← Real.sqrt_inv]
      congr 1
      field_simp
    rw [e1, e2, div_inv_eq_mul]
    congr 1
    field_simp
    ring
  simp only [NormStat.value, Normal.doornikHansen, h1, h2]
  rw [← hN, dhZ1_spec hn', h3]

/-! ### Kurtosis -/

theorem kurtosis_param {n E V A : ℝ} (hn : 5 ≤ n) (h : AnscombeGlynn n E V A) {sb : ℝ}
    (hsb : sb = 6 * (n * n - 5 * n + 2) / ((n + 7) * (n + 9)) *
      √((6 * (n + 3) * (n + 5)) / (n * (n - 2) * (n - 3)))) :
    6 + 8 / sb * (2 / sb + √(1 + 4 / sb ^ 2)) = A ∧ 6 < A ∧ 0 < V := by
  obtain ⟨s, hs, h2, hA⟩ := h.param
  have hq : 0 < (6 * (n + 3) * (n + 5)) / (n * (n - 2) * (n - 3)) :=
    div_pos (by positivity) (mul_pos (mul_pos (by linarith) (by linarith)) (by linarith))
  have hc : 0 < 6 * (n * n - 5 * n + 2) / ((n + 7) * (n + 9)) :=
    div_pos (by nlinarith) (by positivity)
  have hsb0 : 0 < sb := by rw [hsb]; exact mul_pos hc (Real.sqrt_pos.2 hq)
  have e : sb = s := by
    refine (pow_left_inj₀ hsb0.le hs.le two_ne_zero).1 ?_
    rw [h2, hsb, mul_pow, Real.sq_sqrt hq.le, pow_two n]
  refine ⟨by rw [e, hA], ?_, ?_⟩
  · rw [hA]
    have : 0 < 8 / s * (2 / s + √(1 + 4 / s ^ 2)) := by positivity
    linarith
  · rw [h.var]
    exact div_pos (mul_pos (mul_pos (by linarith) (by linarith)) (by linarith)) (by positivity)

theorem kurtosisZ_spec {n E V A b D : ℝ} (hn : 5 ≤ n) (h : AnscombeGlynn n E V A)
    (hD : D = 1 + (b - E) / √V * √(2 / (A - 4))) :
    kurtosisZ n b = (1 - 2 / (9 * A) - Real.sign D * ((1 - 2 / A) / |D|) ^ (1 / 3 : ℝ)) /
      √(2 / (9 * A)) := by
  obtain ⟨e, -, -⟩ := kurtosis_param hn h rfl
  simp only [kurtosisZ]
  rw [e, ← h.mean, show (n + 1) * (n + 1) * (n + 3) * (n + 5) = (n + 1) ^ 2 * (n + 3) * (n + 5) by ring,
    ← h.var, ← hD]

theorem signed_root {D a : ℝ} (hD : D ≠ 0) (ha : 0 ≤ a) :
    (Real.sign D * (a / |D|) ^ (1 / 3 : ℝ)) ^ 3 = a / D := by
  have h : ((a / |D|) ^ (1 / 3 : ℝ)) ^ 3 = a / |D| := by
    rw [← Real.rpow_natCast, ← Real.rpow_mul (by positivity)]
    norm_num
  rw [mul_pow, h]
  rcases lt_or_gt_of_ne hD with h1 | h1
  · rw [Real.sign_of_neg h1, abs_of_neg h1, div_neg]
    ring
  · rw [Real.sign_of_pos h1, abs_of_pos h1]
    ring

theorem kurtosis_value (lib : NormLib) {xs : List ℝ} (hn : 5 ≤ xs.length) :
    NormStat.value lib .kurtosis xs = .ok (some (kurtosisZ xs.length (kurtosis xs))) := by
  simp only [NormStat.value, kurtosisTest, if_neg (show ¬xs.length < 5 by omega), Except.map,
    kurt_perm (sort_perm xs), kurt_spec]

/-- **C118**: the kurtosis criterion is the transform of Anscombe and Glynn, with the real cube root. -/
theorem C118_kurtosis (lib : NormLib) {xs : List ℝ} (hn : 5 ≤ xs.length) {E V A D : ℝ}
    (h : AnscombeGlynn xs.length E V A) (hD : D = 1 + (kurtosis xs - E) / √V * √(2 / (A - 4)))
    (hne : D ≠ 0) :
    ∃ c, c ^ 3 = (1 - 2 / A) / D ∧
      NormStat.value lib .kurtosis xs = .ok (some ((1 - 2 / (9 * A) - c) / √(2 / (9 * A)))) := by
  have hn' : (5 : ℝ) ≤ xs.length := by exact_mod_cast hn
  obtain ⟨-, hA, -⟩ := kurtosis_param hn' h rfl
  refine ⟨_, signed_root hne (sub_nonneg.2 ((div_le_one (by linarith)).2 (by linarith))), ?_⟩
  rw [kurtosis_value lib hn, kurtosisZ_spec hn' h hD]

/-- **C118**, partial: between samples of the same size, more kurtosis gives a larger value of the
kurtosis criterion, as long as the kurtosis is not too small: `1 + x √(2 / (A - 4))` must be positive,
which it is from the mean `E` of the kurtosis of normal samples on. -/
theorem C118_kurtosis_order_partial (lib : NormLib) {xs ys : List ℝ} (hn : 5 ≤ xs.length)
    (hl : xs.length = ys.length) {E V A : ℝ} (h : AnscombeGlynn xs.length E V A)
    (hx : 0 < 1 + (kurtosis xs - E) / √V * √(2 / (A - 4)) ∨ E ≤ kurtosis xs)
    (hxy : kurtosis xs < kurtosis ys) :
    ∃ v w, NormStat.value lib .kurtosis xs = .ok (some v) ∧
      NormStat.value lib .kurtosis ys = .ok (some w) ∧ v < w := by
  have hn' : (5 : ℝ) ≤ xs.length := by exact_mod_cast hn
  obtain ⟨-, hA, hV⟩ := kurtosis_param hn' h rfl
  have hV' : 0 < √V := Real.sqrt_pos.2 hV
  have hr : 0 < √(2 / (A - 4)) := Real.sqrt_pos.2 (div_pos two_pos (by linarith))
  have h0 : 0 < 1 + (kurtosis xs - E) / √V * √(2 / (A - 4)) := by
    rcases hx with hx | hx
    · exact hx
    · have : 0 ≤ (kurtosis xs - E) / √V * √(2 / (A - 4)) :=
        mul_nonneg (div_nonneg (by linarith) hV'.le) hr.le
      linarith
  have h1 : 1 + (kurtosis xs - E) / √V * √(2 / (A - 4)) < 1 + (kurtosis ys - E) / √V * √(2 / (A - 4)) := by
    have := mul_lt_mul_of_pos_right (div_lt_div_of_pos_right (sub_lt_sub_right hxy E) hV') hr
    linarith
  refine ⟨_, _, kurtosis_value lib hn, kurtosis_value lib (hl ▸ hn), ?_⟩
  rw [← hl, kurtosisZ_spec hn' h rfl, kurtosisZ_spec hn' h rfl]
  refine div_lt_div_of_pos_right ?_ (Real.sqrt_pos.2 (by positivity))
  rw [Real.sign_of_pos h0, Real.sign_of_pos (h0.trans h1), abs_of_pos h0, abs_of_pos (h0.trans h1), one_mul,
    one_mul]
  have ha : 0 < 1 - 2 / A := sub_pos.2 ((div_lt_one (by linarith)).2 (by linarith))
  have := Real.rpow_lt_rpow (z := 1 / 3) (div_pos ha (h0.trans h1)).le
    (div_lt_div_of_pos_left ha h0 h1) (by norm_num)
  linarith

/-- The parameters exist. -/
theorem exists_anscombeGlynn {n : ℝ} (hn : 5 ≤ n) : ∃ E V A, AnscombeGlynn n E V A := by
  have hq : 0 < (6 * (n + 3) * (n + 5)) / (n * (n - 2) * (n - 3)) :=
    div_pos (by positivity) (mul_pos (mul_pos (by linarith) (by linarith)) (by linarith))
  have hc : 0 < 6 * (n ^ 2 - 5 * n + 2) / ((n + 7) * (n + 9)) :=
    div_pos (by nlinarith) (by positivity)
  exact ⟨_, _, _, rfl, rfl, _, mul_pos hc (Real.sqrt_pos.2 hq), by rw [mul_pow, Real.sq_sqrt hq.le], rfl⟩

/-- **C118** is false of the kurtosis criterion: of two samples of a hundred observations, the one with
the smallest possible kurtosis gets the larger value, and the criterion rejects large values. -/
theorem C118_refuted_kurtosis (lib : NormLib) : ∃ xs ys : List ℝ, ∃ v w, xs.length = ys.length ∧
    kurtosis xs = 1 ∧ 3 < kurtosis ys ∧ NormStat.kurtosis.alternative = .right ∧
    NormStat.value lib .kurtosis xs = .ok (some v) ∧
    NormStat.value lib .kurtosis ys = .ok (some w) ∧ w < v := by
  have hp : ∀ (a b : ℕ) (u t : ℝ) (f : ℝ → ℝ), meanOf f (List.replicate a u ++ List.replicate b t) =
      (a * f u + b * f t) / (a + b) := by
    intro a b u t f
    simp [meanOf]
  have k1 : kurtosis (List.replicate 50 (-1) ++ List.replicate 50 1) = 1 := by
    rw [kurtosis, show stdDev (List.replicate 50 (-1) ++ List.replicate 50 1) ^ 4 =
      (stdDev (List.replicate 50 (-1) ++ List.replicate 50 1) ^ 2) ^ 2 by ring, stdDev_sq]
    simp only [Spec.centralMoment, hp]
    norm_num
  have k2 : 3 < kurtosis (List.replicate 99 0 ++ List.replicate 1 1) := by
    rw [kurtosis, show stdDev (List.replicate 99 0 ++ List.replicate 1 1) ^ 4 =
      (stdDev (List.replicate 99 0 ++ List.replicate 1 1) ^ 2) ^ 2 by ring, stdDev_sq]
    simp only [Spec.centralMoment, hp]
    norm_num
  obtain ⟨E, V, A, h⟩ := exists_anscombeGlynn (n := 100) (by norm_num)
  obtain ⟨-, hA, hV⟩ := kurtosis_param (by norm_num) h rfl
  have hV' : 0 < √V := Real.sqrt_pos.2 hV
  have hr : 0 < √(2 / (A - 4)) := Real.sqrt_pos.2 (div_pos two_pos (by linarith))
  refine ⟨_, _, _, _, ?_, k1, k2, rfl, kurtosis_value lib (by simp), kurtosis_value lib (by simp), ?_⟩
  · simp
  have l1 : ((List.replicate 50 (-1 : ℝ) ++ List.replicate 50 1).length : ℝ) = 100 := by simp
  have l2 : ((List.replicate 99 (0 : ℝ) ++ List.replicate 1 1).length : ℝ) = 100 := by simp
  rw [l1, l2, k1, kurtosisZ_spec (by norm_num) h rfl, kurtosisZ_spec (by norm_num) h rfl]
  refine div_lt_div_of_pos_right ?_ (Real.sqrt_pos.2 (by positivity))
  have hEv : E = 297 / 101 := by rw [h.mean]; norm_num
  have ha : 0 < 1 - 2 / A := sub_pos.2 ((div_lt_one (by linarith)).2 (by linarith))
  have hy : 0 < 1 + (kurtosis (List.replicate 99 0 ++ List.replicate 1 1) - E) / √V * √(2 / (A - 4)) := by
    have : 0 ≤ (kurtosis (List.replicate 99 0 ++ List.replicate 1 1) - E) / √V * √(2 / (A - 4)) :=
      mul_nonneg (div_nonneg (by rw [hEv]; linarith) hV'.le) hr.le
    linarith
  have hx : 1 + (1 - E) / √V * √(2 / (A - 4)) < 0 := by
    have hA' : A < 28 := by
      obtain ⟨s, hs, h2, hA⟩ := h.param
      set u := 1 / s with hu
      have hu0 : 0 < u := by positivity
      have hu2 : u ^ 2 < 614 / 1000 := by
        rw [hu, div_pow, one_pow, one_div, inv_lt_comm₀ (by positivity) (by norm_num), h2]
        norm_num
      have e1 : 8 / s = 8 * u := by rw [hu]; ring
      have e2 : 2 / s = 2 * u := by rw [hu]; ring
      have e3 : 4 / s ^ 2 = 4 * u ^ 2 := by rw [hu]; field_simp
      have hu1 : u < 784 / 1000 := by nlinarith
      have hr : √(1 + 4 * u ^ 2) < 186 / 100 := by
        refine (Real.sqrt_lt' (by norm_num)).2 ?_
        linarith
      rw [hA, e1, e2, e3]
      have h0 := Real.sqrt_nonneg (1 + 4 * u ^ 2)
      have : u * √(1 + 4 * u ^ 2) ≤ 784 / 1000 * (186 / 100) :=
        mul_le_mul hu1.le hr.le h0 (by norm_num)
      nlinarith
    have h1 : √V * √((A - 4) / 2) < E - 1 := by
      rw [← Real.sqrt_mul hV.le]
      refine (Real.sqrt_lt' (by rw [hEv]; norm_num)).2 ?_
      have : V * ((A - 4) / 2) < V * 12 := mul_lt_mul_of_pos_left (by linarith) hV
      refine this.trans ?_
      rw [h.var, hEv]
      norm_num
    have h2 : √(2 / (A - 4)) = 1 / √((A - 4) / 2) := by
      rw [← Real.sqrt_one, ← Real.sqrt_div zero_le_one, one_div_div]
    have h3 : 0 < √((A - 4) / 2) := Real.sqrt_pos.2 (by linarith)
    rw [h2, mul_one_div, div_div]
    have : 1 < (E - 1) / (√V * √((A - 4) / 2)) := (one_lt_div (by positivity)).2 h1
    have e : (1 - E) / (√V * √((A - 4) / 2)) = -((E - 1) / (√V * √((A - 4) / 2))) := by
      rw [← neg_div]; ring
    rw [e]
    linarith
  rw [Real.sign_of_neg hx, Real.sign_of_pos hy]
  have p1 := Real.rpow_pos_of_pos (div_pos ha (abs_pos.2 hx.ne)) (1 / 3 : ℝ)
  have p2 := Real.rpow_pos_of_pos (div_pos ha (abs_pos.2 hy.ne')) (1 / 3 : ℝ)
  linarith

/-- **C118**: the D'Agostino-Pearson statistic is the sum of the squares of the two criteria. -/
theorem C118_dap (lib : NormLib) {xs : List ℝ} (hn : 8 ≤ xs.length) :
    ∃ v w, NormStat.value lib .skew xs = .ok (some v) ∧ NormStat.value lib .kurtosis xs = .ok (some w) ∧
      NormStat.value lib .dap xs = .ok (some (v ^ 2 + w ^ 2)) := by
  simp only [NormStat.value, Normal.dap, skewTest, kurtosisTest, if_neg (show ¬xs.length < 8 by omega),
    if_neg (show ¬xs.length < 5 by omega), Except.map, bind, Except.bind, pure, Except.pure, pow_two]
  exact ⟨_, _, rfl, rfl, rfl⟩

/-! ### The hypotheses hold of concrete samples -/

example : ∃ xs ys : List ℝ, 8 ≤ xs.length ∧ xs.length = ys.length ∧ skewness xs ≠ 0 ∧
    skewness ys ≠ 0 := by
  have h : Spec.centralMoment 3 [0, 0, 0, 0, 0, 1, 1, 1] ≠ 0 := by norm_num [Spec.centralMoment, meanOf]
  have hv : stdDev [0, 0, 0, 0, 0, 1, 1, 1] ≠ 0 := (stdDev_pos ⟨0, by simp, 1, by simp, by norm_num⟩).ne'
  have : skewness [0, 0, 0, 0, 0, 1, 1, 1] ≠ 0 := div_ne_zero h (pow_ne_zero _ hv)
  exact ⟨_, _, by simp, rfl, this, this⟩

/-- The kurtosis of nine zeros and a one exceeds the mean of the kurtosis of ten normal observations, and
a sample of the same size has more. -/
example : ∃ xs ys : List ℝ, ∃ E V A, 5 ≤ xs.length ∧ xs.length = ys.length ∧
    AnscombeGlynn xs.length E V A ∧ E ≤ kurtosis xs ∧ kurtosis xs < kurtosis ys ∧
    1 + (kurtosis xs - E) / √V * √(2 / (A - 4)) ≠ 0 := by
  have k : ∀ xs : List ℝ, kurtosis xs = Spec.centralMoment 4 xs / Spec.centralMoment 2 xs ^ 2 := by
    intro xs
    rw [kurtosis, ← stdDev_sq]
    ring
  have k1 : kurtosis [0, 0, 0, 0, 0, 0, 0, 0, 0, 1] = 73 / 9 := by
    rw [k]; norm_num [Spec.centralMoment, meanOf]
  have k2 : kurtosis [0, 0, 0, 0, 0, 0, 0, 1, -1, 0] = 5 := by
    rw [k]; norm_num [Spec.centralMoment, meanOf]
  obtain ⟨E, V, A, h⟩ := exists_anscombeGlynn (n := 10) (by norm_num)
  have hE : E ≤ 5 := by rw [h.mean]; norm_num
  refine ⟨[0, 0, 0, 0, 0, 0, 0, 1, -1, 0], [0, 0, 0, 0, 0, 0, 0, 0, 0, 1], E, V, A, by simp, rfl,
    by simpa using h, by rw [k2]; exact hE, by rw [k1, k2]; norm_num, ?_⟩
  rw [k2]
  have : 0 ≤ (5 - E) / √V * √(2 / (A - 4)) :=
    mul_nonneg (div_nonneg (by linarith) (Real.sqrt_nonneg _)) (Real.sqrt_nonneg _)
  linarith

end Pysatl.Props
