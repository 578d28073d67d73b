import Verif.Props.ConsistencyNormal

/-! # C137: which laws the kurtosis test and the tests built on it detect -/

namespace Pysatl.Props

open Pysatl.Decision Pysatl.Resolver Pysatl.Spec Pysatl.Edf Pysatl.Graph Pysatl.Gen Pysatl.Normal Pysatl.Exponent
open MeasureTheory ProbabilityTheory Filter Topology

/-! ### Constants of the transforms for large samples -/

theorem inv_tendsto : Tendsto (fun n : ℕ => 1 / (n : ℝ)) atTop (𝓝 0) := tendsto_one_div_atTop_nhds_zero_nat

theorem anscombe_mean : Tendsto (fun n : ℕ => 3 * ((n : ℝ) - 1) / (n + 1)) atTop (𝓝 3) := by
  have h : ContinuousAt (fun u : ℝ => 3 * (1 - u) / (1 + u)) 0 := by fun_prop (disch := norm_num)
  have := h.tendsto.comp inv_tendsto
  norm_num at this
  refine this.congr' ?_
  filter_upwards [eventually_gt_atTop 0] with n hn
  have : (0 : ℝ) < n := by exact_mod_cast hn
  simp only [Function.comp]
  field_simp

theorem anscombe_var : Tendsto (fun n : ℕ => (n : ℝ) * (24 * n * (n - 2) * (n - 3) / ((n + 1) ^ 2 * (n + 3) * (n + 5))))
    atTop (𝓝 24) := by
  have h : ContinuousAt (fun u : ℝ => 24 * (1 - 2 * u) * (1 - 3 * u) / ((1 + u) ^ 2 * (1 + 3 * u) * (1 + 5 * u))) 0 := by
    fun_prop (disch := norm_num)
  have := h.tendsto.comp inv_tendsto
  norm_num at this
  refine this.congr' ?_
  filter_upwards [eventually_gt_atTop 0] with n hn
  have : (0 : ℝ) < n := by exact_mod_cast hn
  simp only [Function.comp]
  field_simp

theorem anscombe_sb : Tendsto (fun n : ℕ => (n : ℝ) * ((6 * ((n : ℝ) ^ 2 - 5 * n + 2) / ((n + 7) * (n + 9))) ^ 2 *
    (6 * (n + 3) * (n + 5) / (n * (n - 2) * (n - 3))))) atTop (𝓝 216) := by
  have h : ContinuousAt (fun u : ℝ => (6 * (1 - 5 * u + 2 * u ^ 2) / ((1 + 7 * u) * (1 + 9 * u))) ^ 2 *
    (6 * (1 + 3 * u) * (1 + 5 * u) / ((1 - 2 * u) * (1 - 3 * u)))) 0 := by
    fun_prop (disch := norm_num)
  have := h.tendsto.comp inv_tendsto
  norm_num at this
  refine this.congr' ?_
  filter_upwards [eventually_gt_atTop 3] with n hn
  have : (3 : ℝ) < n := by exact_mod_cast hn
  have h2 : (n : ℝ) - 2 ≠ 0 := by linarith
  have h3 : (n : ℝ) - 3 ≠ 0 := by linarith
  simp only [Function.comp]
  field_simp

/-- The parameter of Anscombe and Glynn grows like `4 n / 27`. -/
theorem anscombe_param {A : ℕ → ℝ} (h : ∀ᶠ n : ℕ in atTop, ∃ E V, AnscombeGlynn n E V (A n)) :
    Tendsto (fun n : ℕ => A n / n) atTop (𝓝 (4 / 27)) := by
  have hsb := anscombe_sb
  set q : ℕ → ℝ := fun n => (6 * ((n : ℝ) ^ 2 - 5 * n + 2) / ((n + 7) * (n + 9))) ^ 2 *
    (6 * (n + 3) * (n + 5) / (n * (n - 2) * (n - 3))) with hq
  have hq0 : Tendsto q atTop (𝓝 0) := by
    have := hsb.mul inv_tendsto
    rw [mul_zero] at this
    refine this.congr' ?_
    filter_upwards [eventually_gt_atTop 0] with n hn
    have : (n : ℝ) ≠ 0 := by exact_mod_cast hn.ne'
    change n * q n * (1 / n) = q n
    field_simp
  have hlim : Tendsto (fun n => (6 * q n + 8 * (2 + √(q n + 4))) / (n * q n)) atTop (𝓝 (4 / 27)) := by
    have h1 := ((hq0.const_mul 6).add (((hq0.add_const 4).sqrt.const_add 2).const_mul 8)).div hsb (by norm_num)
    have e : (6 * 0 + 8 * (2 + √(0 + 4))) / 216 = (4 / 27 : ℝ) := by
      rw [zero_add, show (4 : ℝ) = 2 ^ 2 by norm_num, Real.sqrt_sq (by norm_num)]
      norm_num
    rw [e] at h1
    exact h1
  refine hlim.congr' ?_
  filter_upwards [h, eventually_gt_atTop 0] with n ⟨E, V, hA⟩ hn
  obtain ⟨s, hs, h2, hA'⟩ := hA.param
  have hn' : (n : ℝ) ≠ 0 := by exact_mod_cast hn.ne'
  have e : q n = s ^ 2 := h2.symm
  have h4 : √(s ^ 2 + 4) = s * √(1 + 4 / s ^ 2) := by
    rw [show s ^ 2 + 4 = s ^ 2 * (1 + 4 / s ^ 2) by field_simp, Real.sqrt_mul (sq_nonneg s), Real.sqrt_sq hs.le]
  rw [e, h4, hA']
  generalize √(1 + 4 / s ^ 2) = r
  field_simp

/-- What the transform of Anscombe and Glynn does to the kurtosis `b` of a large sample, up to the factor `√(2 n / 3)`. -/
noncomputable def kurtosisLimit (b : ℝ) : ℝ :=
  1 - Real.sign (1 + 3 / 4 * (b - 3)) * (1 / |1 + 3 / 4 * (b - 3)|) ^ (1 / 3 : ℝ)

theorem kurtosis_denominator {E V A : ℕ → ℝ} (h : ∀ᶠ n : ℕ in atTop, AnscombeGlynn n (E n) (V n) (A n)) {b : ℕ → ℝ} {l : ℝ}
    (hb : Tendsto b atTop (𝓝 l)) :
    Tendsto (fun n => 1 + (b n - E n) / √(V n) * √(2 / (A n - 4))) atTop (𝓝 (1 + 3 / 4 * (l - 3))) := by
  have hE : Tendsto E atTop (𝓝 3) := by
    refine anscombe_mean.congr' ?_
    filter_upwards [h] with n hn
    exact hn.mean.symm
  have hV : Tendsto (fun n : ℕ => n * V n) atTop (𝓝 24) := by
    refine anscombe_var.congr' ?_
    filter_upwards [h] with n hn
    rw [hn.var]
  have hA := anscombe_param (A := A) (h.mono fun n hn => ⟨_, _, hn⟩)
  have hA4 : Tendsto (fun n : ℕ => (A n - 4) / n) atTop (𝓝 (4 / 27)) := by
    have := hA.sub (inv_tendsto.const_mul 4)
    rw [mul_zero, sub_zero] at this
    refine this.congr fun n => ?_
    ring
  have hr : Tendsto (fun n : ℕ => √(2 / (n * V n * ((A n - 4) / n)))) atTop (𝓝 (3 / 4)) := by
    have := ((tendsto_const_nhds (x := (2 : ℝ))).div (hV.mul hA4) (by norm_num)).sqrt
    rw [show (2 : ℝ) / (24 * (4 / 27)) = (3 / 4) ^ 2 by norm_num, Real.sqrt_sq (by norm_num)] at this
    exact this
  have := ((hb.sub hE).mul hr).const_add 1
  rw [mul_comm (l - 3)] at this
  refine this.congr' ?_
  filter_upwards [h, eventually_ge_atTop 5] with n hn h5
  have h5' : (5 : ℝ) ≤ n := by exact_mod_cast h5
  obtain ⟨-, hA6, hV0⟩ := kurtosis_param h5' hn rfl
  have hn0 : (n : ℝ) ≠ 0 := by linarith
  have hA0 : A n - 4 ≠ 0 := by linarith
  rw [show (n : ℝ) * V n * ((A n - 4) / n) = V n * (A n - 4) by field_simp, div_mul_eq_div_div_swap,
    Real.sqrt_div' _ hV0.le]
  ring

theorem tendsto_signed_root {D a : ℕ → ℝ} {d : ℝ} (hD : Tendsto D atTop (𝓝 d)) (ha : Tendsto a atTop (𝓝 1)) (h0 : d ≠ 0) :
    Tendsto (fun n => Real.sign (D n) * (a n / |D n|) ^ (1 / 3 : ℝ)) atTop
      (𝓝 (Real.sign d * (1 / |d|) ^ (1 / 3 : ℝ))) := by
  have h1 : Tendsto (fun n => (a n / |D n|) ^ (1 / 3 : ℝ)) atTop (𝓝 ((1 / |d|) ^ (1 / 3 : ℝ))) :=
    (ha.div hD.abs (abs_ne_zero.2 h0)).rpow_const (Or.inr (by norm_num))
  refine Tendsto.mul ?_ h1
  refine tendsto_const_nhds.congr' ?_
  rcases lt_or_gt_of_ne h0 with h | h
  · filter_upwards [hD.eventually (gt_mem_nhds h)] with n hn
    rw [Real.sign_of_neg h, Real.sign_of_neg hn]
  · filter_upwards [hD.eventually (lt_mem_nhds h)] with n hn
    rw [Real.sign_of_pos h, Real.sign_of_pos hn]

/-- The parameters of Anscombe and Glynn for all sample sizes from five on. -/
theorem anscombe_exists : ∃ E V A : ℕ → ℝ, ∀ n : ℕ, 5 ≤ n → AnscombeGlynn n (E n) (V n) (A n) := by
  have : ∀ n : ℕ, ∃ E V A : ℝ, 5 ≤ n → AnscombeGlynn n E V A := fun n => by
    by_cases h : 5 ≤ n
    · obtain ⟨E, V, A, hA⟩ := exists_anscombeGlynn (n := n) (by exact_mod_cast h)
      exact ⟨E, V, A, fun _ => hA⟩
    · exact ⟨0, 0, 0, fun h' => absurd h' h⟩
  choose E V A h using this
  exact ⟨E, V, A, h⟩

theorem anscombe_inv {E V A : ℕ → ℝ} (h : ∀ n : ℕ, 5 ≤ n → AnscombeGlynn n (E n) (V n) (A n)) :
    Tendsto (fun n => 1 / A n) atTop (𝓝 0) := by
  have hA := anscombe_param (A := A) ((eventually_ge_atTop 5).mono fun n hn => ⟨_, _, h n hn⟩)
  have := ((tendsto_const_nhds (x := (1 : ℝ))).div hA (by norm_num)).mul inv_tendsto
  rw [mul_zero] at this
  refine this.congr' ?_
  filter_upwards [eventually_ge_atTop 5] with n hn
  have hn' : (5 : ℝ) ≤ n := by exact_mod_cast hn
  obtain ⟨-, hA6, -⟩ := kurtosis_param hn' (h n hn) rfl
  have : (n : ℝ) ≠ 0 := by linarith
  have : A n ≠ 0 := by linarith
  simp only [Pi.div_apply]
  field_simp

/-- The numerator of the transform settles. -/
theorem kurtosis_numerator {E V A : ℕ → ℝ} (h : ∀ n : ℕ, 5 ≤ n → AnscombeGlynn n (E n) (V n) (A n)) {b : ℕ → ℝ} {l : ℝ}
    (hb : Tendsto b atTop (𝓝 l)) (hl : l ≠ 5 / 3) :
    Tendsto (fun n => 1 - 2 / (9 * A n) - Real.sign (1 + (b n - E n) / √(V n) * √(2 / (A n - 4))) *
      ((1 - 2 / A n) / |1 + (b n - E n) / √(V n) * √(2 / (A n - 4))|) ^ (1 / 3 : ℝ)) atTop (𝓝 (kurtosisLimit l)) := by
  have hi := anscombe_inv h
  have h1 : Tendsto (fun n => 1 - 2 / (9 * A n)) atTop (𝓝 1) := by
    have := (hi.const_mul (2 / 9)).const_sub 1
    rw [mul_zero, sub_zero] at this
    refine this.congr fun n => ?_
    rw [div_mul_div_comm]
    ring
  have h2 : Tendsto (fun n => 1 - 2 / A n) atTop (𝓝 1) := by
    have := (hi.const_mul 2).const_sub 1
    rw [mul_zero, sub_zero] at this
    refine this.congr fun n => ?_
    ring
  refine h1.sub (tendsto_signed_root (kurtosis_denominator ((eventually_ge_atTop 5).mono h) hb) h2 ?_)
  intro h0
  exact hl (by linarith)

theorem kurtosisLimit_three : kurtosisLimit 3 = 0 := by
  norm_num [kurtosisLimit, Real.sign_of_pos]

theorem kurtosisLimit_pos {b : ℝ} (h : 3 < b ∨ b < 5 / 3) : 0 < kurtosisLimit b := by
  unfold kurtosisLimit
  rcases h with h | h
  · have hD : 1 < 1 + 3 / 4 * (b - 3) := by linarith
    have hD0 : 0 < 1 + 3 / 4 * (b - 3) := by linarith
    rw [Real.sign_of_pos hD0, abs_of_pos hD0, one_mul, sub_pos]
    refine Real.rpow_lt_one (by positivity) ?_ (by norm_num)
    rw [div_lt_one hD0]
    exact hD
  · have hD : 1 + 3 / 4 * (b - 3) < 0 := by linarith
    rw [Real.sign_of_neg hD]
    have := Real.rpow_nonneg (one_div_nonneg.2 (abs_nonneg (1 + 3 / 4 * (b - 3)))) (1 / 3)
    linarith

theorem kurtosisLimit_neg {b : ℝ} (h : 5 / 3 < b) (h3 : b < 3) : kurtosisLimit b < 0 := by
  unfold kurtosisLimit
  have hD : 0 < 1 + 3 / 4 * (b - 3) := by linarith
  rw [Real.sign_of_pos hD, abs_of_pos hD, one_mul, sub_neg]
  refine Real.one_lt_rpow ?_ (by norm_num)
  rw [one_lt_div hD]
  linarith

section
variable (code : String) (params : Option (List (String × ℝ))) (classes : List GeneratorClass)
  (hp : classes.Perm generatorClasses) (m : ℝ) {v : ℝ} (hv : 0 < v)

theorem kurtosis_settles {E V A : ℕ → ℝ} (h : ∀ n : ℕ, 5 ≤ n → AnscombeGlynn n (E n) (V n) (A n)) {Q : Measure ℝ}
    [IsProbabilityMeasure Q] (h4 : Integrable (fun x => |x| ^ 4) Q) (hQ : 0 < lawVariance Q)
    (hk : lawStandardised Q 4 ≠ 5 / 3) :
    ValueSettles (NormStat.kurtosis.statistic scipyNorm code params) (fun n x => x / √(2 / (9 * A n))) Q
      (kurtosisLimit (lawStandardised Q 4)) := by
  filter_upwards [settles_kurtosis h4 hQ] with ω b
  refine ⟨_, kurtosis_numerator h b hk, ?_⟩
  filter_upwards [eventually_ge_atTop 5] with n hn
  rw [normal_value (kurtosis_value scipyNorm (by simpa using hn)), List.length_ofFn,
    kurtosisZ_spec (by exact_mod_cast hn) (h n hn) rfl]

theorem kurtosis_grows {E V A : ℕ → ℝ} (h : ∀ n : ℕ, 5 ≤ n → AnscombeGlynn n (E n) (V n) (A n)) :
    ∀ᶠ n : ℕ in atTop, StrictMono fun x : ℝ => x / √(2 / (9 * A n)) := by
  filter_upwards [eventually_ge_atTop 5] with n hn x y hxy
  obtain ⟨-, hA6, -⟩ := kurtosis_param (by exact_mod_cast hn) (h n hn) rfl
  exact div_lt_div_of_pos_right hxy (Real.sqrt_pos.2 (by positivity))

include hp hv in
/-- **C137, kurtosis, what holds**: laws with a kurtosis above three, or below `5/3`, are rejected in the long run.  Laws
with a kurtosis between `5/3` and three never are. -/
theorem C137_kurtosis_partial : ∃ G, (Gen.Family.normal m v).simulator classes = .ok G ∧
    (∀ n, G.generate n = .ok (iid n (gaussianReal m v.toNNReal))) ∧
    ∀ Q : Measure ℝ, IsProbabilityMeasure Q → Integrable (fun x => |x| ^ 4) Q → (∀ c, Q ≠ Measure.dirac c) →
      ((3 < lawStandardised Q 4 ∨ lawStandardised Q 4 < 5 / 3) →
        Consistent (NormStat.kurtosis.statistic scipyNorm code params) Q (gaussianReal m v.toNNReal)) ∧
      (5 / 3 < lawStandardised Q 4 → lawStandardised Q 4 < 3 →
        Undetected (NormStat.kurtosis.statistic scipyNorm code params) Q (gaussianReal m v.toNNReal)) := by
  refine with_normal hp m hv fun Q _ h4 hQ => ?_
  obtain ⟨E, V, A, h⟩ := anscombe_exists
  have hV := (lawVariance_pos (second_of_fourth h4)).2 hQ
  have hg := kurtosis_settles code params h (gaussian_moment_finite m v.toNNReal 4) (gaussian_variance_pos m hv)
    (by rw [gaussian_kurtosis m (toNNReal_ne hv)]; norm_num)
  rw [gaussian_kurtosis m (toNNReal_ne hv), kurtosisLimit_three] at hg
  constructor
  · intro hk
    have hne : lawStandardised Q 4 ≠ 5 / 3 := by
      rcases hk with hk | hk
      · exact fun h => by rw [h] at hk; norm_num at hk
      · exact hk.ne
    exact value_consistent (normal_meas _ code params) (kurtosis_grows h) (kurtosis_settles code params h h4 hV hne) hg
      (Or.inl ⟨(fun h => by cases h), kurtosisLimit_pos hk⟩)
  · intro h1 h2
    exact value_undetected (normal_meas _ code params) (kurtosis_grows h) (kurtosis_settles code params h h4 hV h1.ne') hg
      (Or.inr ⟨rfl, kurtosisLimit_neg h1 h2⟩)

/-! ### D'Agostino's transform of the skewness for large samples -/

theorem dagostino_beta : Tendsto (fun n : ℕ => (n : ℝ) * (3 * ((n : ℝ) ^ 2 + 27 * n - 70) * (n + 1) * (n + 3) /
    ((n - 2) * (n + 5) * (n + 7) * (n + 9)) - 3)) atTop (𝓝 36) := by
  have h : ContinuousAt (fun u : ℝ => 3 * (12 - 60 * u - 228 * u ^ 2 + 420 * u ^ 3) /
      ((1 - 2 * u) * (1 + 5 * u) * (1 + 7 * u) * (1 + 9 * u))) 0 := by
    fun_prop (disch := norm_num)
  have := h.tendsto.comp inv_tendsto
  norm_num at this
  refine this.congr' ?_
  filter_upwards [eventually_gt_atTop 3] with n hn
  have : (3 : ℝ) < n := by exact_mod_cast hn
  have h2 : (n : ℝ) - 2 ≠ 0 := by linarith
  simp only [Function.comp]
  field_simp
  ring

theorem dagostino_ratio_tendsto : Tendsto (fun n : ℕ => ((n : ℝ) + 1) * (n + 3) / (n * (n - 2))) atTop (𝓝 1) := by
  have h : ContinuousAt (fun u : ℝ => (1 + u) * (1 + 3 * u) / (1 - 2 * u)) 0 := by
    fun_prop (disch := norm_num)
  have := h.tendsto.comp inv_tendsto
  norm_num at this
  refine this.congr' ?_
  filter_upwards [eventually_gt_atTop 3] with n hn
  have : (3 : ℝ) < n := by exact_mod_cast hn
  have h2 : (n : ℝ) - 2 ≠ 0 := by linarith
  simp only [Function.comp]
  field_simp

/-- The transform of the skewness for large samples. -/
theorem dagostinoSkew_form : ∃ p q : ℕ → ℝ, Tendsto p atTop (𝓝 √(3 / 2)) ∧ Tendsto q atTop (𝓝 3) ∧
    ∀ᶠ n : ℕ in atTop, ∀ b : ℝ, dagostinoSkew n b / √n = Real.arsinh (b * p n) / q n := by
  set β : ℕ → ℝ := fun n => 3 * ((n : ℝ) ^ 2 + 27 * n - 70) * (n + 1) * (n + 3) / ((n - 2) * (n + 5) * (n + 7) * (n + 9))
    with hβ
  have hβ3 : Tendsto (fun n : ℕ => (n : ℝ) * (β n - 3)) atTop (𝓝 36) := dagostino_beta
  have hβl : Tendsto β atTop (𝓝 3) := by
    have := (hβ3.mul inv_tendsto).add_const 3
    norm_num at this
    refine this.congr' ?_
    filter_upwards [eventually_gt_atTop 0] with n hn
    have : (n : ℝ) ≠ 0 := by exact_mod_cast hn.ne'
    field_simp
    ring
  have hr : Tendsto (fun n => √(2 * (β n - 1))) atTop (𝓝 2) := by
    have := ((hβl.sub_const 1).const_mul 2).sqrt
    rwa [show (2 : ℝ) * (3 - 1) = 2 ^ 2 by norm_num, Real.sqrt_sq (by norm_num)] at this
  set w : ℕ → ℝ := fun n => √(2 * (β n - 1)) - 1 with hw
  have hw1 : Tendsto w atTop (𝓝 1) := by
    have := hr.sub_const 1
    rwa [show (2 : ℝ) - 1 = 1 by norm_num] at this
  have hgt : ∀ᶠ n : ℕ in atTop, 1 < w n := by
    filter_upwards [eventually_ge_atTop 8] with n hn
    exact skew_w (skew_beta_gt (by exact_mod_cast hn))
  have hnw : Tendsto (fun n : ℕ => (n : ℝ) * (w n - 1)) atTop (𝓝 18) := by
    have := (hβ3.const_mul 2).div (hr.add_const 2) (by norm_num)
    rw [show (2 : ℝ) * 36 / (2 + 2) = 18 by norm_num] at this
    refine this.congr' ?_
    filter_upwards [hβl.eventually (lt_mem_nhds (show (1 : ℝ) < 3 by norm_num))] with n hn
    have hs : √(2 * (β n - 1)) ^ 2 = 2 * (β n - 1) := Real.sq_sqrt (by linarith)
    have h0 := Real.sqrt_nonneg (2 * (β n - 1))
    simp only [hw, Pi.div_apply]
    generalize √(2 * (β n - 1)) = r at *
    have : r + 2 ≠ 0 := by positivity
    rw [div_eq_iff this]
    have e : (r - 1 - 1) * (r + 2) = 2 * (β n - 3) := by nlinarith
    rw [mul_assoc, e]
    ring
  have hlog : Tendsto (fun n : ℕ => (n : ℝ) * Real.log (w n)) atTop (𝓝 18) := by
    have hlow : Tendsto (fun n : ℕ => (n : ℝ) * (w n - 1) / w n) atTop (𝓝 18) := by
      have := hnw.div hw1 one_ne_zero
      rw [div_one] at this
      exact this
    refine tendsto_of_tendsto_of_tendsto_of_le_of_le' hlow hnw ?_ ?_
    · filter_upwards [hgt] with n hn
      have h1 : 1 - (w n)⁻¹ ≤ Real.log (w n) := by
        have := Real.one_sub_inv_le_log_of_pos (x := w n) (by linarith)
        exact this
      have e : (n : ℝ) * (w n - 1) / w n = n * (1 - (w n)⁻¹) := by
        have : w n ≠ 0 := by linarith
        field_simp
      rw [e]
      exact mul_le_mul_of_nonneg_left h1 (Nat.cast_nonneg n)
    · filter_upwards [hgt] with n hn
      exact mul_le_mul_of_nonneg_left (Real.log_le_sub_one_of_pos (by linarith)) (Nat.cast_nonneg n)
  have harg : Tendsto (fun n : ℕ => √(((n : ℝ) + 1) * (n + 3) / (n * (n - 2)) * (n * (w n - 1)) / 12)) atTop
      (𝓝 √(3 / 2)) := by
    have := ((dagostino_ratio_tendsto.mul hnw).div_const 12).sqrt
    rwa [show (1 : ℝ) * 18 / 12 = 3 / 2 by norm_num] at this
  have hden : Tendsto (fun n : ℕ => √(n * Real.log (w n) / 2)) atTop (𝓝 3) := by
    have := (hlog.div_const 2).sqrt
    rwa [show (18 : ℝ) / 2 = 3 ^ 2 by norm_num, Real.sqrt_sq (by norm_num)] at this
  refine ⟨_, _, harg, hden, ?_⟩
  filter_upwards [eventually_ge_atTop 8, hgt] with n hn hwn b
  symm
  have hn' : (8 : ℝ) ≤ n := by exact_mod_cast hn
  have hn2 : (0 : ℝ) < n - 2 := by linarith
  simp only [dagostinoSkew]
  change _ = Real.arsinh (b / √(6 * ((n : ℝ) - 2) / ((n + 1) * (n + 3))) / √(2 / (√(w n) ^ 2 - 1))) /
    √(Real.log √(w n)) / √n
  rw [Real.sq_sqrt (by linarith), Real.log_sqrt (by linarith), div_div (Real.arsinh _), div_div b]
  have hlogpos := Real.log_pos hwn
  congr 1
  · congr 1
    rw [← Real.sqrt_mul (by positivity), div_eq_mul_inv b, ← Real.sqrt_inv]
    congr 2
    have : w n - 1 ≠ 0 := by linarith
    have : (n : ℝ) ≠ 0 := by linarith
    have : (n : ℝ) - 2 ≠ 0 := by linarith
    field_simp
    ring
  · rw [← Real.sqrt_mul (by positivity)]
    congr 1
    ring

/-- The transform of the skewness grows like the square root of the sample size. -/
theorem dagostinoSkew_limit {b : ℕ → ℝ} {l : ℝ} (hb : Tendsto b atTop (𝓝 l)) :
    Tendsto (fun n : ℕ => dagostinoSkew n (b n) / √n) atTop (𝓝 (Real.arsinh (l * √(3 / 2)) / 3)) := by
  obtain ⟨p, q, hp, hq, h⟩ := dagostinoSkew_form
  refine ((Real.continuous_arsinh.tendsto _).comp (hb.mul hp) |>.div hq (by norm_num)).congr' ?_
  filter_upwards [h] with n hn
  simp only [hn, Function.comp, Pi.div_apply]

theorem arsinh_limit_sq_pos {l : ℝ} (h : l ≠ 0) : 0 < (Real.arsinh (l * √(3 / 2)) / 3) ^ 2 := by
  refine sq_pos_of_ne_zero (div_ne_zero (fun h0 => h ?_) (by norm_num))
  rw [Real.arsinh_eq_zero_iff] at h0
  rcases mul_eq_zero.1 h0 with h0 | h0
  · exact h0
  · exact absurd h0 (Real.sqrt_pos.2 (by norm_num)).ne'

/-! ### D'Agostino-Pearson -/

theorem dap_execute {xs : List ℝ} (hn : 8 ≤ xs.length) : (NormStat.dap.statistic scipyNorm code params).execute xs =
    .ok (dagostinoSkew xs.length (if skewness xs = 0 then skewReplaced xs.length else skewness xs) ^ 2 +
      kurtosisZ xs.length (kurtosis xs) ^ 2) := by
  obtain ⟨a, b, ha, hb, hab⟩ := C118_dap scipyNorm hn
  have h1 := skew_execute "" none hn
  rw [normal_value ha] at h1
  rw [kurtosis_value scipyNorm (by omega)] at hb
  cases h1
  cases hb
  exact normal_value hab

theorem skew_replaced_tendsto {s : ℕ → ℝ} {l : ℝ} (a : Tendsto s atTop (𝓝 l)) :
    Tendsto (fun n => if s n = 0 then skewReplaced n else s n) atTop (𝓝 l) := by
  rcases eq_or_ne l 0 with h | h
  · rw [h] at a ⊢
    rw [tendsto_iff_norm_sub_tendsto_zero] at a ⊢
    refine squeeze_zero (fun _ => norm_nonneg _) (fun n => ?_)
      (by simpa using (skewReplaced_tendsto.abs.add a))
    split_ifs with h0
    · rw [h0]
      simp
    · have := abs_nonneg (skewReplaced (n : ℝ))
      simp only [sub_zero, Real.norm_eq_abs]
      linarith
  · refine a.congr' ?_
    filter_upwards [a.eventually_ne h] with n hn
    rw [if_neg hn]

/-- The square of the transformed kurtosis, divided by the sample size, stays away from zero unless the kurtosis is three. -/
theorem kurtosisZ_far {l : ℝ} (hl : l ≠ 3) :
    ∃ c > 0, ∀ b : ℕ → ℝ, Tendsto b atTop (𝓝 l) → ∀ᶠ n : ℕ in atTop, c * n < kurtosisZ n (b n) ^ 2 := by
  obtain ⟨E, V, A, h⟩ := anscombe_exists
  have hA := anscombe_param (A := A) ((eventually_ge_atTop 5).mono fun n hn => ⟨_, _, h n hn⟩)
  have hi := anscombe_inv h
  -- the numerator stays away from zero
  obtain ⟨d, hd, hnum⟩ : ∃ d > 0, ∀ b : ℕ → ℝ, Tendsto b atTop (𝓝 l) → ∀ᶠ n : ℕ in atTop, d < (1 - 2 / (9 * A n) -
      Real.sign (1 + (b n - E n) / √(V n) * √(2 / (A n - 4))) *
      ((1 - 2 / A n) / |1 + (b n - E n) / √(V n) * √(2 / (A n - 4))|) ^ (1 / 3 : ℝ)) ^ 2 := by
    rcases eq_or_ne l (5 / 3) with h53 | h53
    · refine ⟨1 / 5, by norm_num, fun b hb => ?_⟩
      have hD := kurtosis_denominator ((eventually_ge_atTop 5).mono h) hb
      rw [h53, show (1 : ℝ) + 3 / 4 * (5 / 3 - 3) = 0 by norm_num] at hD
      filter_upwards [hD.eventually (gt_mem_nhds (show (0 : ℝ) < 1 / 16 by norm_num)), hi.eventually (gt_mem_nhds
        (show (0 : ℝ) < 1 / 4 by norm_num)), eventually_ge_atTop 5] with n hn hA4 h5
      obtain ⟨-, hA6, -⟩ := kurtosis_param (by exact_mod_cast h5) (h n h5) rfl
      set D := 1 + (b n - E n) / √(V n) * √(2 / (A n - 4))
      have e1 : 2 / (9 * A n) = 2 / 9 * (1 / A n) := by rw [div_mul_div_comm]; ring
      have e2 : 2 / A n = 2 * (1 / A n) := by ring
      have hpos : 0 < 1 / A n := by positivity
      rw [e1, e2]
      rcases le_or_gt D 0 with h0 | h0
      · have h1 : Real.sign D * ((1 - 2 * (1 / A n)) / |D|) ^ (1 / 3 : ℝ) ≤ 0 := by
          refine mul_nonpos_of_nonpos_of_nonneg ?_ (Real.rpow_nonneg (div_nonneg (by linarith) (abs_nonneg _)) _)
          rcases h0.lt_or_eq with h0 | h0
          · rw [Real.sign_of_neg h0]; norm_num
          · rw [h0, Real.sign_zero]
        nlinarith
      · rw [Real.sign_of_pos h0, abs_of_pos h0, one_mul]
        have h1 : (2 : ℝ) ≤ ((1 - 2 * (1 / A n)) / D) ^ (1 / 3 : ℝ) := by
          have e : (2 : ℝ) = 8 ^ (1 / 3 : ℝ) := by
            rw [show (8 : ℝ) = 2 ^ (3 : ℝ) by norm_num, ← Real.rpow_mul (by norm_num)]
            norm_num
          rw [e]
          refine Real.rpow_le_rpow (by norm_num) ?_ (by norm_num)
          rw [le_div_iff₀ h0]
          linarith
        nlinarith
    · have h0 : 0 < kurtosisLimit l ^ 2 := by
        refine sq_pos_of_ne_zero ?_
        rcases lt_or_gt_of_ne hl with h3 | h3
        · rcases lt_or_gt_of_ne h53 with h5 | h5
          · exact (kurtosisLimit_pos (Or.inr h5)).ne'
          · exact (kurtosisLimit_neg h5 h3).ne
        · exact (kurtosisLimit_pos (Or.inl h3)).ne'
      exact ⟨kurtosisLimit l ^ 2 / 2, by positivity, fun b hb =>
        ((kurtosis_numerator h hb h53).pow 2).eventually (lt_mem_nhds (by linarith))⟩
  refine ⟨d / 2, by positivity, fun b hb => ?_⟩
  filter_upwards [hnum b hb, eventually_ge_atTop 5, hA.eventually (lt_mem_nhds (show (1 / 9 : ℝ) < 4 / 27 by norm_num))]
    with n hn h5 hAn
  have h5' : (5 : ℝ) ≤ n := by exact_mod_cast h5
  obtain ⟨-, hA6, -⟩ := kurtosis_param h5' (h n h5) rfl
  rw [kurtosisZ_spec h5' (h n h5) rfl, div_pow, Real.sq_sqrt (by positivity), lt_div_iff₀ (by positivity)]
  have h1 : (n : ℝ) / 9 < A n := by
    rw [lt_div_iff₀ (by linarith)] at hAn
    linarith
  refine lt_trans ?_ hn
  have e : d / 2 * n * (2 / (9 * A n)) = d * ((n / 9) / A n) := by ring
  rw [e]
  have : (n : ℝ) / 9 / A n < 1 := by
    rw [div_lt_one (by linarith)]
    exact h1
  nlinarith

/-- Under normality it vanishes. -/
theorem kurtosisZ_near {b : ℕ → ℝ} (hb : Tendsto b atTop (𝓝 3)) :
    Tendsto (fun n : ℕ => kurtosisZ n (b n) ^ 2 / n) atTop (𝓝 0) := by
  obtain ⟨E, V, A, h⟩ := anscombe_exists
  have hA := anscombe_param (A := A) ((eventually_ge_atTop 5).mono fun n hn => ⟨_, _, h n hn⟩)
  have hnum := (kurtosis_numerator h hb (by norm_num)).pow 2
  rw [kurtosisLimit_three] at hnum
  have := hnum.mul (hA.const_mul (9 / 2))
  norm_num only at this
  refine this.congr' ?_
  filter_upwards [eventually_ge_atTop 5] with n h5
  have h5' : (5 : ℝ) ≤ n := by exact_mod_cast h5
  obtain ⟨-, hA6, -⟩ := kurtosis_param h5' (h n h5) rfl
  rw [kurtosisZ_spec h5' (h n h5) rfl, div_pow, Real.sq_sqrt (by positivity)]
  generalize (1 - 2 / (9 * A n) - Real.sign (1 + (b n - E n) / √(V n) * √(2 / (A n - 4))) *
      ((1 - 2 / A n) / |1 + (b n - E n) / √(V n) * √(2 / (A n - 4))|) ^ (1 / 3 : ℝ)) ^ 2 = N
  have : (n : ℝ) ≠ 0 := by linarith
  have : A n ≠ 0 := by linarith
  field_simp

theorem skew_square {b : ℕ → ℝ} {l : ℝ} (hb : Tendsto b atTop (𝓝 l)) :
    Tendsto (fun n : ℕ => dagostinoSkew n (b n) ^ 2 / n) atTop (𝓝 ((Real.arsinh (l * √(3 / 2)) / 3) ^ 2)) := by
  refine ((dagostinoSkew_limit hb).pow 2).congr fun n => ?_
  rw [div_pow, Real.sq_sqrt (Nat.cast_nonneg n)]

theorem dap_below (hv : 0 < v) {c : ℝ} (hc : 0 < c) : ∀ᵐ ω ∂seqLaw (gaussianReal m v.toNNReal), ∀ᶠ n : ℕ in atTop,
    ∃ d, (NormStat.dap.statistic scipyNorm code params).execute (List.ofFn (firsts n ω)) = .ok d ∧ d < c * n := by
  have hg4 := gaussian_moment_finite m v.toNNReal 4
  have hgv := gaussian_variance_pos m hv
  filter_upwards [settles_skewness (third_of_fourth hg4) hgv, settles_kurtosis hg4 hgv] with ω a b
  rw [gaussian_skewness m (toNNReal_ne hv)] at a
  rw [gaussian_kurtosis m (toNNReal_ne hv)] at b
  have h := (skew_square (skew_replaced_tendsto a)).add (kurtosisZ_near b)
  norm_num at h
  filter_upwards [h.eventually (gt_mem_nhds hc), eventually_ge_atTop 8] with n hn h8
  have hn0 : (0 : ℝ) < n := by
    have : (8 : ℝ) ≤ n := by exact_mod_cast h8
    linarith
  refine ⟨_, dap_execute code params (by simpa using h8), ?_⟩
  rw [List.length_ofFn]
  rw [← add_div, div_lt_iff₀ hn0] at hn
  exact hn

include hp hv in
/-- **C137, D'Agostino-Pearson**: the same laws as Jarque-Bera. -/
theorem C137_dap : ∃ G, (Gen.Family.normal m v).simulator classes = .ok G ∧
    (∀ n, G.generate n = .ok (iid n (gaussianReal m v.toNNReal))) ∧
    ∀ Q : Measure ℝ, IsProbabilityMeasure Q → Integrable (fun x => |x| ^ 4) Q → (∀ c, Q ≠ Measure.dirac c) →
      (lawStandardised Q 3 ≠ 0 ∨ lawStandardised Q 4 ≠ 3) →
      Consistent (NormStat.dap.statistic scipyNorm code params) Q (gaussianReal m v.toNNReal) := by
  refine with_normal hp m hv fun Q _ h4 hQ h => ?_
  have hV := (lawVariance_pos (second_of_fourth h4)).2 hQ
  obtain ⟨c, hc, hdet⟩ : ∃ c > 0, ∀ᵐ ω ∂seqLaw Q, ∀ᶠ n : ℕ in atTop,
      ∃ d, (NormStat.dap.statistic scipyNorm code params).execute (List.ofFn (firsts n ω)) = .ok d ∧ c * n < d := by
    rcases h with h | h
    · have h0 := arsinh_limit_sq_pos h
      refine ⟨(Real.arsinh (lawStandardised Q 3 * √(3 / 2)) / 3) ^ 2 / 2, by positivity, ?_⟩
      filter_upwards [settles_skewness (third_of_fourth h4) hV] with ω a
      have h1 := skew_square (skew_replaced_tendsto a)
      filter_upwards [h1.eventually (lt_mem_nhds (half_lt_self h0)), eventually_ge_atTop 8] with n hn h8
      have hn0 : (0 : ℝ) < n := by
        have : (8 : ℝ) ≤ n := by exact_mod_cast h8
        linarith
      refine ⟨_, dap_execute code params (by simpa using h8), ?_⟩
      rw [lt_div_iff₀ hn0] at hn
      rw [List.length_ofFn]
      exact hn.trans_le (le_add_of_nonneg_right (sq_nonneg _))
    · obtain ⟨c, hc, hev⟩ := kurtosisZ_far h
      refine ⟨c, hc, ?_⟩
      filter_upwards [settles_kurtosis h4 hV] with ω b
      filter_upwards [hev _ b, eventually_ge_atTop 8] with n hn h8
      refine ⟨_, dap_execute code params (by simpa using h8), ?_⟩
      rw [List.length_ofFn]
      exact hn.trans_le (le_add_of_nonneg_left (sq_nonneg _))
  exact limit_consistent (normal_meas _ code params) (t := fun n => c * n)
    (Or.inl ⟨(fun h => by cases h), hdet, dap_below code params m hv hc⟩)

/-! ### Doornik-Hansen -/

/-- The shape parameter and the scale of the gamma approximation, per observation. -/
theorem doornik_alpha {s : ℕ → ℝ} {S : ℝ} (hs : Tendsto s atTop (𝓝 S)) :
    Tendsto (fun n : ℕ => (((n : ℝ) - 2) * (n + 5) * (n + 7) * (n ^ 2 + 27 * n - 70) /
      (6 * ((n - 3) * (n + 1) * (n ^ 2 + 15 * n - 4))) + s n ^ 2 *
      ((n - 7) * (n + 5) * (n + 7) * (n ^ 2 + 2 * n - 5) / (6 * ((n - 3) * (n + 1) * (n ^ 2 + 15 * n - 4))))) / n) atTop
      (𝓝 ((1 + S ^ 2) / 6)) := by
  have h1 : ContinuousAt (fun u : ℝ => (1 - 2 * u) * (1 + 5 * u) * (1 + 7 * u) * (1 + 27 * u - 70 * u ^ 2) /
      (6 * ((1 - 3 * u) * (1 + u) * (1 + 15 * u - 4 * u ^ 2)))) 0 := by
    fun_prop (disch := norm_num)
  have h2 : ContinuousAt (fun u : ℝ => (1 - 7 * u) * (1 + 5 * u) * (1 + 7 * u) * (1 + 2 * u - 5 * u ^ 2) /
      (6 * ((1 - 3 * u) * (1 + u) * (1 + 15 * u - 4 * u ^ 2)))) 0 := by
    fun_prop (disch := norm_num)
  have h := (h1.tendsto.comp inv_tendsto).add ((hs.pow 2).mul (h2.tendsto.comp inv_tendsto))
  have e : (fun u : ℝ => (1 - 2 * u) * (1 + 5 * u) * (1 + 7 * u) * (1 + 27 * u - 70 * u ^ 2) /
      (6 * ((1 - 3 * u) * (1 + u) * (1 + 15 * u - 4 * u ^ 2)))) 0 + S ^ 2 * (fun u : ℝ => (1 - 7 * u) * (1 + 5 * u) *
      (1 + 7 * u) * (1 + 2 * u - 5 * u ^ 2) / (6 * ((1 - 3 * u) * (1 + u) * (1 + 15 * u - 4 * u ^ 2)))) 0 =
      (1 + S ^ 2) / 6 := by
    norm_num
    ring
  rw [e] at h
  refine h.congr' ?_
  filter_upwards [eventually_gt_atTop 7] with n hn
  have : (7 : ℝ) < n := by exact_mod_cast hn
  have h3 : (n : ℝ) - 3 ≠ 0 := by linarith
  have h4 : (n : ℝ) ^ 2 + 15 * n - 4 ≠ 0 := by nlinarith
  have h5 : (1 : ℝ) + 15 * (1 / n) - 4 * (1 / n) ^ 2 ≠ 0 := by
    have : (1 : ℝ) + 15 * (1 / n) - 4 * (1 / n) ^ 2 = (n ^ 2 + 15 * n - 4) / n ^ 2 := by field_simp
    rw [this]
    exact div_ne_zero h4 (by positivity)
  have h6 : (1 : ℝ) - 3 * (1 / n) ≠ 0 := by
    have : (1 : ℝ) - 3 * (1 / n) = (n - 3) / n := by field_simp
    rw [this]
    exact div_ne_zero h3 (by positivity)
  simp only [Function.comp]
  field_simp

theorem doornik_scale : Tendsto (fun n : ℕ => (((n : ℝ) + 5) * (n + 7) * (n ^ 3 + 37 * n ^ 2 + 11 * n - 313) /
    (12 * ((n - 3) * (n + 1) * (n ^ 2 + 15 * n - 4)))) / n) atTop (𝓝 (1 / 12)) := by
  have h1 : ContinuousAt (fun u : ℝ => (1 + 5 * u) * (1 + 7 * u) * (1 + 37 * u + 11 * u ^ 2 - 313 * u ^ 3) /
      (12 * ((1 - 3 * u) * (1 + u) * (1 + 15 * u - 4 * u ^ 2)))) 0 := by
    fun_prop (disch := norm_num)
  have h := h1.tendsto.comp inv_tendsto
  have e : ((1 : ℝ) + 5 * 0) * (1 + 7 * 0) * (1 + 37 * 0 + 11 * 0 ^ 2 - 313 * 0 ^ 3) /
      (12 * ((1 - 3 * 0) * (1 + 0) * (1 + 15 * 0 - 4 * 0 ^ 2))) = 1 / 12 := by
    norm_num
  rw [e] at h
  refine h.congr' ?_
  filter_upwards [eventually_gt_atTop 7] with n hn
  have : (7 : ℝ) < n := by exact_mod_cast hn
  have h3 : (n : ℝ) - 3 ≠ 0 := by linarith
  have h4 : (n : ℝ) ^ 2 + 15 * n - 4 ≠ 0 := by nlinarith
  have h5 : (1 : ℝ) + 15 * (1 / n) - 4 * (1 / n) ^ 2 ≠ 0 := by
    have : (1 : ℝ) + 15 * (1 / n) - 4 * (1 / n) ^ 2 = (n ^ 2 + 15 * n - 4) / n ^ 2 := by field_simp
    rw [this]
    exact div_ne_zero h4 (by positivity)
  have h6 : (1 : ℝ) - 3 * (1 / n) ≠ 0 := by
    have : (1 : ℝ) - 3 * (1 / n) = (n - 3) / n := by field_simp
    rw [this]
    exact div_ne_zero h3 (by positivity)
  simp only [Function.comp]
  field_simp

/-- What the transform of Doornik and Hansen does to the moments `S`, `T` of a large sample, per observation. -/
noncomputable def doornikLimit (S T : ℝ) : ℝ :=
  (((T - 1 - S ^ 2) / (2 * (1 + S ^ 2))) ^ (1 / 3 : ℝ) - 1) * √(3 / 2 * (1 + S ^ 2))

theorem dhZ2_limit {s k : ℕ → ℝ} {S T : ℝ} (hs : Tendsto s atTop (𝓝 S)) (hk : Tendsto k atTop (𝓝 T)) :
    Tendsto (fun n : ℕ => dhZ2 (s n) (k n) n / √n) atTop (𝓝 (doornikLimit S T)) := by
  have ha := doornik_alpha hs
  have hc := doornik_scale
  set α : ℕ → ℝ := fun n => (((n : ℝ) - 2) * (n + 5) * (n + 7) * (n ^ 2 + 27 * n - 70) /
      (6 * ((n - 3) * (n + 1) * (n ^ 2 + 15 * n - 4))) + s n ^ 2 *
      ((n - 7) * (n + 5) * (n + 7) * (n ^ 2 + 2 * n - 5) / (6 * ((n - 3) * (n + 1) * (n ^ 2 + 15 * n - 4))))) with hα
  set κ : ℕ → ℝ := fun n => (((n : ℝ) + 5) * (n + 7) * (n ^ 3 + 37 * n ^ 2 + 11 * n - 313) /
    (12 * ((n - 3) * (n + 1) * (n ^ 2 + 15 * n - 4)))) with hκ
  have hS : 0 < (1 + S ^ 2) / 6 := by positivity
  have h1 : Tendsto (fun n : ℕ => (k n - 1 - s n ^ 2) * (κ n / n) / (α n / n)) atTop
      (𝓝 ((T - 1 - S ^ 2) / (2 * (1 + S ^ 2)))) := by
    have := (((hk.sub_const 1).sub (hs.pow 2)).mul hc).div ha hS.ne'
    rw [show (T - 1 - S ^ 2) * (1 / 12) / ((1 + S ^ 2) / 6) = (T - 1 - S ^ 2) / (2 * (1 + S ^ 2)) by
      have : 1 + S ^ 2 ≠ 0 := by positivity
      field_simp
      ring] at this
    exact this
  have h2 : Tendsto (fun n : ℕ => 1 / (9 * (α n / n)) * (1 / n)) atTop (𝓝 0) := by
    have := ((tendsto_const_nhds (x := (1 : ℝ))).div (ha.const_mul 9) (by positivity)).mul inv_tendsto
    rw [mul_zero] at this
    exact this
  have h3 := ((((h1.rpow_const (p := 1 / 3) (Or.inr (by norm_num))).sub_const 1).add h2)).mul ((ha.const_mul 9).sqrt)
  rw [add_zero, show (9 : ℝ) * ((1 + S ^ 2) / 6) = 3 / 2 * (1 + S ^ 2) by ring] at h3
  refine h3.congr' ?_
  filter_upwards [eventually_gt_atTop 7, ha.eventually (lt_mem_nhds hS)] with n hn hpos
  have hn0 : (0 : ℝ) < n := by
    have : (7 : ℝ) < n := by exact_mod_cast hn
    linarith
  have hα0 : 0 < α n := by
    have := mul_pos hpos hn0
    rwa [div_mul_cancel₀ _ hn0.ne'] at this
  have e : dhZ2 (s n) (k n) n = ((0.5 * (2 * (k n - 1 - s n ^ 2) * κ n) / α n) ^ (1 / 3 : ℝ) - 1 + 1 / (9 * α n)) *
      √(9 * α n) := rfl
  change (((k n - 1 - s n ^ 2) * (κ n / n) / (α n / n)) ^ (1 / 3 : ℝ) - 1 + 1 / (9 * (α n / n)) * (1 / n)) *
    √(9 * (α n / n)) = _
  rw [e, mul_div_assoc (_ + 1 / (9 * α n)), ← Real.sqrt_div' _ hn0.le]
  congr 1
  · congr 1
    · congr 2
      have e2 : (0.5 : ℝ) * (2 * (k n - 1 - s n ^ 2) * κ n) = (k n - 1 - s n ^ 2) * κ n := by ring
      rw [e2, ← mul_div_assoc, div_div_div_cancel_right₀ hn0.ne']
    · field_simp
  · congr 1
    ring

theorem doornikLimit_far {T : ℝ} (h1 : 1 ≤ T) (h3 : T ≠ 3) : 0 < doornikLimit 0 T ^ 2 := by
  refine sq_pos_of_ne_zero (mul_ne_zero (fun h0 => h3 ?_) (Real.sqrt_pos.2 (by norm_num)).ne')
  have h2 : ((T - 1 - 0 ^ 2) / (2 * (1 + 0 ^ 2))) ^ (1 / 3 : ℝ) = 1 := by linarith
  have h4 : 0 ≤ (T - 1 - 0 ^ 2) / (2 * (1 + 0 ^ 2)) := by
    norm_num
    linarith
  have h5 := congrArg (fun x : ℝ => x ^ (3 : ℝ)) h2
  simp only [← Real.rpow_mul h4, Real.one_rpow] at h5
  norm_num at h5
  linarith

theorem doornikLimit_normal : doornikLimit 0 3 = 0 := by
  norm_num [doornikLimit]

/-- The kurtosis of a law is at least one. -/
theorem one_le_kurtosis {Q : Measure ℝ} [IsProbabilityMeasure Q] (h4 : Integrable (fun x => |x| ^ 4) Q)
    (hQ : 0 < lawVariance Q) : 1 ≤ lawStandardised Q 4 := by
  have hs : √(lawVariance Q) ^ 2 = lawVariance Q := Real.sq_sqrt hQ.le
  have h2 := integrable_power h4 (j := 2) (by norm_num) (lawMean Q)
  have h4' := integrable_power h4 le_rfl (lawMean Q)
  have e : ∫ x, ((x - lawMean Q) ^ 2 - lawVariance Q) ^ 2 ∂Q = (∫ x, (x - lawMean Q) ^ 4 ∂Q) - lawVariance Q ^ 2 := by
    have : ∀ x, ((x - lawMean Q) ^ 2 - lawVariance Q) ^ 2 = (x - lawMean Q) ^ 4 -
        2 * lawVariance Q * (x - lawMean Q) ^ 2 + lawVariance Q ^ 2 := fun x => by ring
    simp only [this]
    rw [integral_add (by exact h4'.sub (h2.const_mul _)) (integrable_const _), integral_sub h4' (h2.const_mul _),
      integral_const_mul, integral_const, probReal_univ, one_smul, show ∫ x, (x - lawMean Q) ^ 2 ∂Q = lawVariance Q from rfl]
    ring
  have h0 : 0 ≤ ∫ x, ((x - lawMean Q) ^ 2 - lawVariance Q) ^ 2 ∂Q := integral_nonneg fun x => sq_nonneg _
  rw [lawStandardised_eq, show √(lawVariance Q) ^ 4 = lawVariance Q ^ 2 by
    rw [show √(lawVariance Q) ^ 4 = (√(lawVariance Q) ^ 2) ^ 2 by ring, hs], one_le_div (by positivity)]
  linarith

theorem doornik_settles {Q : Measure ℝ} [IsProbabilityMeasure Q] (h4 : Integrable (fun x => |x| ^ 4) Q)
    (hQ : 0 < lawVariance Q) : ValueSettles (NormStat.doornikHansen.statistic scipyNorm code params) (fun n x => n * x) Q
      ((Real.arsinh (lawStandardised Q 3 * √(3 / 2)) / 3) ^ 2 +
        doornikLimit (lawStandardised Q 3) (lawStandardised Q 4) ^ 2) := by
  filter_upwards [settles_skewness (third_of_fourth h4) hQ, settles_kurtosis h4 hQ] with ω a b
  refine ⟨_, ((dagostinoSkew_limit a).pow 2).add ((dhZ2_limit a b).pow 2), ?_⟩
  filter_upwards [eventually_ge_atTop 8] with n hn
  have hn' : (8 : ℝ) ≤ n := by exact_mod_cast hn
  refine normal_value ?_
  simp only [NormStat.value, Normal.doornikHansen]
  set xs := List.ofFn (firsts n ω) with hxs
  have hlen : xs.length = n := List.length_ofFn
  have h1 : moment 3 xs / moment 2 xs ^ (1.5 : ℝ) = skewness xs := by
    rw [← skew_spec, skew]
    norm_num
  have h2 : moment 4 xs / moment 2 xs ^ 2 = kurtosis xs := by rw [← kurt_spec, kurt]
  rw [h1, h2, hlen, dhZ1_spec hn', div_pow, div_pow, Real.sq_sqrt (by linarith)]
  have : (n : ℝ) ≠ 0 := by linarith
  congr 2
  field_simp

include hp hv in
/-- **C137, Doornik-Hansen**: the same laws as Jarque-Bera. -/
theorem C137_doornikHansen : ∃ G, (Gen.Family.normal m v).simulator classes = .ok G ∧
    (∀ n, G.generate n = .ok (iid n (gaussianReal m v.toNNReal))) ∧
    ∀ Q : Measure ℝ, IsProbabilityMeasure Q → Integrable (fun x => |x| ^ 4) Q → (∀ c, Q ≠ Measure.dirac c) →
      (lawStandardised Q 3 ≠ 0 ∨ lawStandardised Q 4 ≠ 3) →
      Consistent (NormStat.doornikHansen.statistic scipyNorm code params) Q (gaussianReal m v.toNNReal) := by
  refine with_normal hp m hv fun Q _ h4 hQ h => ?_
  have hV := (lawVariance_pos (second_of_fourth h4)).2 hQ
  have hg := doornik_settles code params (gaussian_moment_finite m v.toNNReal 4) (gaussian_variance_pos m hv)
  rw [gaussian_skewness m (toNNReal_ne hv), gaussian_kurtosis m (toNNReal_ne hv), doornikLimit_normal, zero_mul,
    Real.arsinh_zero, zero_div, zero_pow two_ne_zero, add_zero] at hg
  refine value_consistent (normal_meas _ code params) mul_strictMono (doornik_settles code params h4 hV) hg
    (Or.inl ⟨(fun h => by cases h), ?_⟩)
  by_cases h0 : lawStandardised Q 3 = 0
  · have h3 : lawStandardised Q 4 ≠ 3 := h.resolve_left (fun h => h h0)
    have := doornikLimit_far (one_le_kurtosis h4 hV) h3
    rw [h0]
    positivity
  · have := arsinh_limit_sq_pos h0
    positivity

end

end Pysatl.Props
