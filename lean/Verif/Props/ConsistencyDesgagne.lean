import Verif.Spec.DesgagneLaw
import Verif.Props.ConsistencyDeviation
import Verif.Props.ConsistencyHermite

/-! # C137: the criterion of Desgagné and Lafaye de Micheaux -/

namespace Pysatl.Props

open Pysatl.Decision Pysatl.Resolver Pysatl.Spec Pysatl.Edf Pysatl.Graph Pysatl.Gen Pysatl.Normal Pysatl.Exponent
open MeasureTheory ProbabilityTheory Filter Topology

/-! ### Means of functions of the standardised sample -/

/-- Slopes grow at most like a square. -/
def TameSlope (f : ℝ → ℝ) : Prop := ∃ C : ℝ, 0 ≤ C ∧ ∀ s t : ℝ, |f s - f t| ≤ C * |s - t| * (1 + s ^ 2 + t ^ 2)

theorem TameSlope.continuous {f : ℝ → ℝ} (h : TameSlope f) : Continuous f := by
  obtain ⟨C, hC, h⟩ := h
  rw [continuous_iff_continuousAt]
  intro t
  rw [ContinuousAt, tendsto_iff_dist_tendsto_zero]
  have hb : Tendsto (fun s => C * |s - t| * (1 + s ^ 2 + t ^ 2)) (𝓝 t) (𝓝 (C * |t - t| * (1 + t ^ 2 + t ^ 2))) := by
    have : Continuous fun s => C * |s - t| * (1 + s ^ 2 + t ^ 2) := by fun_prop
    exact this.tendsto t
  rw [sub_self, abs_zero, mul_zero, zero_mul] at hb
  exact squeeze_zero (fun s => dist_nonneg) (fun s => by rw [Real.dist_eq]; exact h s t) hb

theorem cube_integrable {μ : Measure ℝ} [IsProbabilityMeasure μ] (h : Integrable (fun x => |x| ^ 3) μ) :
    Integrable (fun x => (1 + |x|) ^ 3) μ := by
  have h0 : Integrable (fun x : ℝ => 4 + 4 * |x| ^ 3) μ := (integrable_const 4).add (h.const_mul 4)
  refine h0.mono' (by fun_prop) (.of_forall fun x => ?_)
  have := abs_nonneg x
  rw [Real.norm_of_nonneg (by positivity)]
  nlinarith [mul_nonneg (sq_nonneg (|x| - 1)) (show (0 : ℝ) ≤ |x| + 1 by positivity)]

section
variable {μ : Measure ℝ} [IsProbabilityMeasure μ] (h3 : Integrable (fun x => |x| ^ 3) μ)

include h3 in
theorem tame_integrable {f : ℝ → ℝ} (hf : TameSlope f) (α β : ℝ) : Integrable (fun x => f (α * x + β)) μ := by
  have hc := hf.continuous
  obtain ⟨C, hC, h⟩ := hf
  have hB : 0 ≤ |α| + |β| := by positivity
  have h0 : Integrable (fun x => |f 0| + C * (|α| + |β|) * (1 + (|α| + |β|) ^ 2) * (1 + |x|) ^ 3) μ :=
    (integrable_const _).add ((cube_integrable h3).const_mul _)
  refine h0.mono' (hc.comp (by fun_prop)).aestronglyMeasurable (.of_forall fun x => ?_)
  have k := h (α * x + β) 0
  have hx := abs_nonneg x
  have b : |α * x + β| ≤ (|α| + |β|) * (1 + |x|) := by
    refine (abs_add_le _ _).trans ?_
    rw [abs_mul]
    nlinarith [abs_nonneg α, abs_nonneg β]
  generalize |α| + |β| = B at *
  rw [Real.norm_eq_abs]
  have t1 : |f (α * x + β)| ≤ |f 0| + |f (α * x + β) - f 0| := by
    have := abs_add_le (f 0) (f (α * x + β) - f 0)
    rwa [add_sub_cancel] at this
  refine t1.trans ?_
  have b2 : (α * x + β) ^ 2 ≤ (B * (1 + |x|)) ^ 2 := sq_le_sq' (abs_le.1 b).1 (abs_le.1 b).2
  have t2 : C * |α * x + β - 0| * (1 + (α * x + β) ^ 2 + 0 ^ 2) ≤ C * (B * (1 + |x|)) * ((1 + B ^ 2) * (1 + |x|) ^ 2) := by
    refine mul_le_mul (mul_le_mul_of_nonneg_left (by rwa [sub_zero]) hC) ?_ (by positivity) (by positivity)
    nlinarith
  have e : C * (B * (1 + |x|)) * ((1 + B ^ 2) * (1 + |x|) ^ 2) = C * B * (1 + B ^ 2) * (1 + |x|) ^ 3 := by ring
  linarith

include h3 in
/-- Means of tame functions of linearly transformed observations settle when the transformation does. -/
theorem tame_settles {f : ℝ → ℝ} (hf : TameSlope f) (α β : ℝ) : ∀ᵐ ω ∂seqLaw μ, ∀ a b : ℕ → ℝ,
    Tendsto a atTop (𝓝 α) → Tendsto b atTop (𝓝 β) →
    Tendsto (fun n => ∫ x, f (a n * x + b n) ∂empiricalLaw (List.ofFn (firsts n ω))) atTop
      (𝓝 (∫ x, f (α * x + β) ∂μ)) := by
  have hc := hf.continuous
  have hi := tame_integrable h3 hf α β
  obtain ⟨C, hC, hL⟩ := hf
  have hm : Measurable fun x => f (α * x + β) := (hc.comp (by fun_prop)).measurable
  filter_upwards [settles_integral hm hi, settles_integral (f := fun x => (1 + |x|) ^ 3) (by fun_prop) (cube_integrable h3)]
    with ω h1 h2 a b ha hb
  set B := |α| + |β| + 1 with hB
  have hB0 : 0 ≤ B := by positivity
  have hd : Tendsto (fun n => |a n - α| + |b n - β|) atTop (𝓝 0) := by
    have t1 := (ha.sub_const α).abs
    have t2 := (hb.sub_const β).abs
    simpa using t1.add t2
  have hlim := (hd.const_mul (C * (1 + 2 * B ^ 2))).mul h2
  rw [mul_zero, zero_mul] at hlim
  have hdiff : Tendsto (fun n => (∫ x, f (a n * x + b n) ∂empiricalLaw (List.ofFn (firsts n ω))) -
      ∫ x, f (α * x + β) ∂empiricalLaw (List.ofFn (firsts n ω))) atTop (𝓝 0) := by
    refine squeeze_zero_norm' ?_ hlim
    filter_upwards [hd.eventually (gt_mem_nhds one_pos), eventually_gt_atTop 0] with n hn h0
    have hne : List.ofFn (firsts n ω) ≠ [] := by simpa using h0.ne'
    rw [← integral_sub (integrable_empirical _ _ hne) (integrable_empirical _ _ hne), ← integral_const_mul]
    refine norm_integral_le_of_norm_le (integrable_empirical _ _ hne) (.of_forall fun x => ?_)
    rw [Real.norm_eq_abs]
    refine (hL _ _).trans ?_
    have hx := abs_nonneg x
    have d0 : 0 ≤ |a n - α| := abs_nonneg _
    have d0' : 0 ≤ |b n - β| := abs_nonneg _
    have e1 : |a n * x + b n - (α * x + β)| ≤ (|a n - α| + |b n - β|) * (1 + |x|) := by
      rw [show a n * x + b n - (α * x + β) = (a n - α) * x + (b n - β) by ring]
      refine (abs_add_le _ _).trans ?_
      rw [abs_mul]
      nlinarith
    have q1 : |α * x + β| ≤ B * (1 + |x|) := by
      refine (abs_add_le _ _).trans ?_
      rw [abs_mul]
      nlinarith [abs_nonneg α, abs_nonneg β]
    have q2 : |a n * x + b n| ≤ B * (1 + |x|) := by
      have a1 : |a n| ≤ |α| + |a n - α| := by
        have := abs_add_le α (a n - α)
        rwa [add_sub_cancel] at this
      have b1 : |b n| ≤ |β| + |b n - β| := by
        have := abs_add_le β (b n - β)
        rwa [add_sub_cancel] at this
      refine (abs_add_le _ _).trans ?_
      rw [abs_mul]
      nlinarith [abs_nonneg α, abs_nonneg β, abs_nonneg (a n), abs_nonneg (b n)]
    have s1 : (α * x + β) ^ 2 ≤ (B * (1 + |x|)) ^ 2 := sq_le_sq' (abs_le.1 q1).1 (abs_le.1 q1).2
    have s2 : (a n * x + b n) ^ 2 ≤ (B * (1 + |x|)) ^ 2 := sq_le_sq' (abs_le.1 q2).1 (abs_le.1 q2).2
    have t2 : C * |a n * x + b n - (α * x + β)| * (1 + (a n * x + b n) ^ 2 + (α * x + β) ^ 2) ≤
        C * ((|a n - α| + |b n - β|) * (1 + |x|)) * ((1 + 2 * B ^ 2) * (1 + |x|) ^ 2) := by
      refine mul_le_mul (mul_le_mul_of_nonneg_left e1 hC) ?_ (by positivity) (by positivity)
      nlinarith
    refine t2.trans_eq ?_
    ring
  have := hdiff.add h1
  simpa using this

include h3 in
theorem standardMean_settles {f : ℝ → ℝ} (hf : TameSlope f) (hv : 0 < lawVariance μ) : ∀ᵐ ω ∂seqLaw μ,
    Tendsto (fun n => meanOf (fun x => f ((x - meanOf id (List.ofFn (firsts n ω))) / stdDev (List.ofFn (firsts n ω))))
      (List.ofFn (firsts n ω))) atTop (𝓝 (standardMean f μ)) := by
  have h2 : Integrable (fun x => |x| ^ 2) μ := by simpa using integrable_power h3 (j := 2) (by norm_num) 0
  have hi : Integrable (fun x => x) μ := by simpa using integrable_power h3 (j := 1) (by norm_num) 0
  have hs := (Real.sqrt_pos.2 hv).ne'
  filter_upwards [tame_settles h3 hf (1 / √(lawVariance μ)) (-lawMean μ / √(lawVariance μ)), settles_stdDev h2,
    settles_mean hi] with ω h k1 k2
  have := h (fun n => 1 / stdDev (List.ofFn (firsts n ω)))
    (fun n => -lawMean (empiricalLaw (List.ofFn (firsts n ω))) / stdDev (List.ofFn (firsts n ω)))
    (tendsto_const_nhds.div k1 hs) (k2.neg.div k1 hs)
  have e : ∀ x m s : ℝ, 1 / s * x + -m / s = (x - m) / s := fun x m s => by ring
  simp only [e] at this
  rw [standardMean]
  refine this.congr fun n => ?_
  rw [meanOf_empirical, meanOf_empirical]
  rfl

end

/-! ### The three functions -/

theorem tame_of_abs {f : ℝ → ℝ} {C : ℝ} (hC : 0 ≤ C)
    (h : ∀ a b : ℝ, 0 ≤ a → a ≤ b → |f b - f a| ≤ C * (b - a) * (1 + a ^ 2 + b ^ 2)) : TameSlope fun t => f |t| := by
  refine ⟨C, hC, fun s t => ?_⟩
  have key : ∀ a b : ℝ, 0 ≤ a → 0 ≤ b → |f a - f b| ≤ C * |a - b| * (1 + a ^ 2 + b ^ 2) := fun a b ha hb => by
    rcases le_total a b with hab | hab
    · rw [abs_sub_comm, abs_sub_comm a b, abs_of_nonneg (sub_nonneg.2 hab)]
      exact h a b ha hab
    · rw [abs_of_nonneg (sub_nonneg.2 hab), add_right_comm]
      exact h b a hb hab
  refine (key _ _ (abs_nonneg s) (abs_nonneg t)).trans ?_
  rw [sq_abs, sq_abs]
  exact mul_le_mul_of_nonneg_right (mul_le_mul_of_nonneg_left (abs_abs_sub_abs_le_abs_sub s t) hC) (by positivity)

theorem log_tame {b : ℝ} (hb : 0 < b) : b * |Real.log b| ≤ 1 + b ^ 2 := by
  rcases le_total 1 b with h | h
  · rw [abs_of_nonneg (Real.log_nonneg h)]
    nlinarith [Real.log_le_sub_one_of_pos hb]
  · rw [abs_of_nonpos (Real.log_nonpos hb.le h)]
    have := Real.one_sub_inv_le_log_of_pos hb
    have e : b * b⁻¹ = 1 := mul_inv_cancel₀ hb.ne'
    nlinarith

theorem tame_square_log : TameSlope fun t => t ^ 2 * Real.log |t| := by
  have := tame_of_abs (f := fun t => t ^ 2 * Real.log t) (C := 3) (by norm_num) fun a b ha hab => by
    rcases ha.eq_or_lt with rfl | ha
    · rcases hab.eq_or_lt with rfl | hb
      · simp
      · have k := log_tame hb
        rw [Real.log_zero, mul_zero, sub_zero, abs_mul, abs_of_nonneg (sq_nonneg b), sub_zero]
        nlinarith [mul_le_mul_of_nonneg_left k hb.le, pow_pos hb 3]
    · have hb := ha.trans_le hab
      have k := log_tame hb
      have e : b ^ 2 * Real.log b - a ^ 2 * Real.log a = (b - a) * ((a + b) * Real.log b) + a ^ 2 * Real.log (b / a) := by
        rw [Real.log_div hb.ne' ha.ne']
        ring
      have l0 : 0 ≤ Real.log (b / a) := Real.log_nonneg ((one_le_div ha).2 hab)
      have l1 : a ^ 2 * Real.log (b / a) ≤ a * (b - a) := by
        have := Real.log_le_sub_one_of_pos (div_pos hb ha)
        have e2 : a ^ 2 * (b / a - 1) = a * (b - a) := by field_simp
        rw [← e2]
        exact mul_le_mul_of_nonneg_left this (sq_nonneg a)
      rw [e]
      refine (abs_add_le _ _).trans ?_
      rw [abs_mul, abs_mul, abs_of_nonneg (sub_nonneg.2 hab), abs_of_pos (add_pos ha hb),
        abs_of_nonneg (mul_nonneg (sq_nonneg a) l0)]
      have m1 : (a + b) * |Real.log b| ≤ 2 * (1 + b ^ 2) := by
        have : (a + b) * |Real.log b| ≤ (b + b) * |Real.log b| :=
          mul_le_mul_of_nonneg_right (by linarith) (abs_nonneg _)
        linarith
      have m2 := mul_le_mul_of_nonneg_left m1 (sub_nonneg.2 hab)
      have m3 : a ≤ 1 + a ^ 2 := by nlinarith [sq_nonneg (a - 1)]
      have m4 := mul_le_mul_of_nonneg_left m3 (sub_nonneg.2 hab)
      have m5 := mul_nonneg (sub_nonneg.2 hab) (sq_nonneg a)
      have m6 := mul_nonneg (sub_nonneg.2 hab) (sq_nonneg b)
      nlinarith
  simpa only [sq_abs] using this

theorem log_lipschitz {a b : ℝ} (ha : 1 ≤ a) (hab : a ≤ b) : 0 ≤ Real.log b - Real.log a ∧ Real.log b - Real.log a ≤ b - a := by
  have h0 : 0 < a := by linarith
  have hb := h0.trans_le hab
  refine ⟨sub_nonneg.2 (Real.log_le_log h0 hab), ?_⟩
  rw [← Real.log_div hb.ne' h0.ne']
  refine (Real.log_le_sub_one_of_pos (div_pos hb h0)).trans ?_
  rw [div_sub_one h0.ne', div_le_iff₀ h0]
  nlinarith

theorem tame_log : TameSlope fun t => Real.log (1 + |t|) := by
  refine tame_of_abs (f := fun t => Real.log (1 + t)) (C := 1) zero_le_one fun a b ha hab => ?_
  obtain ⟨h1, h2⟩ := log_lipschitz (a := 1 + a) (b := 1 + b) (by linarith) (by linarith)
  rw [abs_of_nonneg h1]
  nlinarith [mul_nonneg (sub_nonneg.2 hab) (sq_nonneg a), mul_nonneg (sub_nonneg.2 hab) (sq_nonneg b)]

theorem log_e_ge {a : ℝ} (ha : 0 ≤ a) : 1 ≤ Real.log (2.71828182846 + a) := by
  rw [Real.le_log_iff_exp_le (by positivity)]
  have := Real.exp_one_lt_d9
  have h : Real.exp 1 < 2.7182818286 := this
  have h2 := Real.exp_one_near_20
  rw [abs_le] at h2
  have : Real.exp 1 ≤ 2.71828182846 := by
    norm_num at h2 ⊢
    linarith [h2.2]
  linarith

theorem tame_log_log : TameSlope fun t => Real.log (Real.log (2.71828182846 + |t|)) := by
  refine tame_of_abs (f := fun t => Real.log (Real.log (2.71828182846 + t))) (C := 1) zero_le_one fun a b ha hab => ?_
  obtain ⟨h1, h2⟩ := log_lipschitz (a := 2.71828182846 + a) (b := 2.71828182846 + b) (by norm_num; linarith) (by linarith)
  obtain ⟨k1, k2⟩ := log_lipschitz (log_e_ge ha) (sub_nonneg.1 h1)
  rw [abs_of_nonneg k1]
  nlinarith [mul_nonneg (sub_nonneg.2 hab) (sq_nonneg a), mul_nonneg (sub_nonneg.2 hab) (sq_nonneg b)]

/-! ### Consistency -/

theorem desgagne_settles {Q : Measure ℝ} [IsProbabilityMeasure Q] (h3 : Integrable (fun x => |x| ^ 3) Q)
    (hQ : 0 < lawVariance Q) (code : String) (params : Option (List (String × ℝ))) :
    ValueSettles (NormStat.desgagneLafaye.statistic scipyNorm code params) (fun n x => n * x) Q (desgagneIndex Q) := by
  filter_upwards [standardMean_settles h3 tame_square_log hQ, standardMean_settles h3 tame_log hQ,
    standardMean_settles h3 tame_log_log hQ] with ω a b c
  have a' := (a.div_const 2).const_sub 0.18240929
  have b' := b.const_sub 0.5348223
  have c' := c.const_sub 0.20981558
  have hr : ∀ i : Fin 3, Tendsto (fun n => (![0.18240929 - meanOf (fun x => ((x - meanOf id (List.ofFn (firsts n ω))) /
        stdDev (List.ofFn (firsts n ω))) ^ 2 * Real.log |(x - meanOf id (List.ofFn (firsts n ω))) /
        stdDev (List.ofFn (firsts n ω))|) (List.ofFn (firsts n ω)) / 2,
      0.5348223 - meanOf (fun x => Real.log (1 + |(x - meanOf id (List.ofFn (firsts n ω))) /
        stdDev (List.ofFn (firsts n ω))|)) (List.ofFn (firsts n ω)),
      0.20981558 - meanOf (fun x => Real.log (Real.log (2.71828182846 + |(x - meanOf id (List.ofFn (firsts n ω))) /
        stdDev (List.ofFn (firsts n ω))|))) (List.ofFn (firsts n ω))] : Fin 3 → ℝ) i) atTop (𝓝 (desgagneScores Q i)) := by
    intro i
    fin_cases i
    · exact a'
    · exact b'
    · exact c'
  refine ⟨_, tendsto_finset_sum _ fun i _ => tendsto_finset_sum _ fun j _ =>
    ((hr i).const_mul (desgagneMatrix i j)).mul (hr j), ?_⟩
  filter_upwards [eventually_gt_atTop 3] with n hn
  obtain ⟨v, h1, h2, -, -⟩ := C117_desgagne scipyNorm (xs := List.ofFn (firsts n ω)) (by simpa using hn) rfl rfl rfl
  rw [normal_value h1, h2, List.length_ofFn]

section
variable (code : String) (params : Option (List (String × ℝ)))
variable (classes : List GeneratorClass) (hp : classes.Perm generatorClasses) (m : ℝ) {v : ℝ} (hv : 0 < v)

include hp hv in
/-- **C137 (partial), Desgagné and Lafaye de Micheaux**: a law with a third moment whose scores are longer than those of the
normal law is rejected in the long run.  Missing: that the scores of the normal law are the shortest; the published constants
make them small, not zero. -/
theorem C137_desgagneLafaye_partial : ∃ G, (Gen.Family.normal m v).simulator classes = .ok G ∧
    (∀ n, G.generate n = .ok (iid n (gaussianReal m v.toNNReal))) ∧
    ∀ Q : Measure ℝ, IsProbabilityMeasure Q → Integrable (fun x => |x| ^ 3) Q → (∀ c, Q ≠ Measure.dirac c) →
      desgagneIndex (gaussianReal m v.toNNReal) < desgagneIndex Q →
      Consistent (NormStat.desgagneLafaye.statistic scipyNorm code params) Q (gaussianReal m v.toNNReal) := by
  refine with_normal hp m hv fun Q _ h3 hQ h => ?_
  have h2 : Integrable (fun x => |x| ^ 2) Q := by simpa using integrable_power h3 (j := 2) (by norm_num) 0
  have hV := (lawVariance_pos h2).2 hQ
  have hg := desgagne_settles (gaussian_moment_finite m v.toNNReal 3) (gaussian_variance_pos m hv) code params
  have hmono : ∀ᶠ n : ℕ in atTop, StrictMono fun x : ℝ => (n : ℝ) * x := by
    filter_upwards [eventually_gt_atTop 0] with n hn x y hxy
    exact mul_lt_mul_of_pos_left hxy (by exact_mod_cast hn)
  exact value_consistent (normal_meas _ code params) hmono (desgagne_settles h3 hV code params) hg
    (Or.inl ⟨(fun h => by cases h), h⟩)

end

/-! ### A law with long scores -/

/-- One observation in `k² + 1` is `k`, the others are `-1/k`: mean 0, variance 1. -/
noncomputable def spikeLaw (k : ℕ) : Measure ℝ := empiricalLaw (List.replicate (k ^ 2) (-(1 / (k : ℝ))) ++ [(k : ℝ)])

theorem spike_integral (k : ℕ) (f : ℝ → ℝ) :
    ∫ x, f x ∂spikeLaw k = ((k : ℝ) ^ 2 * f (-(1 / (k : ℝ))) + f k) / ((k : ℝ) ^ 2 + 1) := by
  rw [spikeLaw, integral_empirical]
  simp

theorem spike_standardMean {k : ℕ} (hk : 0 < k) (f : ℝ → ℝ) :
    lawVariance (spikeLaw k) = 1 ∧ standardMean f (spikeLaw k) = ((k : ℝ) ^ 2 * f (-(1 / (k : ℝ))) + f k) / ((k : ℝ) ^ 2 + 1) := by
  have h0 : (0 : ℝ) < k := by exact_mod_cast hk
  have hm : lawMean (spikeLaw k) = 0 := by
    rw [lawMean, spike_integral k fun x => x]
    field_simp
    simp
  have hv : lawVariance (spikeLaw k) = 1 := by
    rw [lawVariance, hm, spike_integral k fun x => (x - 0) ^ 2, sub_zero, sub_zero]
    field_simp
    ring
  refine ⟨hv, ?_⟩
  rw [standardMean, hm, hv, spike_integral k fun x => f ((x - 0) / √1)]
  simp

theorem spike_index {k : ℕ} (hk : 2 ≤ k) (h : 1000 ≤ Real.log k) : Real.log k ≤ desgagneIndex (spikeLaw k) := by
  have h2 : (2 : ℝ) ≤ k := by exact_mod_cast hk
  have h0 : (0 : ℝ) < k := by linarith
  have hd : (0 : ℝ) < (k : ℝ) ^ 2 + 1 := by positivity
  have m1 := (spike_standardMean (k := k) (by omega) fun t => t ^ 2 * Real.log |t|).2
  have m2 := (spike_standardMean (k := k) (by omega) fun t => Real.log (1 + |t|)).2
  have m3 := (spike_standardMean (k := k) (by omega) fun t => Real.log (Real.log (2.71828182846 + |t|))).2
  have hab : |(-(1 / (k : ℝ)))| = 1 / k := by rw [abs_neg, abs_of_pos (by positivity)]
  have hkk : |(k : ℝ)| = k := abs_of_pos h0
  simp only [hab, hkk] at m1 m2 m3
  have l1 : 3 / 5 * Real.log k ≤ standardMean (fun t => t ^ 2 * Real.log |t|) (spikeLaw k) := by
    rw [m1, one_div, Real.log_inv, le_div_iff₀ hd]
    have e : (k : ℝ) ^ 2 * ((-(k : ℝ)⁻¹) ^ 2 * -Real.log k) + (k : ℝ) ^ 2 * Real.log k = ((k : ℝ) ^ 2 - 1) * Real.log k := by
      field_simp
      ring
    rw [e]
    have k4 : (4 : ℝ) ≤ (k : ℝ) ^ 2 := by nlinarith
    nlinarith [mul_nonneg (sub_nonneg.2 k4) (show (0 : ℝ) ≤ Real.log k by linarith)]
  have up : ∀ g : ℝ → ℝ, (∀ t, 0 ≤ t → 0 ≤ g t ∧ g t ≤ 1 + t) →
      0 ≤ ((k : ℝ) ^ 2 * g (1 / k) + g k) / ((k : ℝ) ^ 2 + 1) ∧
      ((k : ℝ) ^ 2 * g (1 / k) + g k) / ((k : ℝ) ^ 2 + 1) ≤ 2 := fun g hg => by
    obtain ⟨a1, a2⟩ := hg (1 / k) (by positivity)
    obtain ⟨b1, b2⟩ := hg k h0.le
    refine ⟨by positivity, ?_⟩
    rw [div_le_iff₀ hd]
    have : (k : ℝ) ^ 2 * g (1 / k) ≤ (k : ℝ) ^ 2 * (1 + 1 / k) := mul_le_mul_of_nonneg_left a2 (sq_nonneg _)
    have e : (k : ℝ) ^ 2 * (1 + 1 / k) = (k : ℝ) ^ 2 + k := by field_simp
    nlinarith
  have u2 := up (fun t => Real.log (1 + t)) fun t ht =>
    ⟨Real.log_nonneg (by linarith), by linarith [Real.log_le_sub_one_of_pos (show 0 < 1 + t by linarith)]⟩
  have u3 := up (fun t => Real.log (Real.log (2.71828182846 + t))) fun t ht => by
    have g1 := log_e_ge ht
    refine ⟨Real.log_nonneg g1, ?_⟩
    have q1 := Real.log_le_sub_one_of_pos (show 0 < Real.log (2.71828182846 + t) by linarith)
    have q2 := Real.log_le_sub_one_of_pos (show 0 < 2.71828182846 + t by positivity)
    norm_num at q1 q2 ⊢
    linarith
  rw [← m2] at u2
  rw [← m3] at u3
  rw [desgagneIndex, desgagneScores]
  generalize standardMean (fun t => t ^ 2 * Real.log |t|) (spikeLaw k) = x at *
  generalize standardMean (fun t => Real.log (1 + |t|)) (spikeLaw k) = y at *
  generalize standardMean (fun t => Real.log (Real.log (2.71828182846 + |t|))) (spikeLaw k) = z at *
  generalize Real.log k = L at *
  have hf := desgagne_form 1 (0.18240929 - x / 2) (0.5348223 - y) (0.20981558 - z)
  have e : (∑ i, ∑ j, desgagneMatrix i j *
      (![0.18240929 - x / 2, 0.5348223 - y, 0.20981558 - z] : Fin 3 → ℝ) i *
      (![0.18240929 - x / 2, 0.5348223 - y, 0.20981558 - z] : Fin 3 → ℝ) j) =
      1 * (((0.18240929 - x / 2) * 1259.04213344 - (0.5348223 - y) * 32040.69569026 + (0.20981558 - z) * 85065.77739473) *
        (0.18240929 - x / 2) +
      (-(0.18240929 - x / 2) * 32040.6956903 + (0.5348223 - y) * 918649.9005906 - (0.20981558 - z) * 2425883.3443201) *
        (0.5348223 - y) +
      ((0.18240929 - x / 2) * 85065.7773947 - (0.5348223 - y) * 2425883.3443201 + (0.20981558 - z) * 6407749.8211208) *
        (0.20981558 - z)) := by
    simp [Fin.sum_univ_three, desgagneMatrix]
    ring
  rw [e, hf, one_mul]
  have q2 := sq_nonneg (0.5348223 - y + (-1643613270740890316626369 / 650063752034527871615928 : ℝ) * (0.20981558 - z))
  have q3 := sq_nonneg (0.20981558 - z)
  have w : 0.18240929 - x / 2 + (-801017392257 / 31476053336 : ℝ) * (0.5348223 - y) +
      (1308704267611 / 19369878976 : ℝ) * (0.20981558 - z) ≤ 100 - 3 / 10 * L := by
    obtain ⟨u2a, u2b⟩ := u2
    obtain ⟨u3a, u3b⟩ := u3
    norm_num
    linarith
  have w2 : (3 / 10 * L - 100) ^ 2 ≤ (0.18240929 - x / 2 + (-801017392257 / 31476053336 : ℝ) * (0.5348223 - y) +
      (1308704267611 / 19369878976 : ℝ) * (0.20981558 - z)) ^ 2 := by
    rw [← neg_sq (0.18240929 - x / 2 + (-801017392257 / 31476053336 : ℝ) * (0.5348223 - y) +
      (1308704267611 / 19369878976 : ℝ) * (0.20981558 - z))]
    exact pow_le_pow_left₀ (by linarith) (by linarith) 2
  have w3 : L ≤ (3 / 10 * L - 100) ^ 2 := by nlinarith
  nlinarith

/-- The hypotheses are met: some spike laws are detected. -/
theorem spike_detected (m : ℝ) {v : ℝ} (hv : 0 < v) : ∃ k : ℕ,
    Consistent (NormStat.desgagneLafaye.statistic scipyNorm "" none) (spikeLaw k) (gaussianReal m v.toNNReal) := by
  obtain ⟨G, -, -, h⟩ := C137_desgagneLafaye_partial "" none generatorClasses (List.Perm.refl _) m hv
  have ht : Tendsto (fun k : ℕ => Real.log k) atTop atTop := Real.tendsto_log_atTop.comp tendsto_natCast_atTop_atTop
  obtain ⟨k, h1, h2, h3⟩ := ((eventually_ge_atTop 2).and ((ht.eventually_ge_atTop 1000).and
    (ht.eventually_gt_atTop (desgagneIndex (gaussianReal m v.toNNReal))))).exists
  have hne : List.replicate (k ^ 2) (-(1 / (k : ℝ))) ++ [(k : ℝ)] ≠ [] := by simp
  have hpr : IsProbabilityMeasure (spikeLaw k) := empirical_probability hne
  have hi : ∀ f : ℝ → ℝ, Integrable f (spikeLaw k) := fun f => integrable_empirical _ _ hne
  refine ⟨k, (h _ hpr (hi _) ((lawVariance_pos (hi _)).1 ?_) (h3.trans_le (spike_index h1 h2)))⟩
  rw [(spike_standardMean (k := k) (by omega) id).1]
  exact one_pos

end Pysatl.Props
