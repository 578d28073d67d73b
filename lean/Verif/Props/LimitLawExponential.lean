import Verif.Props.LimitLaw
import Verif.Props.ConsistencyExponential

/-! # C138: the law of the criterion of Epps and Pulley for large exponential samples -/

namespace Pysatl

open Pysatl.Spec MeasureTheory ProbabilityTheory Filter Topology

/-- What is eventually no larger than a small value is small. -/
theorem Small.of_le {μ : Measure ℝ} [IsProbabilityMeasure μ] {R S : ℕ → (ℕ → ℝ) → ℝ} (hm : ∀ n, Measurable (R n))
    (hS : Small μ S) (h : ∀ᵐ ω ∂seqLaw μ, ∀ᶠ n in atTop, |R n ω| ≤ |S n ω|) : Small μ R := by
  have hset : ∀ n, MeasurableSet {ω | |R n ω| ≤ |S n ω|} := fun n =>
    measurableSet_le (continuous_abs.measurable.comp (hm n)) (continuous_abs.measurable.comp (hS.meas n))
  have h1 : Small μ (fun n ω => if |R n ω| ≤ |S n ω| then R n ω else 0) := by
    refine ⟨fun n => Measurable.ite (hset n) (hm n) measurable_const, fun δ hδ ε hε => ?_⟩
    filter_upwards [hS.bound δ hδ ε hε] with n hn
    refine (measure_mono fun ω hω => ?_).trans hn
    simp only [Set.mem_ofPred_eq] at hω ⊢
    split_ifs at hω with hc
    · exact hω.trans hc
    · rw [abs_zero] at hω
      linarith
  have h2 : Small μ (fun n ω => if |R n ω| ≤ |S n ω| then 0 else R n ω) := by
    refine Small.of_ae (fun n => Measurable.ite (hset n) measurable_const (hm n)) ?_
    filter_upwards [h] with ω hω
    refine tendsto_const_nhds.congr' ?_
    filter_upwards [hω] with n hn
    rw [if_pos hn]
  refine (h1.add h2).of_eq fun n ω => ?_
  split_ifs <;> simp

end Pysatl

namespace Pysatl.Props

open Pysatl.Decision Pysatl.Resolver Pysatl.Spec Pysatl.Edf Pysatl.Graph Pysatl.Gen Pysatl.Exponent Pysatl.Expon
open MeasureTheory ProbabilityTheory Filter Topology

/-! ### Integrals -/

theorem exp_mul_laplace {r : ℝ} (hr : 0 < r) : Integrable (fun x => r * x * Real.exp (-(r * x))) (expMeasure r) ∧
    ∫ x, r * x * Real.exp (-(r * x)) ∂expMeasure r = 1 / 4 := by
  have h : ∫ x, r * x * Real.exp (-(r * x)) ∂expMeasure r = 1 / 4 := by
    rw [integral_exp hr]
    have := Real.integral_rpow_mul_exp_neg_mul_Ioi (a := 2) (r := r + r) (by norm_num) (by linarith)
    have e : ∀ x : ℝ, r * x * Real.exp (-(r * x)) * (r * Real.exp (-(r * x))) =
        r ^ 2 * (x ^ ((2 : ℝ) - 1) * Real.exp (-((r + r) * x))) := fun x => by
      rw [show (2 : ℝ) - 1 = 1 by norm_num, Real.rpow_one, show -((r + r) * x) = -(r * x) + -(r * x) by ring, Real.exp_add]
      ring
    simp only [e]
    rw [integral_const_mul, this, Real.Gamma_two]
    norm_num
    field_simp
    norm_num
  refine ⟨?_, h⟩
  by_contra hn
  rw [integral_undef hn] at h
  norm_num at h

theorem exp_second {r : ℝ} (hr : 0 < r) : ∫ x, (r * x) ^ 2 ∂expMeasure r = 2 := by
  have := integral_rpow hr (s := 2) (by norm_num)
  have e : ∀ x : ℝ, (r * x) ^ 2 = r ^ 2 * x ^ (2 : ℝ) := fun x => by
    rw [Real.rpow_two, mul_pow]
  simp only [e]
  rw [integral_const_mul, this, Real.rpow_two, show (1 : ℝ) + 2 = 2 + 1 by norm_num, Real.Gamma_add_one (by norm_num),
    Real.Gamma_two]
  field_simp

theorem exp_bounded {r : ℝ} (hr : 0 < r) {s : ℝ} (hs : 0 ≤ s) :
    Integrable (fun x => Real.exp (-(s * x))) (expMeasure r) := by
  have hpr := isProbabilityMeasure_expMeasure hr
  refine Integrable.of_bound (C := 1) (by fun_prop) ?_
  filter_upwards [Expon.ae_pos hr] with x hx
  rw [Real.norm_eq_abs, abs_of_pos (Real.exp_pos _), Real.exp_le_one_iff]
  have := mul_nonneg hs hx.le
  linarith

/-- What an observation contributes to the criterion. -/
noncomputable def eppsInfluence (r x : ℝ) : ℝ := Real.exp (-(r * x)) - 1 / 2 + (r * x - 1) / 4

theorem measurable_eppsInfluence (r : ℝ) : Measurable (eppsInfluence r) := by
  unfold eppsInfluence
  fun_prop

theorem exp_memLp_id {r : ℝ} (hr : 0 < r) : MemLp (fun x : ℝ => x) 2 (expMeasure r) :=
  (memLp_two_iff_integrable_sq aestronglyMeasurable_id).2 (exp_integrable_sq hr)

theorem exp_memLp_laplace {r : ℝ} (hr : 0 < r) : MemLp (fun x : ℝ => Real.exp (-(r * x))) 2 (expMeasure r) := by
  refine (memLp_two_iff_integrable_sq (by fun_prop)).2 ((exp_bounded hr (s := 2 * r) (by positivity)).congr
    (ae_of_all _ fun x => ?_))
  show Real.exp (-(2 * r * x)) = Real.exp (-(r * x)) ^ 2
  rw [← Real.exp_nat_mul]
  congr 1
  push_cast
  ring

theorem eppsInfluence_memLp {r : ℝ} (hr : 0 < r) : MemLp (eppsInfluence r) 2 (expMeasure r) := by
  have hpr := isProbabilityMeasure_expMeasure hr
  have h := ((exp_memLp_laplace hr).sub (memLp_const (1 / 2))).add
    ((((exp_memLp_id hr).const_mul r).sub (memLp_const 1)).const_mul (1 / 4))
  refine h.congr_norm (measurable_eppsInfluence r).aestronglyMeasurable (ae_of_all _ fun x => ?_)
  show ‖Real.exp (-(r * x)) - 1 / 2 + 1 / 4 * (r * x - 1)‖ = ‖eppsInfluence r x‖
  rw [eppsInfluence]
  congr 1
  ring

theorem eppsInfluence_integrals {r : ℝ} (hr : 0 < r) : ∫ x, eppsInfluence r x ∂expMeasure r = 0 ∧
    ∫ x, eppsInfluence r x ^ 2 ∂expMeasure r = 1 / 48 := by
  have hpr := isProbabilityMeasure_expMeasure hr
  have i1 := exp_bounded hr hr.le
  have i2 := (exp_integrable_id hr).const_mul r
  have i3 := exp_bounded hr (s := 2 * r) (by positivity)
  have i4 : Integrable (fun x => (r * x) ^ 2) (expMeasure r) :=
    ((exp_integrable_sq hr).const_mul (r ^ 2)).congr (ae_of_all _ fun x => by simp only [mul_pow])
  have i5 := (exp_mul_laplace hr).1
  have v1 : ∫ x, Real.exp (-(r * x)) ∂expMeasure r = 1 / 2 := by
    rw [integral_laplace hr hr.le]
    field_simp
    norm_num
  have v2 : ∫ x, r * x ∂expMeasure r = 1 := by
    rw [integral_const_mul, Expon.integral_id hr]
    field_simp
  have v3 : ∫ x, Real.exp (-(2 * r * x)) ∂expMeasure r = 1 / 3 := by
    rw [integral_laplace hr (by positivity)]
    field_simp
    norm_num
  have v4 := exp_second hr
  have v5 := (exp_mul_laplace hr).2
  constructor
  · have e : ∀ x, eppsInfluence r x = Real.exp (-(r * x)) + 1 / 4 * (r * x) - 3 / 4 := fun x => by
      rw [eppsInfluence]
      ring
    simp only [e]
    rw [integral_sub (by exact i1.add (i2.const_mul (1 / 4))) (integrable_const _), integral_add i1 (i2.const_mul _),
      integral_const_mul, v1, v2, integral_const, probReal_univ]
    norm_num
  · have e : ∀ x, eppsInfluence r x ^ 2 = Real.exp (-(2 * r * x)) + 1 / 16 * (r * x) ^ 2 + 1 / 2 * (r * x * Real.exp (-(r * x))) -
        3 / 2 * Real.exp (-(r * x)) - 3 / 8 * (r * x) + 9 / 16 := fun x => by
      have : Real.exp (-(2 * r * x)) = Real.exp (-(r * x)) ^ 2 := by
        rw [← Real.exp_nat_mul]
        congr 1
        push_cast
        ring
      rw [eppsInfluence, this]
      ring
    have j1 := i3.add (i4.const_mul (1 / 16))
    have j2 := j1.add (i5.const_mul (1 / 2))
    have j3 := j2.sub (i1.const_mul (3 / 2))
    have j4 := j3.sub (i2.const_mul (3 / 8))
    simp only [e]
    rw [integral_add (by exact j4) (integrable_const _), integral_sub (by exact j3) (i2.const_mul _),
      integral_sub (by exact j2) (i1.const_mul _), integral_add (by exact j1) (i5.const_mul _),
      integral_add i3 (i4.const_mul _), integral_const_mul, integral_const_mul, integral_const_mul, integral_const_mul,
      v1, v2, v3, v4, v5, integral_const, probReal_univ]
    norm_num

/-! ### The estimated scale -/

theorem exp_taylor (y : ℝ) : |Real.exp y - 1 - y| ≤ y ^ 2 * Real.exp |y| := by
  have h1 := Real.add_one_le_exp y
  have h2 := Real.add_one_le_exp (-y)
  have h3 : Real.exp y * Real.exp (-y) = 1 := by rw [← Real.exp_add]; simp
  have hp := Real.exp_pos y
  have h4 : Real.exp y * (1 - y) ≤ 1 := by nlinarith
  rw [abs_of_nonneg (by linarith)]
  rcases le_total 0 y with h | h
  · rw [abs_of_nonneg h]
    nlinarith
  · have : 1 ≤ Real.exp |y| := Real.one_le_exp (abs_nonneg y)
    nlinarith [sq_nonneg y]

theorem exp_rescaled {z w : ℝ} (hz : 0 ≤ z) (hw : |w| ≤ 1 / 2) :
    |Real.exp (-(z * (1 + w))) - Real.exp (-z) + w * (z * Real.exp (-z))| ≤ 16 * w ^ 2 := by
  have e : Real.exp (-(z * (1 + w))) - Real.exp (-z) + w * (z * Real.exp (-z)) =
      Real.exp (-z) * (Real.exp (-(z * w)) - 1 - -(z * w)) := by
    rw [show -(z * (1 + w)) = -z + -(z * w) by ring, Real.exp_add]
    ring
  rw [e, abs_mul, abs_of_pos (Real.exp_pos _)]
  have h1 := exp_taylor (-(z * w))
  have h2 : |-(z * w)| ≤ z / 2 := by
    rw [abs_neg, abs_mul, abs_of_nonneg hz]
    nlinarith
  have h3 : Real.exp |-(z * w)| ≤ Real.exp (z / 2) := Real.exp_le_exp.2 h2
  have h4 : Real.exp (-z) * Real.exp (z / 2) = Real.exp (-(z / 2)) := by rw [← Real.exp_add]; congr 1; ring
  have h5 : z ^ 2 * Real.exp (-(z / 2)) ≤ 16 := by
    have a := Real.add_one_le_exp (z / 4)
    have b : Real.exp (z / 2) = Real.exp (z / 4) ^ 2 := by rw [← Real.exp_nat_mul]; congr 1; push_cast; ring
    have c : Real.exp (z / 2) * Real.exp (-(z / 2)) = 1 := by rw [← Real.exp_add]; simp
    have d : z ^ 2 ≤ 16 * Real.exp (z / 2) := by
      rw [b]
      nlinarith [Real.exp_pos (z / 4)]
    nlinarith [Real.exp_pos (-(z / 2))]
  calc Real.exp (-z) * |Real.exp (-(z * w)) - 1 - -(z * w)|
      ≤ Real.exp (-z) * ((-(z * w)) ^ 2 * Real.exp (z / 2)) :=
        mul_le_mul_of_nonneg_left (h1.trans (mul_le_mul_of_nonneg_left h3 (sq_nonneg _))) (Real.exp_pos _).le
    _ = w ^ 2 * (z ^ 2 * Real.exp (-(z / 2))) := by rw [← h4]; ring
    _ ≤ 16 * w ^ 2 := by nlinarith [sq_nonneg w]

theorem avg_linear (f g : ℝ → ℝ) (a b : ℝ) (n : ℕ) (ω : ℕ → ℝ) :
    avg (fun x => a * f x + b * g x) n ω = a * avg f n ω + b * avg g n ω := by
  simp only [avg, Finset.sum_add_distrib, ← Finset.mul_sum]
  ring

theorem avg_abs_le {f : ℝ → ℝ} {C : ℝ} (hC : 0 ≤ C) {n : ℕ} {ω : ℕ → ℝ} (h : ∀ i, |f (ω i)| ≤ C) : |avg f n ω| ≤ C := by
  rcases Nat.eq_zero_or_pos n with h0 | h0
  · simpa [avg, h0] using hC
  have hn : (0 : ℝ) < n := by exact_mod_cast h0
  rw [avg, abs_div, abs_of_pos hn, div_le_iff₀ hn]
  refine (Finset.abs_sum_le_sum_abs _ _).trans ((Finset.sum_le_sum fun i _ => h i).trans ?_)
  simp [mul_comm]

theorem seq_ae {μ : Measure ℝ} [IsProbabilityMeasure μ] {p : ℝ → Prop} (h : ∀ᵐ x ∂μ, p x) :
    ∀ᵐ ω ∂seqLaw μ, ∀ i, p (ω i) := by
  rw [ae_all_iff]
  intro i
  have : ∀ᵐ x ∂(seqLaw μ).map (fun ω => ω i), p x := by rwa [map_coordinate]
  exact ae_of_ae_map (measurable_pi_apply i).aemeasurable this

section
variable {r : ℝ} (hr : 0 < r)

/-- The deviation of the estimated scale. -/
noncomputable def scaleDev (r : ℝ) (n : ℕ) (ω : ℕ → ℝ) : ℝ := (avg (fun x => r * x) n ω)⁻¹ - 1

theorem measurable_scaleDev (r : ℝ) (n : ℕ) : Measurable (scaleDev r n) :=
  (measurable_avg (measurable_id.const_mul r) n).inv.sub_const 1

include hr in
theorem scale_settles : ∀ᵐ ω ∂seqLaw (expMeasure r), Tendsto (fun n => avg (fun x => r * x) n ω) atTop (𝓝 1) := by
  have hpr := isProbabilityMeasure_expMeasure hr
  have := law_of_large_numbers (μ := expMeasure r) (measurable_id.const_mul r) ((exp_integrable_id hr).const_mul r)
  have v2 : ∫ x, r * x ∂expMeasure r = 1 := by
    rw [integral_const_mul, Expon.integral_id hr]
    field_simp
  simp only [id, v2] at this
  exact this

include hr in
theorem scaleDev_settles : ∀ᵐ ω ∂seqLaw (expMeasure r), Tendsto (fun n => scaleDev r n ω) atTop (𝓝 0) := by
  filter_upwards [scale_settles hr] with ω h
  simpa [scaleDev] using (h.inv₀ one_ne_zero).sub_const 1

theorem near_scaleDev [IsProbabilityMeasure (expMeasure r)] (hr : 0 < r) :
    Near (expMeasure r) (fun n ω => √(n : ℝ) * scaleDev r n ω) (fun n ω => rootAvg (fun x => r * x - 1) n ω * -1) := by
  have hL : MemLp (fun x => r * x - 1) 2 (expMeasure r) := ((exp_memLp_id hr).const_mul r).sub (memLp_const 1)
  have h0 : ∫ x, (r * x - 1) ∂expMeasure r = 0 := by
    rw [integral_sub ((exp_integrable_id hr).const_mul r) (integrable_const _), integral_const_mul, Expon.integral_id hr,
      integral_const, probReal_univ]
    field_simp
    norm_num
  have ht := tight_rootAvg (by fun_prop) hL h0
  have h1 : Near (expMeasure r) (fun n ω => (avg (fun x => r * x) n ω)⁻¹ * -1) (fun _ _ => -1) := by
    refine Near.of_ae (fun n => (measurable_avg (measurable_id.const_mul r) n).inv.mul_const _) ?_
    filter_upwards [scale_settles hr] with ω h
    simpa using (h.inv₀ one_ne_zero).mul_const (-1)
  refine ((Near.refl _).mul h1 ht (Tight.const _)).congr ?_
  filter_upwards [scale_settles hr] with ω h
  filter_upwards [h.eventually (lt_mem_nhds one_pos), eventually_gt_atTop 0] with n hn hn0
  have e : avg (fun x => r * x - 1) n ω = avg (fun x => r * x) n ω - 1 := by
    have : (n : ℝ) ≠ 0 := by exact_mod_cast hn0.ne'
    simp only [avg, Finset.sum_sub_distrib, Finset.sum_const, Finset.card_range, nsmul_eq_mul]
    field_simp
  rw [scaleDev, rootAvg, e]
  field_simp
  ring

variable (code : String) (params : Option (List (String × ℝ)))

theorem eppsPulley_limitLaw (hr : 0 < r) : LimitLaw (ExpStat.eppsPulley.statistic code params) (expMeasure r)
    (gaussianReal 0 1) := by
  have hpr := isProbabilityMeasure_expMeasure hr
  set P := expMeasure r with hP
  set w := scaleDev r with hw
  have hL : MemLp (fun x => r * x - 1) 2 P := ((exp_memLp_id hr).const_mul r).sub (memLp_const 1)
  have h0 : ∫ x, (r * x - 1) ∂P = 0 := by
    rw [integral_sub ((exp_integrable_id hr).const_mul r) (integrable_const _), integral_const_mul, Expon.integral_id hr,
      integral_const, probReal_univ]
    field_simp
    norm_num
  have ht := tight_rootAvg (by fun_prop) hL h0
  have hwn := near_scaleDev hr
  have hw0 : Near P w (fun _ _ => 0) := Near.of_ae (measurable_scaleDev r) (scaleDev_settles hr)
  -- the remainder
  set g : ℝ → ℝ := fun x => Real.exp (-(r * x)) with hg
  set q : ℝ → ℝ := fun x => r * x * Real.exp (-(r * x)) with hq
  set R : ℕ → (ℕ → ℝ) → ℝ := fun n ω => √(n : ℝ) *
    ((∑ i ∈ Finset.range n, Real.exp (-(r * ω i * (1 + w n ω)))) / n - avg g n ω + w n ω * avg q n ω) with hR
  have mg : Measurable g := by fun_prop
  have mq : Measurable q := by fun_prop
  have mw : ∀ n, Measurable (w n) := measurable_scaleDev r
  have mR : ∀ n, Measurable (R n) := fun n => by
    have h1 : Measurable fun ω : ℕ → ℝ => ∑ i ∈ Finset.range n, Real.exp (-(r * ω i * (1 + w n ω))) :=
      Finset.measurable_sum _ fun i _ => (((measurable_pi_apply i).const_mul r).mul ((mw n).const_add 1)).neg.exp
    exact (((h1.div_const _).sub (measurable_avg mg n)).add ((mw n).mul (measurable_avg mq n))).const_mul _
  have hRs : Small P R := by
    obtain ⟨S, hS, hSe⟩ := (hwn.mul hw0 (ht.mul (Tight.const _)) (Tight.const _)).of_eq (W' := fun _ _ => 0)
      fun n ω => by ring
    refine Small.of_le mR (hS.const_mul 16) ?_
    filter_upwards [hSe, scaleDev_settles hr, seq_ae (Expon.ae_pos hr)] with ω h1 h2 hpos
    filter_upwards [h1, (h2.abs).eventually (gt_mem_nhds (show |(0 : ℝ)| < 1 / 2 by norm_num))] with n e hsm
    rw [zero_add] at e
    rw [← e]
    have e2 : R n ω = √(n : ℝ) * avg (fun x => Real.exp (-(r * x * (1 + w n ω))) - Real.exp (-(r * x)) +
        w n ω * (r * x * Real.exp (-(r * x)))) n ω := by
      simp only [hR, avg, hg, hq, Finset.sum_add_distrib, Finset.sum_sub_distrib, ← Finset.mul_sum]
      ring
    have hb := avg_abs_le (n := n) (ω := ω) (C := 16 * w n ω ^ 2) (by positivity)
      (f := fun x => Real.exp (-(r * x * (1 + w n ω))) - Real.exp (-(r * x)) + w n ω * (r * x * Real.exp (-(r * x))))
      fun i => exp_rescaled (mul_pos hr (hpos i)).le hsm.le
    rw [e2, abs_mul, abs_of_nonneg (Real.sqrt_nonneg _), abs_mul, abs_mul (√(n : ℝ) * w n ω), abs_mul,
      abs_of_nonneg (Real.sqrt_nonneg _), abs_of_nonneg (show (0 : ℝ) ≤ 16 by norm_num)]
    have : |w n ω| * |w n ω| = w n ω ^ 2 := by rw [← sq, sq_abs]
    calc √(n : ℝ) * |_| ≤ √(n : ℝ) * (16 * w n ω ^ 2) := mul_le_mul_of_nonneg_left hb (Real.sqrt_nonneg _)
      _ = 16 * (√(n : ℝ) * |w n ω| * |w n ω|) := by rw [← this]; ring
  have hqn : Near P (fun n ω => avg q n ω * -1) (fun _ _ => (1 / 4) * -1) := by
    refine Near.of_ae (fun n => (measurable_avg mq n).mul_const _) ?_
    have := law_of_large_numbers (μ := P) mq (exp_mul_laplace hr).1
    filter_upwards [this] with ω h
    rw [(exp_mul_laplace hr).2] at h
    exact h.mul_const _
  have h1 := (Near.refl (μ := P) (rootAvg fun x => g x - 1 / 2)).add
    (hwn.mul hqn (ht.mul (Tight.const _)) (Tight.const _))
  have h2 : Near P (fun n ω => rootAvg (fun x => g x - 1 / 2) n ω + √(n : ℝ) * w n ω * (avg q n ω * -1) + R n ω)
      (rootAvg (eppsInfluence r)) := by
    have := h1.add (⟨R, hRs, ae_of_all _ fun _ => .of_forall fun _ => (zero_add _).symm⟩ : Near P R fun _ _ => 0)
    refine this.of_eq fun n ω => ?_
    have : avg (eppsInfluence r) n ω = avg (fun x => g x - 1 / 2) n ω + 1 / 4 * avg (fun x => r * x - 1) n ω := by
      have := avg_linear (fun x => g x - 1 / 2) (fun x => r * x - 1) 1 (1 / 4) n ω
      rw [one_mul] at this
      rw [← this]
      congr 1
      funext x
      rw [eppsInfluence]
      ring
    simp only [rootAvg, this]
    ring
  have hI := tight_rootAvg (measurable_eppsInfluence r) (eppsInfluence_memLp hr) (eppsInfluence_integrals hr).1
  have h3 := h2.mul (Near.refl fun _ _ => √48) hI (Tight.const _)
  -- the central limit theorem
  have hf2 : MemLp (fun x => eppsInfluence r x * √48) 2 P := by
    simpa only [mul_comm] using (eppsInfluence_memLp hr).const_mul (√48)
  have hf0 : ∫ x, eppsInfluence r x * √48 ∂P = 0 := by rw [integral_mul_const, (eppsInfluence_integrals hr).1, zero_mul]
  have hff : ∫ x, (eppsInfluence r x * √48) ^ 2 ∂P = 1 := by
    simp only [mul_pow]
    rw [integral_mul_const, (eppsInfluence_integrals hr).2, Real.sq_sqrt (by norm_num)]
    norm_num
  have mf : Measurable fun x => eppsInfluence r x * √48 := (measurable_eppsInfluence r).mul_const _
  have hc := clt_rootAvg mf hf2 hf0
  rw [hff, Real.toNNReal_one] at hc
  refine limitLaw_of_near (exponential_meas _ code params) ?_ (h3.of_eq (W' := rootAvg fun x => eppsInfluence r x * √48)
    fun n ω => ?_) hc (measurable_rootAvg mf)
  · refine ae_of_all _ fun ω => ?_
    filter_upwards [eventually_gt_atTop 1] with n hn
    have hn0 : (0 : ℝ) < n := by exact_mod_cast (by omega : 0 < n)
    refine (C105_eppsPulley (ofFn_ne hn (firsts n ω)) one_pos).trans ?_
    rw [List.length_ofFn, laplaceRatio_exp one_pos, laplaceRatio, lawMean, integral_firsts, integral_firsts,
      Real.sqrt_mul (by norm_num)]
    have e : ∀ x : ℝ, x / ((∑ i ∈ Finset.range n, ω i) / n) = r * x * (1 + w n ω) := fun x => by
      have : avg (fun x => r * x) n ω = r * ((∑ i ∈ Finset.range n, ω i) / n) := by
        rw [avg, ← Finset.mul_sum, mul_div_assoc]
      rw [hw, scaleDev, this, mul_inv]
      generalize ((∑ i ∈ Finset.range n, ω i) / n) = M
      field_simp
      ring
    simp only [e]
    have e2 : avg (fun x => g x - 1 / 2) n ω = avg g n ω - 1 / 2 := by
      simp only [avg, Finset.sum_sub_distrib, Finset.sum_const, Finset.card_range, nsmul_eq_mul]
      field_simp
    rw [rootAvg, e2]
    simp only [hR]
    congr 1
    ring
  · simp only [rootAvg, avg, ← Finset.sum_mul]
    ring

end

end Pysatl.Props
