import Verif.Lemmas.Sequences
import Mathlib.Probability.CentralLimitTheorem
import Mathlib.Probability.Moments.Variance
import Mathlib.Probability.Distributions.Gaussian.Multivariate
import Mathlib.MeasureTheory.Measure.LevyConvergence

/-! # Averages multiplied by the root of the sample size: the central limit theorem, and what is negligible beside it -/

namespace Pysatl

open Pysatl.Spec MeasureTheory ProbabilityTheory Filter Topology

/-- The average of a function of the first `n` observations. -/
noncomputable def avg (f : ℝ → ℝ) (n : ℕ) (ω : ℕ → ℝ) : ℝ := (∑ i ∈ Finset.range n, f (ω i)) / n

/-- The average multiplied by `√n`. -/
noncomputable def rootAvg (f : ℝ → ℝ) (n : ℕ) (ω : ℕ → ℝ) : ℝ := √(n : ℝ) * avg f n ω

variable {μ : Measure ℝ} [IsProbabilityMeasure μ]

theorem measurable_avg {f : ℝ → ℝ} (hf : Measurable f) (n : ℕ) : Measurable (avg f n) :=
  (Finset.measurable_sum _ fun i _ => hf.comp (measurable_pi_apply i)).div_const _

theorem measurable_rootAvg {f : ℝ → ℝ} (hf : Measurable f) (n : ℕ) : Measurable (rootAvg f n) :=
  (measurable_avg hf n).const_mul _

theorem rootAvg_eq (f : ℝ → ℝ) (n : ℕ) (ω : ℕ → ℝ) :
    rootAvg f n ω = (√(n : ℝ))⁻¹ * ∑ i ∈ Finset.range n, f (ω i) := by
  rw [rootAvg, avg]
  rcases Nat.eq_zero_or_pos n with h | h
  · simp [h]
  have hn : (0 : ℝ) < n := by exact_mod_cast h
  have hs : √(n : ℝ) ≠ 0 := (Real.sqrt_pos.2 hn).ne'
  have e : (n : ℝ) = √n * √n := (Real.mul_self_sqrt hn.le).symm
  generalize ∑ i ∈ Finset.range n, f (ω i) = s
  rw [show s / (n : ℝ) = s / (√n * √n) by rw [← e]]
  field_simp

section
variable {f : ℝ → ℝ} (hf : Measurable f)
include hf

theorem coordinates_indep : iIndepFun (fun (i : ℕ) (ω : ℕ → ℝ) => f (ω i)) (seqLaw μ) :=
  iIndepFun_infinitePi (P := fun _ : ℕ => μ) (X := fun _ => f) fun _ => hf

theorem coordinate_law (i : ℕ) : (seqLaw μ).map (fun ω => f (ω i)) = μ.map f := by
  rw [← map_coordinate (μ := μ) i, Measure.map_map hf (measurable_pi_apply i), map_coordinate]
  rfl

theorem coordinates_ident (i : ℕ) : IdentDistrib (fun ω : ℕ → ℝ => f (ω i)) (fun ω => f (ω 0)) (seqLaw μ) (seqLaw μ) :=
  ⟨(hf.comp (measurable_pi_apply i)).aemeasurable, (hf.comp (measurable_pi_apply 0)).aemeasurable, by
    rw [coordinate_law hf, coordinate_law hf]⟩

theorem coordinate_integral (i : ℕ) {g : ℝ → ℝ} (hg : Measurable g) :
    ∫ ω, g (f (ω i)) ∂seqLaw μ = ∫ x, g (f x) ∂μ := by
  rw [← integral_map (φ := fun ω : ℕ → ℝ => ω i) (f := fun x => g (f x)) (measurable_pi_apply i).aemeasurable
    (hg.comp hf).aestronglyMeasurable, map_coordinate]

theorem coordinate_memLp (h2 : MemLp f 2 μ) (i : ℕ) : MemLp (fun ω : ℕ → ℝ => f (ω i)) 2 (seqLaw μ) := by
  have : MemLp f 2 ((seqLaw μ).map fun ω => ω i) := by rwa [map_coordinate]
  exact this.comp_of_map (measurable_pi_apply i).aemeasurable

/-- **The central limit theorem** for a function of the observations with mean zero. -/
theorem clt_rootAvg (h2 : MemLp f 2 μ) (h0 : ∫ x, f x ∂μ = 0) :
    TendstoInDistribution (fun n => rootAvg f n) atTop (id : ℝ → ℝ) (fun _ => seqLaw μ)
      (gaussianReal 0 (∫ x, f x ^ 2 ∂μ).toNNReal) := by
  have hv : Var[fun ω : ℕ → ℝ => f (ω 0); seqLaw μ] = ∫ x, f x ^ 2 ∂μ := by
    rw [variance_eq_integral (X := fun ω : ℕ → ℝ => f (ω 0)) (hf.comp (measurable_pi_apply 0)).aemeasurable]
    have e := coordinate_integral (μ := μ) hf 0 (g := id) measurable_id
    simp only [id] at e
    rw [e, h0]
    simp only [sub_zero]
    exact coordinate_integral (μ := μ) hf 0 (g := fun y => y ^ 2) (by fun_prop)
  have h := tendstoInDistribution_inv_sqrt_mul_sum_sub (P := seqLaw μ)
    (P' := gaussianReal 0 (∫ x, f x ^ 2 ∂μ).toNNReal) (X := fun (i : ℕ) (ω : ℕ → ℝ) => f (ω i)) (Y := id)
    (by rw [hv]; exact ⟨aemeasurable_id, Measure.map_id⟩) (coordinate_memLp hf h2 0) (coordinates_indep hf)
    (coordinates_ident hf)
  have e := coordinate_integral (μ := μ) hf 0 (g := id) measurable_id
  simp only [id] at e
  rw [e, h0] at h
  simp only [mul_zero, sub_zero] at h
  refine h.congr (fun n => ae_of_all _ fun ω => (rootAvg_eq f n ω).symm) (ae_of_all _ fun _ => rfl)

theorem rootAvg_sq (h2 : MemLp f 2 μ) (h0 : ∫ x, f x ∂μ = 0) (n : ℕ) :
    Integrable (fun ω => rootAvg f n ω ^ 2) (seqLaw μ) ∧ ∫ ω, rootAvg f n ω ^ 2 ∂seqLaw μ ≤ ∫ x, f x ^ 2 ∂μ := by
  have hL : MemLp (fun ω : ℕ → ℝ => ∑ i ∈ Finset.range n, f (ω i)) 2 (seqLaw μ) :=
    memLp_finsetSum _ fun i _ => coordinate_memLp hf h2 i
  have hR : MemLp (rootAvg f n) 2 (seqLaw μ) := by
    have e : rootAvg f n = fun ω => (√(n : ℝ))⁻¹ * ∑ i ∈ Finset.range n, f (ω i) := funext (rootAvg_eq f n)
    rw [e]
    exact hL.const_mul (√(n : ℝ))⁻¹
  refine ⟨hR.integrable_sq, ?_⟩
  have hv : ∀ i, Var[fun ω : ℕ → ℝ => f (ω i); seqLaw μ] = ∫ x, f x ^ 2 ∂μ := fun i => by
    rw [variance_eq_integral (X := fun ω : ℕ → ℝ => f (ω i)) (hf.comp (measurable_pi_apply i)).aemeasurable]
    have e := coordinate_integral (μ := μ) hf i (g := id) measurable_id
    simp only [id] at e
    rw [e, h0]
    simp only [sub_zero]
    exact coordinate_integral (μ := μ) hf i (g := fun y => y ^ 2) (by fun_prop)
  have hm : ∫ ω, (∑ i ∈ Finset.range n, f (ω i)) ∂seqLaw μ = 0 := by
    rw [integral_finsetSum _ fun i _ => (coordinate_memLp hf h2 i).integrable (by norm_num)]
    refine Finset.sum_eq_zero fun i _ => ?_
    have e := coordinate_integral (μ := μ) hf i (g := id) measurable_id
    simp only [id] at e
    rw [e, h0]
  have hs : ∫ ω, (∑ i ∈ Finset.range n, f (ω i)) ^ 2 ∂seqLaw μ = n * ∫ x, f x ^ 2 ∂μ := by
    have h := IndepFun.variance_sum (μ := seqLaw μ) (X := fun (i : ℕ) (ω : ℕ → ℝ) => f (ω i)) (s := Finset.range n)
      (fun i _ => coordinate_memLp hf h2 i) (fun i _ j _ hij => (coordinates_indep hf).indepFun hij)
    rw [Finset.sum_congr rfl fun i _ => hv i, Finset.sum_const, Finset.card_range, nsmul_eq_mul,
      variance_eq_integral (by fun_prop)] at h
    simp only [Finset.sum_apply] at h
    rw [hm] at h
    simpa using h
  simp only [rootAvg_eq, mul_pow]
  rw [integral_const_mul, hs, inv_pow, Real.sq_sqrt (Nat.cast_nonneg n)]
  rcases Nat.eq_zero_or_pos n with h | h
  · subst h
    simpa using integral_nonneg fun x => sq_nonneg (f x)
  · rw [← mul_assoc, inv_mul_cancel₀ (by positivity), one_mul]

end

/-! ## Tight and negligible sequences -/

/-- A sequence of values bounded in probability. -/
structure Tight (μ : Measure ℝ) [IsProbabilityMeasure μ] (U : ℕ → (ℕ → ℝ) → ℝ) : Prop where
  meas : ∀ n, Measurable (U n)
  bound : ∀ ε : ENNReal, 0 < ε → ∃ M : ℝ, 0 < M ∧ ∀ᶠ n in atTop, seqLaw μ {ω | M ≤ |U n ω|} ≤ ε

/-- A sequence of values tending to zero in probability. -/
structure Small (μ : Measure ℝ) [IsProbabilityMeasure μ] (R : ℕ → (ℕ → ℝ) → ℝ) : Prop where
  meas : ∀ n, Measurable (R n)
  bound : ∀ δ : ℝ, 0 < δ → ∀ ε : ENNReal, 0 < ε → ∀ᶠ n in atTop, seqLaw μ {ω | δ ≤ |R n ω|} ≤ ε

theorem Small.tight {R : ℕ → (ℕ → ℝ) → ℝ} (h : Small μ R) : Tight μ R :=
  ⟨h.meas, fun ε hε => ⟨1, one_pos, h.bound 1 one_pos ε hε⟩⟩

theorem Small.inMeasure {R : ℕ → (ℕ → ℝ) → ℝ} (h : Small μ R) :
    TendstoInMeasure (seqLaw μ) R atTop (fun _ => (0 : ℝ)) := by
  rw [tendstoInMeasure_iff_norm]
  intro δ hδ
  rw [ENNReal.tendsto_nhds_zero]
  intro ε hε
  simpa using h.bound δ hδ ε hε

theorem Small.of_ae {R : ℕ → (ℕ → ℝ) → ℝ} (hm : ∀ n, Measurable (R n))
    (h : ∀ᵐ ω ∂seqLaw μ, Tendsto (fun n => R n ω) atTop (𝓝 0)) : Small μ R := by
  refine ⟨hm, fun δ hδ ε hε => ?_⟩
  have h' := tendstoInMeasure_of_tendsto_ae (μ := seqLaw μ) (f := R) (g := fun _ => (0 : ℝ))
    (fun n => (hm n).aestronglyMeasurable) h
  rw [tendstoInMeasure_iff_norm] at h'
  have h'' := (ENNReal.tendsto_nhds_zero.1 (h' δ hδ)) ε hε
  simpa using h''

theorem Small.add {R S : ℕ → (ℕ → ℝ) → ℝ} (hR : Small μ R) (hS : Small μ S) :
    Small μ (fun n ω => R n ω + S n ω) := by
  refine ⟨fun n => (hR.meas n).add (hS.meas n), fun δ hδ ε hε => ?_⟩
  have h2 : 0 < ε / 2 := ENNReal.half_pos hε.ne'
  filter_upwards [hR.bound (δ / 2) (by positivity) _ h2, hS.bound (δ / 2) (by positivity) _ h2] with n h1 h2
  calc seqLaw μ {ω | δ ≤ |R n ω + S n ω|}
      ≤ seqLaw μ ({ω | δ / 2 ≤ |R n ω|} ∪ {ω | δ / 2 ≤ |S n ω|}) := by
        refine measure_mono fun ω hω => ?_
        simp only [Set.mem_union, Set.mem_ofPred_eq] at hω ⊢
        by_contra hc
        push Not at hc
        linarith [abs_add_le (R n ω) (S n ω), hc.1, hc.2]
    _ ≤ ε / 2 + ε / 2 := (measure_union_le _ _).trans (add_le_add h1 h2)
    _ = ε := ENNReal.add_halves ε

theorem Tight.mul_small {U R : ℕ → (ℕ → ℝ) → ℝ} (hU : Tight μ U) (hR : Small μ R) :
    Small μ (fun n ω => U n ω * R n ω) := by
  refine ⟨fun n => (hU.meas n).mul (hR.meas n), fun δ hδ ε hε => ?_⟩
  have h2 : 0 < ε / 2 := ENNReal.half_pos hε.ne'
  obtain ⟨M, hM, hb⟩ := hU.bound _ h2
  filter_upwards [hb, hR.bound (δ / M) (by positivity) _ h2] with n h1 h2
  calc seqLaw μ {ω | δ ≤ |U n ω * R n ω|}
      ≤ seqLaw μ ({ω | M ≤ |U n ω|} ∪ {ω | δ / M ≤ |R n ω|}) := by
        refine measure_mono fun ω hω => ?_
        simp only [Set.mem_union, Set.mem_ofPred_eq] at hω ⊢
        by_contra hc
        push Not at hc
        rw [abs_mul] at hω
        have : |U n ω| * |R n ω| < M * (δ / M) :=
          mul_lt_mul'' hc.1 hc.2 (abs_nonneg _) (abs_nonneg _)
        rw [mul_div_cancel₀ _ hM.ne'] at this
        linarith
    _ ≤ ε / 2 + ε / 2 := (measure_union_le _ _).trans (add_le_add h1 h2)
    _ = ε := ENNReal.add_halves ε

theorem Tight.add {U V : ℕ → (ℕ → ℝ) → ℝ} (hU : Tight μ U) (hV : Tight μ V) :
    Tight μ (fun n ω => U n ω + V n ω) := by
  refine ⟨fun n => (hU.meas n).add (hV.meas n), fun ε hε => ?_⟩
  have h2 : 0 < ε / 2 := ENNReal.half_pos hε.ne'
  obtain ⟨M, hM, hb⟩ := hU.bound _ h2
  obtain ⟨N, hN, hc⟩ := hV.bound _ h2
  refine ⟨M + N, by positivity, ?_⟩
  filter_upwards [hb, hc] with n h1 h2
  calc seqLaw μ {ω | M + N ≤ |U n ω + V n ω|}
      ≤ seqLaw μ ({ω | M ≤ |U n ω|} ∪ {ω | N ≤ |V n ω|}) := by
        refine measure_mono fun ω hω => ?_
        simp only [Set.mem_union, Set.mem_ofPred_eq] at hω ⊢
        by_contra hc
        push Not at hc
        linarith [abs_add_le (U n ω) (V n ω), hc.1, hc.2]
    _ ≤ ε / 2 + ε / 2 := (measure_union_le _ _).trans (add_le_add h1 h2)
    _ = ε := ENNReal.add_halves ε

theorem Tight.mul {U V : ℕ → (ℕ → ℝ) → ℝ} (hU : Tight μ U) (hV : Tight μ V) :
    Tight μ (fun n ω => U n ω * V n ω) := by
  refine ⟨fun n => (hU.meas n).mul (hV.meas n), fun ε hε => ?_⟩
  have h2 : 0 < ε / 2 := ENNReal.half_pos hε.ne'
  obtain ⟨M, hM, hb⟩ := hU.bound _ h2
  obtain ⟨N, hN, hc⟩ := hV.bound _ h2
  refine ⟨M * N, by positivity, ?_⟩
  filter_upwards [hb, hc] with n h1 h2
  calc seqLaw μ {ω | M * N ≤ |U n ω * V n ω|}
      ≤ seqLaw μ ({ω | M ≤ |U n ω|} ∪ {ω | N ≤ |V n ω|}) := by
        refine measure_mono fun ω hω => ?_
        simp only [Set.mem_union, Set.mem_ofPred_eq] at hω ⊢
        by_contra hc
        push Not at hc
        rw [abs_mul] at hω
        linarith [mul_lt_mul'' hc.1 hc.2 (abs_nonneg (U n ω)) (abs_nonneg (V n ω))]
    _ ≤ ε / 2 + ε / 2 := (measure_union_le _ _).trans (add_le_add h1 h2)
    _ = ε := ENNReal.add_halves ε

theorem Tight.const (c : ℝ) : Tight μ (fun _ _ => c) :=
  ⟨fun _ => measurable_const, fun ε _ => ⟨|c| + 1, by positivity, .of_forall fun n => by
    have : {ω : ℕ → ℝ | |c| + 1 ≤ |c|} = ∅ := by
      ext ω
      simp
    rw [this]
    simp⟩⟩

theorem Small.of_eq {R S : ℕ → (ℕ → ℝ) → ℝ} (h : Small μ R) (e : ∀ n ω, R n ω = S n ω) : Small μ S := by
  have : R = S := funext fun n => funext (e n)
  rwa [← this]

theorem Tight.of_eq {R S : ℕ → (ℕ → ℝ) → ℝ} (h : Tight μ R) (e : ∀ n ω, R n ω = S n ω) : Tight μ S := by
  have : R = S := funext fun n => funext (e n)
  rwa [← this]

theorem Small.const_mul {R : ℕ → (ℕ → ℝ) → ℝ} (h : Small μ R) (c : ℝ) : Small μ (fun n ω => c * R n ω) :=
  (Tight.const c).mul_small h

/-- What tends almost surely to a limit is bounded in probability. -/
theorem Tight.of_ae {U : ℕ → (ℕ → ℝ) → ℝ} {c : ℝ} (hm : ∀ n, Measurable (U n))
    (h : ∀ᵐ ω ∂seqLaw μ, Tendsto (fun n => U n ω) atTop (𝓝 c)) : Tight μ U := by
  have hs : Small μ (fun n ω => U n ω - c) := Small.of_ae (fun n => (hm n).sub_const c) <| by
    filter_upwards [h] with ω hω
    simpa using hω.sub_const c
  exact (hs.tight.add (Tight.const c)).of_eq fun n ω => sub_add_cancel _ _

/-- Averages multiplied by `√n` are bounded in probability: Chebyshev's inequality. -/
theorem tight_rootAvg {f : ℝ → ℝ} (hf : Measurable f) (h2 : MemLp f 2 μ) (h0 : ∫ x, f x ∂μ = 0) :
    Tight μ (rootAvg f) := by
  refine ⟨measurable_rootAvg hf, fun ε hε => ?_⟩
  obtain ⟨δ, hδ, hδε⟩ : ∃ δ : ℝ, 0 < δ ∧ ENNReal.ofReal δ ≤ ε := by
    rcases eq_or_ne ε ⊤ with h | h
    · exact ⟨1, one_pos, by simp [h]⟩
    · exact ⟨ε.toReal, ENNReal.toReal_pos hε.ne' h, by rw [ENNReal.ofReal_toReal h]⟩
  set V := ∫ x, f x ^ 2 ∂μ with hV
  have hV0 : 0 ≤ V := integral_nonneg fun x => sq_nonneg _
  refine ⟨√((V + 1) / δ), by positivity, .of_forall fun n => ?_⟩
  have h := mul_meas_ge_le_integral_of_nonneg (μ := seqLaw μ) (f := fun ω => rootAvg f n ω ^ 2)
    (ae_of_all _ fun ω => sq_nonneg _) (rootAvg_sq hf h2 h0 n).1 ((V + 1) / δ)
  have h' : (seqLaw μ).real {ω | (V + 1) / δ ≤ rootAvg f n ω ^ 2} ≤ δ := by
    have h3 := h.trans (rootAvg_sq hf h2 h0 n).2
    rw [div_mul_eq_mul_div, div_le_iff₀ hδ] at h3
    generalize (seqLaw μ).real {ω | (V + 1) / δ ≤ rootAvg f n ω ^ 2} = p at h3
    by_contra hc
    nlinarith
  have es : {ω | √((V + 1) / δ) ≤ |rootAvg f n ω|} = {ω | (V + 1) / δ ≤ rootAvg f n ω ^ 2} := by
    ext ω
    simp only [Set.mem_ofPred_eq]
    rw [Real.sqrt_le_left (abs_nonneg _), sq_abs]
  rw [es]
  refine le_trans ?_ hδε
  rw [← ENNReal.ofReal_toReal (measure_ne_top (seqLaw μ) _)]
  exact ENNReal.ofReal_le_ofReal h'

/-- Averages with mean zero tend to zero almost surely. -/
theorem small_avg {f : ℝ → ℝ} (hf : Measurable f) (hi : Integrable f μ) (h0 : ∫ x, f x ∂μ = 0) :
    Small μ (avg f) :=
  Small.of_ae (measurable_avg hf) <| by
    have := law_of_large_numbers (μ := μ) hf hi
    rw [h0] at this
    exact this

/-! ## Values close to one another in the long run -/

/-- `T` differs from `W` by what tends to zero in probability, almost surely from some sample size on. -/
def Near (μ : Measure ℝ) [IsProbabilityMeasure μ] (T W : ℕ → (ℕ → ℝ) → ℝ) : Prop :=
  ∃ R, Small μ R ∧ ∀ᵐ ω ∂seqLaw μ, ∀ᶠ n in atTop, T n ω = W n ω + R n ω

section
variable {T T' W W' : ℕ → (ℕ → ℝ) → ℝ}

theorem Small.zero : Small μ (fun _ _ => (0 : ℝ)) :=
  Small.of_ae (fun _ => measurable_const) (ae_of_all _ fun _ => tendsto_const_nhds)

theorem Near.refl (W : ℕ → (ℕ → ℝ) → ℝ) : Near μ W W :=
  ⟨_, Small.zero, ae_of_all _ fun _ => .of_forall fun _ => (add_zero _).symm⟩

theorem Near.congr (h : Near μ T W) (e : ∀ᵐ ω ∂seqLaw μ, ∀ᶠ n in atTop, T' n ω = T n ω) : Near μ T' W := by
  obtain ⟨R, hR, hT⟩ := h
  refine ⟨R, hR, ?_⟩
  filter_upwards [hT, e] with ω h1 h2
  filter_upwards [h1, h2] with n h1 h2
  rw [h2, h1]

theorem Near.of_small {R : ℕ → (ℕ → ℝ) → ℝ} (hR : Small μ R) : Near μ (fun n ω => W n ω + R n ω) W :=
  ⟨R, hR, ae_of_all _ fun _ => .of_forall fun _ => rfl⟩

theorem Near.of_ae {c : ℝ} (hm : ∀ n, Measurable (T n)) (h : ∀ᵐ ω ∂seqLaw μ, Tendsto (fun n => T n ω) atTop (𝓝 c)) :
    Near μ T (fun _ _ => c) :=
  ⟨fun n ω => T n ω - c, Small.of_ae (fun n => (hm n).sub_const c) (by
    filter_upwards [h] with ω hω
    simpa using hω.sub_const c), ae_of_all _ fun _ => .of_forall fun _ => by ring⟩

theorem Near.of_seq {a : ℕ → ℝ} {c : ℝ} (h : Tendsto a atTop (𝓝 c)) : Near μ (fun n _ => a n) (fun _ _ => c) :=
  Near.of_ae (fun _ => measurable_const) (ae_of_all _ fun _ => h)

theorem Near.add (h : Near μ T W) (h' : Near μ T' W') :
    Near μ (fun n ω => T n ω + T' n ω) (fun n ω => W n ω + W' n ω) := by
  obtain ⟨R, hR, hT⟩ := h
  obtain ⟨R', hR', hT'⟩ := h'
  refine ⟨_, hR.add hR', ?_⟩
  filter_upwards [hT, hT'] with ω h1 h2
  filter_upwards [h1, h2] with n h1 h2
  rw [h1, h2]
  ring

theorem Near.mul (h : Near μ T W) (h' : Near μ T' W') (hW : Tight μ W) (hW' : Tight μ W') :
    Near μ (fun n ω => T n ω * T' n ω) (fun n ω => W n ω * W' n ω) := by
  obtain ⟨R, hR, hT⟩ := h
  obtain ⟨R', hR', hT'⟩ := h'
  refine ⟨_, ((hW.mul_small hR').add (hW'.mul_small hR)).add (hR.tight.mul_small hR'), ?_⟩
  filter_upwards [hT, hT'] with ω h1 h2
  filter_upwards [h1, h2] with n h1 h2
  rw [h1, h2]
  ring

theorem Near.of_eq (h : Near μ T W) (e : ∀ n ω, W n ω = W' n ω) : Near μ T W' := by
  have : W = W' := funext fun n => funext (e n)
  rwa [← this]

theorem Near.trans (h : Near μ T W) (h' : Near μ W W') : Near μ T W' := by
  obtain ⟨R, hR, hT⟩ := h
  obtain ⟨R', hR', hT'⟩ := h'
  refine ⟨_, hR'.add hR, ?_⟩
  filter_upwards [hT, hT'] with ω h1 h2
  filter_upwards [h1, h2] with n h1 h2
  rw [h1, h2]
  ring

/-- Values close to converging ones converge to the same law. -/
theorem Near.tendsto {L : Measure ℝ} [IsProbabilityMeasure L] (h : Near μ T W) (hm : ∀ n, Measurable (T n))
    (hW : TendstoInDistribution W atTop (id : ℝ → ℝ) (fun _ => seqLaw μ) L) (hWm : ∀ n, Measurable (W n)) :
    TendstoInDistribution T atTop (id : ℝ → ℝ) (fun _ => seqLaw μ) L := by
  obtain ⟨R, hR, hT⟩ := h
  refine tendstoInDistribution_of_tendstoInMeasure_sub T (id : ℝ → ℝ) hW ?_ fun n => (hm n).aemeasurable
  have h1 : Small μ (fun n ω => T n ω - (W n ω + R n ω)) :=
    Small.of_ae (fun n => (hm n).sub ((hWm n).add (hR.meas n))) <| by
      filter_upwards [hT] with ω hω
      refine tendsto_const_nhds.congr' ?_
      filter_upwards [hω] with n hn
      rw [hn, sub_self]
  exact ((h1.add hR).of_eq (S := T - W) fun n ω => by simp only [Pi.sub_apply]; ring).inMeasure

end

/-- Convergence in distribution gives the probabilities of half lines. -/
theorem tendsto_halfLine {T : ℕ → (ℕ → ℝ) → ℝ} {L : Measure ℝ} [IsProbabilityMeasure L]
    (h : TendstoInDistribution T atTop (id : ℝ → ℝ) (fun _ => seqLaw μ) L) (hm : ∀ n, Measurable (T n)) {t : ℝ}
    (ht : L {t} = 0) : Tendsto (fun n => seqLaw μ {ω | T n ω ≤ t}) atTop (𝓝 (L (Set.Iic t))) := by
  have h1 := ProbabilityMeasure.tendsto_measure_of_null_frontier_of_tendsto' h.tendsto (E := Set.Iic t) (by
    simpa [frontier_Iic] using ht)
  simp only [ProbabilityMeasure.coe_mk, Measure.map_id] at h1
  refine h1.congr fun n => ?_
  rw [Measure.map_apply (hm n) measurableSet_Iic]
  rfl

/-- Converging in distribution to a law that does not charge a point, one seldom hits the point. -/
theorem small_point {T : ℕ → (ℕ → ℝ) → ℝ} {L : Measure ℝ} [IsProbabilityMeasure L]
    (h : TendstoInDistribution T atTop (id : ℝ → ℝ) (fun _ => seqLaw μ) L) (hm : ∀ n, Measurable (T n)) {t : ℝ}
    (ht : L {t} = 0) (g : ℕ → ℝ) : Small μ (fun n ω => if T n ω = t then g n else 0) := by
  have hs : ∀ n, MeasurableSet {ω | T n ω = t} := fun n => measurableSet_eq_fun (hm n) measurable_const
  refine ⟨fun n => Measurable.ite (hs n) measurable_const measurable_const, fun δ hδ ε hε => ?_⟩
  have h1 := ProbabilityMeasure.tendsto_measure_of_null_frontier_of_tendsto' h.tendsto (E := {t}) (by
    simpa using measure_mono_null (frontier_subset_closure.trans (by simp)) ht)
  simp only [ProbabilityMeasure.coe_mk, Measure.map_id, ht] at h1
  filter_upwards [(ENNReal.tendsto_nhds_zero.1 h1) ε hε] with n hn
  rw [Measure.map_apply (hm n) (measurableSet_singleton t)] at hn
  refine (measure_mono fun ω hω => ?_).trans hn
  simp only [Set.mem_ofPred_eq] at hω
  by_contra hc
  rw [if_neg (show ¬T n ω = t from hc), abs_zero] at hω
  linarith

/-! ## Two averages at once -/

omit [IsProbabilityMeasure μ] in
theorem charFun_law {X : (ℕ → ℝ) → EuclideanSpace ℝ (Fin 2)} (hX : Measurable X) (t : EuclideanSpace ℝ (Fin 2)) :
    charFun ((seqLaw μ).map X) t = charFun ((seqLaw μ).map fun ω => t 0 * X ω 0 + t 1 * X ω 1) 1 := by
  rw [charFun_apply, charFun_apply_real, integral_map hX.aemeasurable (by fun_prop),
    integral_map (by fun_prop) (by fun_prop)]
  refine integral_congr_ae (ae_of_all _ fun ω => ?_)
  simp only [PiLp.inner_apply, Fin.sum_univ_two]
  congr 2
  simp only [Complex.ofReal_one, one_mul, RCLike.inner_apply, conj_trivial]

/-- Two averages, multiplied by `√n`. -/
noncomputable def pairAvg (f g : ℝ → ℝ) (n : ℕ) (ω : ℕ → ℝ) : EuclideanSpace ℝ (Fin 2) :=
  !₂[rootAvg f n ω, rootAvg g n ω]

/-- **The central limit theorem for two averages** with mean zero, uncorrelated and with variance one. -/
theorem clt_pair {f g : ℝ → ℝ} (hf : Measurable f) (hg : Measurable g) (hf2 : MemLp f 2 μ) (hg2 : MemLp g 2 μ)
    (hf0 : ∫ x, f x ∂μ = 0) (hg0 : ∫ x, g x ∂μ = 0) (hff : ∫ x, f x ^ 2 ∂μ = 1) (hgg : ∫ x, g x ^ 2 ∂μ = 1)
    (hfg : ∫ x, f x * g x ∂μ = 0) :
    TendstoInDistribution (fun n => pairAvg f g n) atTop
      (id : EuclideanSpace ℝ (Fin 2) → EuclideanSpace ℝ (Fin 2)) (fun _ => seqLaw μ) (stdGaussian (EuclideanSpace ℝ (Fin 2))) := by
  have hm : ∀ n, Measurable (pairAvg f g n) := fun n => by
    have h1 := measurable_rootAvg hf n
    have h2 := measurable_rootAvg hg n
    refine (PiLp.continuous_toLp 2 _).measurable.comp (measurable_pi_iff.2 fun i => ?_)
    fin_cases i
    · exact h1
    · exact h2
  refine ⟨fun n => (hm n).aemeasurable, aemeasurable_id, ?_⟩
  refine (ProbabilityMeasure.tendsto_iff_tendsto_charFun (E := EuclideanSpace ℝ (Fin 2))).2 fun t => ?_
  simp only [ProbabilityMeasure.coe_mk, Measure.map_id, charFun_stdGaussian]
  set h : ℝ → ℝ := fun x => t 0 * f x + t 1 * g x with hh
  have hhm : Measurable h := (hf.const_mul _).add (hg.const_mul _)
  have hh2 : MemLp h 2 μ := (hf2.const_mul _).add (hg2.const_mul _)
  have hfi := hf2.integrable (by norm_num)
  have hgi := hg2.integrable (by norm_num)
  have hh0 : ∫ x, h x ∂μ = 0 := by
    rw [integral_add (hfi.const_mul _) (hgi.const_mul _), integral_const_mul, integral_const_mul, hf0, hg0]
    ring
  have hhh : ∫ x, h x ^ 2 ∂μ = t 0 ^ 2 + t 1 ^ 2 := by
    have e : ∀ x, h x ^ 2 = t 0 ^ 2 * f x ^ 2 + 2 * t 0 * t 1 * (f x * g x) + t 1 ^ 2 * g x ^ 2 := fun x => by
      rw [hh]; ring
    simp only [e]
    have i1 := hf2.integrable_sq.const_mul (t 0 ^ 2)
    have i2 := (hf2.integrable_mul hg2).const_mul (2 * t 0 * t 1)
    have i3 := hg2.integrable_sq.const_mul (t 1 ^ 2)
    rw [integral_add (by exact i1.add i2) i3, integral_add i1 (by exact i2), integral_const_mul, integral_const_mul,
      integral_const_mul, hff, hgg, hfg]
    ring
  have hc1 := (ProbabilityMeasure.tendsto_iff_tendsto_charFun (E := ℝ)).1 (clt_rootAvg hhm hh2 hh0).tendsto 1
  simp only [ProbabilityMeasure.coe_mk, Measure.map_id, charFun_gaussianReal, hhh] at hc1
  have e1 : ∀ n, charFun ((seqLaw μ).map (pairAvg f g n)) t =
      charFun ((seqLaw μ).map (rootAvg h n)) 1 := fun n => by
    rw [charFun_law (hm n) t]
    congr 2
    funext ω
    simp only [pairAvg, rootAvg, avg, hh, Finset.sum_add_distrib, ← Finset.mul_sum]
    simp
    ring
  simp only [e1]
  convert hc1 using 2
  have : ‖t‖ ^ 2 = t 0 ^ 2 + t 1 ^ 2 := by
    rw [EuclideanSpace.norm_sq_eq, Fin.sum_univ_two]
    simp
  rw [Real.coe_toNNReal _ (by positivity), ← Complex.ofReal_pow, this]
  congr 1
  push_cast
  ring

end Pysatl
