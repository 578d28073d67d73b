import Verif.Lemmas.PlotScores
import Verif.Props.ConsistencyFitted
import Verif.Props.ConsistencyLilliefors
import Verif.Props.ConsistencyDeviation
import Mathlib.Analysis.SpecialFunctions.Log.Base
import Mathlib.Analysis.SpecialFunctions.Pow.Asymptotics

/-! # C137: the criteria that correlate the normal probability plot detect every continuous law with a finite variance that is
not normal -/

namespace Pysatl.Props

open Pysatl.Decision Pysatl.Resolver Pysatl.Spec Pysatl.Edf Pysatl.Graph Pysatl.Gen Pysatl.Normal Pysatl.Exponent
open MeasureTheory ProbabilityTheory Filter Topology

/-! ### Plots of a sample -/

theorem sum_order {xs : List ℝ} {o : ℕ → ℝ} (ho : OrderStats xs o) (f : ℝ → ℝ) :
    ∑ i ∈ Finset.Icc 1 xs.length, f (o i) = (xs.map f).sum := by
  rw [← sum_points xs.length fun i => f (o i)]
  have e : points xs.length (fun i => f (o i)) = (sort xs).map f := by
    rw [sort_points ho, points, points, List.map_map]
    rfl
  rw [e, ((sort_perm xs).map f).sum_eq]

theorem mean_order {xs : List ℝ} {o : ℕ → ℝ} (ho : OrderStats xs o) (f : ℝ → ℝ) :
    (∑ i ∈ Finset.Icc 1 xs.length, f (o i)) / xs.length = ∫ x, f x ∂empiricalLaw xs := by
  rw [sum_order ho, integral_empirical]

/-- Positions `p n 1, …, p n n` for which the normal probability plot of a sample of size `n` can be judged. -/
structure Positions (p : ℕ → ℕ → ℝ) : Prop where
  unit : ∀ n i, 1 ≤ i → i ≤ n → 0 < p n i ∧ p n i < 1
  symm : ∀ n i, 1 ≤ i → i ≤ n → p n (n + 1 - i) = 1 - p n i
  near : ∀ n i, 1 ≤ i → i ≤ n → |p n i - ((i : ℝ) - 1 / 2) / n| ≤ 1 / n
  ascend : ∀ n, 2 ≤ n → (∀ i j, 1 ≤ i → i ≤ j → j ≤ n → p n i ≤ p n j) ∧ p n 1 < p n n
  squares : ∀ n z, 1 ≤ n → NormalScores n (p n) z → ∑ i ∈ Finset.Icc 1 n, z i ^ 2 ≤ n + 1 + 8 * Real.log (n + 1)

variable {p : ℕ → ℕ → ℝ}

theorem scores_centred (hp : Positions p) {n : ℕ} {z : ℕ → ℝ} (hz : NormalScores n (p n) z) :
    ∑ i ∈ Finset.Icc 1 n, z i = 0 := by
  have hsym : ∀ i ∈ Finset.Icc 1 n, z (n + 1 - i) = -z i := by
    intro i hi
    obtain ⟨h1, h2⟩ := Finset.mem_Icc.1 hi
    apply Phi_strictMono.injective
    rw [Phi_neg]
    change cdf (gaussianReal 0 1) _ = 1 - cdf (gaussianReal 0 1) _
    rw [hz i h1 h2, hz (n + 1 - i) (by omega) (by omega), hp.symm n i h1 h2]
  have h1 : ∑ i ∈ Finset.Icc 1 n, z (n + 1 - i) = ∑ i ∈ Finset.Icc 1 n, z i := by
    refine Finset.sum_nbij' (fun i => n + 1 - i) (fun i => n + 1 - i) ?_ ?_ ?_ ?_ ?_ <;>
      · intro i hi
        have := Finset.mem_Icc.1 hi
        first
          | rfl
          | (simp only [Finset.mem_Icc]; omega)
          | omega
  rw [Finset.sum_congr rfl hsym, Finset.sum_neg_distrib] at h1
  linarith

theorem coDeviation_order {xs : List ℝ} {o : ℕ → ℝ} (ho : OrderStats xs o) (hn : 1 ≤ xs.length) :
    coDeviation xs.length o o = xs.length * stdDev xs ^ 2 := by
  have hn' : (xs.length : ℝ) ≠ 0 := by exact_mod_cast (by omega : xs.length ≠ 0)
  have hm : plotMean xs.length o = meanOf id xs := by
    rw [plotMean, meanOf]
    exact congrArg (· / (xs.length : ℝ)) (sum_order ho id)
  have h0 : 0 ≤ Spec.centralMoment 2 xs := by
    rw [Spec.centralMoment, meanOf]
    refine div_nonneg (List.sum_nonneg fun a ha => ?_) (by positivity)
    obtain ⟨b, _, rfl⟩ := List.mem_map.1 ha
    positivity
  rw [coDeviation, hm, stdDev, Real.sq_sqrt h0, Spec.centralMoment]
  have := sum_order ho fun x => (x - meanOf id xs) ^ 2
  generalize meanOf id xs = c at *
  rw [meanOf, mul_div_cancel₀ _ hn', ← this]
  exact Finset.sum_congr rfl fun i _ => (sq _).symm

/-- The correlation in terms of average products with the standardised observations. -/
theorem correlation_form (hp : Positions p) {xs : List ℝ} {o z : ℕ → ℝ} (ho : OrderStats xs o)
    (hz : NormalScores xs.length (p xs.length) z) (hn : 1 ≤ xs.length) (a : ℝ) {s : ℝ} (hs : 0 < s)
    (hd : 0 < stdDev xs) : correlation xs.length z o =
      (∑ i ∈ Finset.Icc 1 xs.length, z i * ((o i - a) / s)) / xs.length * (s / stdDev xs) /
        √((∑ i ∈ Finset.Icc 1 xs.length, z i ^ 2) / xs.length) := by
  have hn' : (0 : ℝ) < xs.length := by exact_mod_cast hn
  have h0 := scores_centred hp hz
  have e1 : ∑ i ∈ Finset.Icc 1 xs.length, z i * ((o i - a) / s) = (∑ i ∈ Finset.Icc 1 xs.length, z i * o i) / s := by
    have : ∀ i ∈ Finset.Icc 1 xs.length, z i * ((o i - a) / s) = z i * o i / s - z i * (a / s) := fun i _ => by
      field_simp
    rw [Finset.sum_congr rfl this, Finset.sum_sub_distrib, ← Finset.sum_mul, h0, zero_mul, sub_zero, Finset.sum_div]
  have e2 : coDeviation xs.length z z = ∑ i ∈ Finset.Icc 1 xs.length, z i ^ 2 := by
    rw [coDeviation_centred h0]
    exact Finset.sum_congr rfl fun i _ => (sq _).symm
  rw [correlation, e1, e2, coDeviation_order ho hn, coDeviation_centred h0]
  have hB : 0 ≤ ∑ i ∈ Finset.Icc 1 xs.length, z i ^ 2 := Finset.sum_nonneg fun i _ => sq_nonneg _
  generalize ∑ i ∈ Finset.Icc 1 xs.length, z i * o i = A at *
  generalize ∑ i ∈ Finset.Icc 1 xs.length, z i ^ 2 = B at *
  have e3 : B * (xs.length * stdDev xs ^ 2) = B / xs.length * (xs.length * stdDev xs) ^ 2 := by field_simp
  rw [e3, Real.sqrt_mul (by positivity), Real.sqrt_sq (by positivity)]
  generalize √(B / xs.length) = b
  field_simp

theorem position_order (hp : Positions p) {F : ℝ → ℝ} (hc : Continuous F) (hm : Monotone F)
    (h01 : ∀ x, 0 ≤ F x ∧ F x ≤ 1) {xs : List ℝ} {D : ℝ} (hD : ∀ x, |fracLe xs x - F x| ≤ D) {o : ℕ → ℝ}
    (ho : OrderStats xs o) {i : ℕ} (hi : 1 ≤ i) (hi' : i ≤ xs.length) :
    |p xs.length i - F (o i)| ≤ D + 1 / xs.length := by
  obtain ⟨k, rfl⟩ : ∃ k, i = k + 1 := ⟨i - 1, by omega⟩
  have hk : k < (sort xs).length := by rw [(sort_perm xs).length_eq]; omega
  have h := position_near hc hm h01 hD hk
  have e := at_sort_orderStats ho (i := k) (by omega)
  rw [at_, List.getD_eq_getElem _ _ hk] at e
  rw [e] at h
  have hsh := hp.near xs.length (k + 1) hi hi'
  push_cast at hsh
  have := abs_sub_le (p xs.length (k + 1)) (((k : ℝ) + 1 - 1 / 2) / xs.length) (F (o (k + 1)))
  linarith

theorem scores_exist (hp : Positions p) (n : ℕ) : ∃ z, NormalScores n (p n) z :=
  ⟨fun i => PhiInv (p n i), fun i hi hi' => Phi_PhiInv (hp.unit n i hi hi').1 (hp.unit n i hi hi').2⟩

/-- Along a sequence whose empirical distribution functions settle, the plotting positions come near the distribution
function at the order statistics. -/
theorem positions_settle (hp : Positions p) {Q : Measure ℝ} [IsProbabilityMeasure Q]
    (hc : Continuous (cdf Q)) : ∀ᵐ ω ∂seqLaw Q, ∀ ε : ℝ, 0 < ε → ∀ᶠ n in atTop, ∀ o, OrderStats (List.ofFn (firsts n ω)) o →
      ∀ i, 1 ≤ i → i ≤ n → |p n i - cdf Q (o i)| ≤ ε := by
  filter_upwards [glivenko hc] with ω h ε hε
  filter_upwards [h (ε / 2) (by linarith), tendsto_one_div_atTop_nhds_zero_nat.eventually (gt_mem_nhds (_root_.half_pos hε))]
    with n hn hn' o ho i hi hi'
  have := position_order hp hc (monotone_cdf Q) (fun x => ⟨cdf_nonneg Q x, cdf_le_one Q x⟩) hn ho hi
    (by rw [List.length_ofFn]; exact hi')
  rw [List.length_ofFn] at this
  linarith

/-! ### Normal observations -/

theorem cap_limit {Q : Measure ℝ} {y : ℝ → ℝ} (hm : Measurable y) (hi : Integrable (fun x => y x ^ 2) Q) {t : ℝ}
    (ht : t < ∫ x, y x ^ 2 ∂Q) : ∃ M, 0 < M ∧ t < ∫ x, cap M (y x) ^ 2 ∂Q := by
  have hl : Tendsto (fun k : ℕ => ∫ x, cap k (y x) ^ 2 ∂Q) atTop (𝓝 (∫ x, y x ^ 2 ∂Q)) := by
    refine tendsto_integral_of_dominated_convergence (fun x => y x ^ 2) (fun k => ?_) hi (fun k => ?_) ?_
    · have : Measurable fun x => cap (k : ℝ) (y x) ^ 2 := by unfold cap; fun_prop
      exact this.aestronglyMeasurable
    · refine .of_forall fun x => ?_
      rw [Real.norm_eq_abs, abs_of_nonneg (sq_nonneg _)]
      exact cap_sq_le (Nat.cast_nonneg k) _
    · refine .of_forall fun x => ?_
      refine tendsto_const_nhds.congr' ?_
      obtain ⟨K, hK⟩ := exists_nat_ge |y x|
      filter_upwards [eventually_ge_atTop K] with k hk
      have hk : (K : ℝ) ≤ k := by exact_mod_cast hk
      have := abs_le.1 (hK.trans hk)
      rw [cap, min_eq_left this.2, max_eq_right this.1]
  obtain ⟨k, h1, h2⟩ := ((hl.eventually (lt_mem_nhds ht)).and (eventually_gt_atTop 0)).exists
  exact ⟨k, by exact_mod_cast h2, h1⟩

section

variable {Q : Measure ℝ} [IsProbabilityMeasure Q] (h2 : Integrable (fun x => |x| ^ 2) Q) (hV : 0 < lawVariance Q)

/-- The observation standardised by the mean and the standard deviation of its law. -/
noncomputable def lawScore (Q : Measure ℝ) (x : ℝ) : ℝ := (x - lawMean Q) / √(lawVariance Q)

omit [IsProbabilityMeasure Q] in
theorem lawScore_measurable : Measurable (lawScore Q) := by unfold lawScore; fun_prop

omit [IsProbabilityMeasure Q] in
include hV in
theorem lawScore_sq (x : ℝ) : lawScore Q x ^ 2 = (x - lawMean Q) ^ 2 / lawVariance Q := by
  rw [lawScore, div_pow, Real.sq_sqrt hV.le]

include h2 hV in
theorem lawScore_integrable : Integrable (fun x => lawScore Q x ^ 2) Q := by
  simp only [lawScore_sq hV]
  exact (integrable_power h2 le_rfl _).div_const _

omit [IsProbabilityMeasure Q] in
include hV in
theorem lawScore_integral : ∫ x, lawScore Q x ^ 2 ∂Q = 1 := by
  simp only [lawScore_sq hV]
  rw [integral_div]
  exact div_self hV.ne'

include h2 hV in
/-- For normal observations the scores come near the standardised observations. -/
theorem plot_near (hp : Positions p) (hF : ∀ x, cdf Q x = Phi (lawScore Q x)) {t : ℝ} (ht : 0 < t) :
    ∀ᵐ ω ∂seqLaw Q, ∀ᶠ n in atTop, ∀ o z, OrderStats (List.ofFn (firsts n ω)) o → NormalScores n (p n) z →
      1 - t < (∑ i ∈ Finset.Icc 1 n, z i * lawScore Q (o i)) / n ∧ 1 - t < (∑ i ∈ Finset.Icc 1 n, z i ^ 2) / n := by
  obtain ⟨M, hM, hMt⟩ := cap_limit lawScore_measurable (lawScore_integrable h2 hV) (t := 1 - t / 4)
    (by rw [lawScore_integral hV]; linarith)
  have hc : Continuous (cdf Q) := by
    have : (cdf Q : ℝ → ℝ) = fun x => Phi (lawScore Q x) := funext hF
    rw [this]
    exact Phi_continuous.comp (by unfold lawScore; fun_prop)
  have hφ : 0 < gaussianPDFReal 0 1 M := gaussianPDFReal_pos 0 1 M one_ne_zero
  set η := min (M / 2) (t / (8 * M)) with hη
  have hη0 : 0 < η := lt_min (by positivity) (by positivity)
  have hη1 : η < M := (min_le_left _ _).trans_lt (by linarith)
  have hη2 : 2 * M * η ≤ t / 4 := by
    have : η ≤ t / (8 * M) := min_le_right _ _
    rw [le_div_iff₀ (by positivity)] at this
    linarith
  have hcm : Measurable fun x => cap M (lawScore Q x) ^ 2 := by
    have := lawScore_measurable (Q := Q)
    unfold cap
    fun_prop
  have hci : Integrable (fun x => cap M (lawScore Q x) ^ 2) Q :=
    (lawScore_integrable h2 hV).mono' hcm.aestronglyMeasurable (.of_forall fun x => by
      rw [Real.norm_eq_abs, abs_of_nonneg (sq_nonneg _)]
      exact cap_sq_le hM.le _)
  filter_upwards [positions_settle hp hc, settles_integral hcm hci] with ω hq hl
  filter_upwards [hq (gaussianPDFReal 0 1 M * η) (by positivity), hl.eventually (lt_mem_nhds hMt), eventually_gt_atTop 0]
    with n hn hln hn0 o z ho hz
  have hn' : (0 : ℝ) < n := by exact_mod_cast hn0
  have hclose : ∀ i ∈ Finset.Icc 1 n, |cap M (z i) - cap M (lawScore Q (o i))| ≤ η := fun i hi => by
    obtain ⟨a, b⟩ := Finset.mem_Icc.1 hi
    have h3 := hn o ho i a b
    rw [← hz i a b, hF] at h3
    exact le_of_mul_le_mul_left (cap_close hM.le h3) hφ
  have hsum : (∑ i ∈ Finset.Icc 1 n, cap M (lawScore Q (o i)) ^ 2) / n =
      ∫ x, cap M (lawScore Q x) ^ 2 ∂empiricalLaw (List.ofFn (firsts n ω)) := by
    have := mean_order ho fun x => cap M (lawScore Q x) ^ 2
    rwa [List.length_ofFn] at this
  rw [← hsum] at hln
  have hconst : ∀ c : ℝ, (∑ i ∈ Finset.Icc 1 n, (cap M (lawScore Q (o i)) ^ 2 - c)) / n =
      (∑ i ∈ Finset.Icc 1 n, cap M (lawScore Q (o i)) ^ 2) / n - c := fun c => by
    rw [Finset.sum_sub_distrib, Finset.sum_const, Nat.card_Icc, nsmul_eq_mul, Nat.add_sub_cancel, sub_div,
      mul_div_cancel_left₀ _ hn'.ne']
  have hMη := mul_pos hM hη0
  constructor
  · have := div_le_div_of_nonneg_right (Finset.sum_le_sum fun i hi => cap_product hM hη1 (hclose i hi)) hn'.le
    rw [hconst] at this
    linarith
  · have := div_le_div_of_nonneg_right (Finset.sum_le_sum fun i hi => cap_square hM (hclose i hi)) hn'.le
    rw [hconst] at this
    linarith

end

/-! ### The average square of the scores -/

theorem scores_bound_tendsto : Tendsto (fun n : ℕ => ((n : ℝ) + 1 + 8 * Real.log (n + 1)) / n) atTop (𝓝 1) := by
  have h1 : Tendsto (fun n : ℕ => (n : ℝ) + 1) atTop atTop := tendsto_atTop_add_const_right _ _ tendsto_natCast_atTop_atTop
  have h2 : Tendsto (fun n : ℕ => Real.log ((n : ℝ) + 1) / ((n : ℝ) + 1)) atTop (𝓝 0) :=
    (Real.isLittleO_log_id_atTop.tendsto_div_nhds_zero).comp h1
  have h3 : Tendsto (fun n : ℕ => ((n : ℝ) + 1) / n) atTop (𝓝 1) := by
    have := (tendsto_const_nhds (x := (1 : ℝ))).add tendsto_one_div_atTop_nhds_zero_nat
    rw [add_zero] at this
    refine this.congr' ?_
    filter_upwards [eventually_gt_atTop 0] with n hn
    have : (n : ℝ) ≠ 0 := by exact_mod_cast hn.ne'
    field_simp
  have := h3.mul ((tendsto_const_nhds (x := (1 : ℝ))).add (h2.const_mul 8))
  rw [mul_zero, add_zero, mul_one] at this
  refine this.congr fun n => ?_
  have : (n : ℝ) + 1 ≠ 0 := by positivity
  generalize Real.log ((n : ℝ) + 1) = L
  field_simp

theorem scores_square (hp : Positions p) {t : ℝ} (ht : 0 < t) : ∀ᶠ n : ℕ in atTop, ∀ z,
    NormalScores n (p n) z → |(∑ i ∈ Finset.Icc 1 n, z i ^ 2) / n - 1| < t := by
  have hV : 0 < lawVariance (gaussianReal 0 1) := by rw [lawVariance_gaussian]; norm_num
  have hF : ∀ x, cdf (gaussianReal 0 1) x = Phi (lawScore (gaussianReal 0 1) x) := fun x => by
    rw [lawScore, lawMean_gaussian, lawVariance_gaussian]
    simp [Phi_eq, cdf_eq_real]
  obtain ⟨ω, hω⟩ := (plot_near (gaussian_moment_finite 0 1 2) hV hp hF ht).exists
  filter_upwards [hω, scores_bound_tendsto.eventually (gt_mem_nhds (show (1 : ℝ) < 1 + t by linarith)),
    eventually_ge_atTop 1] with n hn hb hn1 z hz
  obtain ⟨o, ho⟩ := exists_orderStats (List.ofFn (firsts n ω))
  have a := (hn o z ho hz).2
  have b := div_le_div_of_nonneg_right (hp.squares n z hn1 hz) (Nat.cast_nonneg (α := ℝ) n)
  rw [abs_lt]
  constructor <;> linarith

/-! ### Other observations -/

theorem normal_of_cdf {Q : Measure ℝ} [IsProbabilityMeasure Q] (hc : Continuous (cdf Q)) (m : ℝ) {s : ℝ} (hs : 0 < s)
    (hz : ∀ᵐ x ∂Q, cdf Q x = Phi ((x - m) / s)) : Q = gaussianReal m (s ^ 2).toNNReal := by
  have hm : Continuous fun x => Phi ((x - m) / s) := Phi_continuous.comp (by fun_prop)
  have hu : Q.map (fun x => Phi ((x - m) / s)) = unitLaw := by
    rw [← map_transform (P := Q) measurable_id hc fun x => ?_]
    · exact Measure.map_congr (hz.mono fun x hx => hx.symm)
    · rw [cdf_eq_real]; rfl
  refine Measure.eq_of_cdf Q _ ?_
  ext x
  rw [cdf_gaussian m hs]
  have e : Set.Iic x = (fun y => Phi ((y - m) / s)) ⁻¹' Set.Iic (Phi ((x - m) / s)) := by
    ext y
    simp only [Set.mem_Iic, Set.mem_preimage]
    rw [Phi_strictMono.le_iff_le, div_le_div_iff_of_pos_right hs]
    exact (sub_le_sub_iff_right m).symm
  rw [cdf_eq_real, e, ← map_measureReal_apply hm.measurable measurableSet_Iic, hu, ← cdf_eq_real, cdf_unitLaw]
  rw [min_eq_left (Phi_lt_one _).le, max_eq_right (Phi_pos _).le]

section

variable {Q : Measure ℝ} [IsProbabilityMeasure Q] (h2 : Integrable (fun x => |x| ^ 2) Q) (hV : 0 < lawVariance Q)
  (hc : Continuous (cdf Q))

include hV hc in
/-- For other observations the scores stay away from the standardised observations. -/
theorem plot_away (hp : Positions p) (hQ : ∀ m v, Q ≠ gaussianReal m v) : ∃ κ : ℝ, 0 < κ ∧ κ ≤ 1 ∧
    ∀ᵐ ω ∂seqLaw Q, ∀ᶠ n in atTop, ∀ o z, OrderStats (List.ofFn (firsts n ω)) o → NormalScores n (p n) z →
      κ ≤ (∑ i ∈ Finset.Icc 1 n, (z i - lawScore Q (o i)) ^ 2) / n := by
  set h : ℝ → ℝ := fun x => |cdf Q x - Phi (lawScore Q x)| with hh
  have hcont : Continuous h := (hc.sub (Phi_continuous.comp (by unfold lawScore; fun_prop))).abs
  have hb : ∀ x, h x ≤ 1 := fun x => by
    have a := cdf_nonneg Q x
    have b := cdf_le_one Q x
    have c := Phi_unit (lawScore Q x)
    exact abs_le.2 ⟨by linarith, by linarith⟩
  have hint : Integrable h Q := (integrable_const (1 : ℝ)).mono' hcont.aestronglyMeasurable (.of_forall fun x => by
    rw [Real.norm_eq_abs, abs_of_nonneg (abs_nonneg _)]
    exact hb x)
  have hg : 0 < ∫ x, h x ∂Q := by
    refine lt_of_le_of_ne (integral_nonneg fun x => abs_nonneg _) fun he => ?_
    have h3 := (integral_eq_zero_iff_of_nonneg (fun x => abs_nonneg _) hint).1 he.symm
    refine hQ _ _ (normal_of_cdf hc (lawMean Q) (Real.sqrt_pos.2 hV) ?_)
    filter_upwards [h3] with x hx
    have := abs_eq_zero.1 hx
    exact sub_eq_zero.1 this
  have hg1 : ∫ x, h x ∂Q ≤ 1 := by
    have := integral_mono hint (integrable_const (1 : ℝ)) hb
    simpa using this
  set g := ∫ x, h x ∂Q with hgdef
  refine ⟨(g / 4) ^ 2, by positivity, by nlinarith, ?_⟩
  filter_upwards [positions_settle hp hc, settles_integral hcont.measurable hint] with ω hq hl
  filter_upwards [hq (g / 4) (by positivity), hl.eventually (lt_mem_nhds (half_lt_self hg)), eventually_gt_atTop 0]
    with n hn hln hn0 o z ho hz
  have hn' : (0 : ℝ) < n := by exact_mod_cast hn0
  have hpt : ∀ i ∈ Finset.Icc 1 n, (g / 2) * h (o i) - 3 * (g / 4) ^ 2 ≤ (z i - lawScore Q (o i)) ^ 2 := fun i hi => by
    obtain ⟨a, b⟩ := Finset.mem_Icc.1 hi
    have h3 := hn o ho i a b
    rw [← hz i a b] at h3
    have h3 : |Phi (z i) - cdf Q (o i)| ≤ g / 4 := h3
    have h4 := Phi_close (z i) (lawScore Q (o i))
    have h5 := abs_sub_le (cdf Q (o i)) (Phi (z i)) (Phi (lawScore Q (o i)))
    rw [abs_sub_comm (cdf Q (o i)) (Phi (z i))] at h5
    have h6 : h (o i) ≤ g / 4 + |z i - lawScore Q (o i)| := by rw [hh]; dsimp only; linarith
    rw [← sq_abs (z i - lawScore Q (o i))]
    generalize |z i - lawScore Q (o i)| = d at *
    nlinarith [sq_nonneg (d - g / 4)]
  have := div_le_div_of_nonneg_right (Finset.sum_le_sum hpt) hn'.le
  refine le_trans ?_ this
  rw [Finset.sum_sub_distrib, Finset.sum_const, Nat.card_Icc, nsmul_eq_mul, Nat.add_sub_cancel, sub_div,
    mul_div_cancel_left₀ _ hn'.ne', ← Finset.mul_sum, mul_div_assoc]
  have hsum := mean_order ho h
  rw [List.length_ofFn] at hsum
  rw [hsum]
  have hln : g / 2 < ∫ x, h x ∂empiricalLaw (List.ofFn (firsts n ω)) := hln
  nlinarith

end

/-! ### The criteria -/

/-- The positions `(i - α) / (n + 1 - 2α)`. -/
theorem positions_shifted {α : ℝ} (h0 : 0 ≤ α) (h1 : α ≤ 1 / 2) : Positions (position α) where
  unit n i hi hi' := by
    have a : (1 : ℝ) ≤ i := by exact_mod_cast hi
    have b : (i : ℝ) ≤ n := by exact_mod_cast hi'
    exact ⟨div_pos (by linarith) (by linarith), (div_lt_one (by linarith)).2 (by linarith)⟩
  symm n i hi hi' := by
    have a : (1 : ℝ) ≤ i := by exact_mod_cast hi
    have b : (i : ℝ) ≤ n := by exact_mod_cast hi'
    rw [position, position, Nat.cast_sub (by omega)]
    have : (n : ℝ) + 1 - 2 * α ≠ 0 := by linarith
    push_cast
    rw [eq_sub_iff_add_eq, ← add_div, div_eq_one_iff_eq this]
    ring
  near n i hi hi' := by
    have hk0 : (1 : ℝ) ≤ i := by exact_mod_cast hi
    have hk' : (i : ℝ) ≤ n := by exact_mod_cast hi'
    rw [position]
    generalize (n : ℝ) = n at *
    generalize (i : ℝ) = k at *
    have hn : 0 < n := by linarith
    have hN : 0 < n + 1 - 2 * α := by linarith
    rw [div_sub_div _ _ hN.ne' hn.ne', abs_div, abs_of_pos (mul_pos hN hn), div_le_div_iff₀ (by positivity) hn, one_mul]
    have : |(k - α) * n - (n + 1 - 2 * α) * (k - 1 / 2)| ≤ n + 1 - 2 * α := by
      have e : (k - α) * n - (n + 1 - 2 * α) * (k - 1 / 2) = (1 - 2 * α) * (n / 2 - k + 1 / 2) := by ring
      rw [e, abs_mul, abs_of_nonneg (by linarith)]
      have h3 : |n / 2 - k + 1 / 2| ≤ n := abs_le.2 ⟨by linarith, by linarith⟩
      have h4 : (1 - 2 * α) * |n / 2 - k + 1 / 2| ≤ 1 * n := mul_le_mul (by linarith) h3 (abs_nonneg _) zero_le_one
      linarith
    exact mul_le_mul_of_nonneg_right this hn.le
  ascend n hn := ⟨position_mono h1, position_lt h1 (by omega) (by omega)⟩
  squares n z hn hz := by
    have := scores_sumsq h0 h1 hn hz
    have : 0 ≤ Real.log ((n : ℝ) + 1) := Real.log_nonneg (by linarith [Nat.cast_nonneg (α := ℝ) n])
    linarith

/-- Filliben's positions. -/
noncomputable def fillibenPosition (n i : ℕ) : ℝ :=
  if i = n then (1 / 2) ^ (1 / (n : ℝ)) else if i = 1 then 1 - (1 / 2) ^ (1 / (n : ℝ)) else position 0.3175 n i

theorem half_root {n : ℕ} (hn : 1 ≤ n) : 0 < ((1 : ℝ) / 2) ^ (1 / (n : ℝ)) ∧
    (((1 : ℝ) / 2) ^ (1 / (n : ℝ))) ^ n = 1 / 2 ∧ 1 / (2 * (n : ℝ)) ≤ 1 - ((1 : ℝ) / 2) ^ (1 / (n : ℝ)) ∧
    1 - ((1 : ℝ) / 2) ^ (1 / (n : ℝ)) ≤ 1 / n := by
  have hn' : (1 : ℝ) ≤ n := by exact_mod_cast hn
  have h0 : 0 < ((1 : ℝ) / 2) ^ (1 / (n : ℝ)) := Real.rpow_pos_of_pos (by norm_num) _
  have hp : (((1 : ℝ) / 2) ^ (1 / (n : ℝ))) ^ n = 1 / 2 := by
    rw [one_div (n : ℝ), Real.rpow_inv_natCast_pow (by norm_num) (by omega)]
  refine ⟨h0, hp, ?_, ?_⟩
  · have hb := one_add_mul_le_pow (a := -(1 / (2 * (n : ℝ)))) (by
      have : 1 / (2 * (n : ℝ)) ≤ 1 := (div_le_one (by positivity)).2 (by linarith)
      linarith) n
    have e : 1 + (n : ℝ) * -(1 / (2 * (n : ℝ))) = 1 / 2 := by field_simp; ring
    rw [e, ← hp] at hb
    have h3 : 0 ≤ 1 + -(1 / (2 * (n : ℝ))) := by
      have : 1 / (2 * (n : ℝ)) ≤ 1 := (div_le_one (by positivity)).2 (by linarith)
      linarith
    have := (pow_le_pow_iff_left₀ h0.le h3 (by omega)).1 hb
    linarith
  · generalize ((1 : ℝ) / 2) ^ (1 / (n : ℝ)) = r at *
    by_contra hc
    push Not at hc
    have h3 : r ≤ Real.exp (-(1 / n)) := by linarith [Real.add_one_le_exp (-(1 / (n : ℝ)))]
    have h4 := pow_le_pow_left₀ h0.le h3 n
    rw [hp, ← Real.exp_nat_mul] at h4
    have e : (n : ℝ) * -(1 / n) = -1 := by field_simp
    rw [e] at h4
    have h5 := Real.exp_one_gt_d9
    rw [Real.exp_neg, ← one_div, div_le_div_iff₀ (by norm_num) (by positivity)] at h4
    linarith

theorem filliben_spec {n : ℕ} (hn : 2 ≤ n) : FillibenPositions n (fillibenPosition n) := by
  obtain ⟨a, b, c, d⟩ := half_root (n := n) (by omega)
  have hn' : (1 : ℝ) ≤ n := by exact_mod_cast (by omega : 1 ≤ n)
  have e1 : fillibenPosition n 1 = 1 - (1 / 2) ^ (1 / (n : ℝ)) := by
    rw [fillibenPosition, if_neg (by omega), if_pos rfl]
  have e2 : fillibenPosition n n = (1 / 2) ^ (1 / (n : ℝ)) := by rw [fillibenPosition, if_pos rfl]
  refine ⟨?_, ?_, fun i h1 h2 => ?_⟩
  · rw [e1]
    refine ⟨le_trans (by positivity) c, by linarith, ?_⟩
    rw [sub_sub_cancel, b]
  · rw [e2]
    exact ⟨a.le, b⟩
  · rw [fillibenPosition, if_neg (by omega), if_neg (by omega), position]
    norm_num
    ring_nf

theorem filliben_one : fillibenPosition 1 1 = 1 / 2 := by
  rw [fillibenPosition, if_pos rfl]
  norm_num

theorem positions_filliben : Positions fillibenPosition := by
  have hsh := positions_shifted (α := 0.3175) (by norm_num) (by norm_num)
  have hlast : ∀ n, fillibenPosition n n = (1 / 2) ^ (1 / (n : ℝ)) := fun n => by rw [fillibenPosition, if_pos rfl]
  have hfirst : ∀ n, 2 ≤ n → fillibenPosition n 1 = 1 - (1 / 2) ^ (1 / (n : ℝ)) := fun n hn => by
    rw [fillibenPosition, if_neg (by omega), if_pos rfl]
  have hmid : ∀ n i, 1 < i → i < n → fillibenPosition n i = position 0.3175 n i := fun n i h1 h2 => by
    rw [fillibenPosition, if_neg (by omega), if_neg (by omega)]
  have hcases : ∀ n i, 1 ≤ i → i ≤ n → i = n ∨ (i = 1 ∧ 2 ≤ n) ∨ (1 < i ∧ i < n) := fun n i a b => by omega
  refine ⟨fun n i hi hi' => ?_, fun n i hi hi' => ?_, fun n i hi hi' => ?_, fun n hn => filliben_mono (filliben_spec hn) hn,
    fun n z hn hz => ?_⟩
  · obtain ⟨a, b, c, d⟩ := half_root (n := n) (by omega)
    have hn' : (0 : ℝ) < n := by exact_mod_cast (by omega : 0 < n)
    have c' : 0 < 1 / (2 * (n : ℝ)) := by positivity
    rcases hcases n i hi hi' with rfl | ⟨rfl, h⟩ | ⟨h1, h2⟩
    · rw [hlast]; exact ⟨a, by linarith⟩
    · rw [hfirst n h]; exact ⟨by linarith, by linarith⟩
    · rw [hmid n i h1 h2]; exact hsh.unit n i hi hi'
  · rcases hcases n i hi hi' with rfl | ⟨rfl, h⟩ | ⟨h1, h2⟩
    · rw [show i + 1 - i = 1 by omega]
      rcases Nat.lt_or_ge i 2 with h | h
      · obtain rfl : i = 1 := by omega
        rw [filliben_one]; norm_num
      · rw [hfirst i h, hlast]
    · rw [show n + 1 - 1 = n by omega, hfirst n h, hlast]; ring
    · rw [hmid n i h1 h2, hmid n _ (by omega) (by omega)]; exact hsh.symm n i hi hi'
  · obtain ⟨a, b, c, d⟩ := half_root (n := n) (by omega)
    have hn' : (0 : ℝ) < n := by exact_mod_cast (by omega : 0 < n)
    have hhalf : 1 / (2 * (n : ℝ)) = 1 / n / 2 := by field_simp
    rw [hhalf] at c
    have hpos : 0 < 1 / (n : ℝ) := by positivity
    rcases hcases n i hi hi' with rfl | ⟨rfl, h⟩ | ⟨h1, h2⟩
    · rw [hlast]
      have e : ((i : ℝ) - 1 / 2) / i = 1 - 1 / i / 2 := by field_simp
      rw [e]
      exact abs_le.2 ⟨by linarith, by linarith⟩
    · rw [hfirst n h]
      have e : (((1 : ℕ) : ℝ) - 1 / 2) / n = 1 / n / 2 := by push_cast; field_simp; norm_num
      rw [e]
      exact abs_le.2 ⟨by linarith, by linarith⟩
    · rw [hmid n i h1 h2]; exact hsh.near n i hi hi'
  · obtain ⟨a, b, c, d⟩ := half_root hn
    have hn' : (1 : ℝ) ≤ n := by exact_mod_cast hn
    have hlog : 0 ≤ Real.log (n : ℝ) := Real.log_nonneg hn'
    have hlog' : Real.log (n : ℝ) ≤ Real.log (n + 1) := Real.log_le_log (by linarith) (by linarith)
    obtain ⟨w, hw⟩ : ∃ w, NormalScores n (position 0.3175 n) w :=
      ⟨fun i => PhiInv (position 0.3175 n i), fun i hi hi' => Phi_PhiInv (hsh.unit n i hi hi').1 (hsh.unit n i hi hi').2⟩
    have hws := scores_sumsq (α := 0.3175) (by norm_num) (by norm_num) hn hw
    have htop : ∀ x : ℝ, Phi x = (1 / 2) ^ (1 / (n : ℝ)) → x ^ 2 ≤ 2 * Real.log n := fun x hx => by
      rcases le_total 0 x with h | h
      · exact score_tail h (by linarith) (by rw [hx]; exact c)
      · rcases Nat.lt_or_ge n 2 with h2 | h2
        · obtain rfl : n = 1 := by omega
          have : Phi x = Phi 0 := by rw [hx, Phi_zero]; norm_num
          rw [Phi_strictMono.injective this]; simp
        · have h3 : Phi x ≤ 1 / 2 := by rw [← Phi_zero]; exact Phi_strictMono.monotone h
          have h4 : 1 - 1 / (n : ℝ) ≤ Phi x := by rw [hx]; linarith
          have h5 : (2 : ℝ) ≤ n := by exact_mod_cast h2
          have h6 : 1 / (n : ℝ) ≤ 1 / 2 := one_div_le_one_div_of_le (by norm_num) h5
          have : Phi x = Phi 0 := by rw [Phi_zero]; linarith
          rw [Phi_strictMono.injective this]
          simpa using hlog
    have hterm : ∀ i ∈ Finset.Icc 1 n, z i ^ 2 ≤ w i ^ 2 + ((if i = n then 2 * Real.log n else 0) +
        (if i = 1 then 2 * Real.log n else 0)) := fun i hi => by
      obtain ⟨h1, h2⟩ := Finset.mem_Icc.1 hi
      have hzi : Phi (z i) = fillibenPosition n i := hz i h1 h2
      have hw0 := sq_nonneg (w i)
      rcases hcases n i h1 h2 with rfl | ⟨rfl, h⟩ | ⟨h3, h4⟩
      · rw [if_pos rfl]
        have := htop (z i) (by rw [hzi, hlast])
        split_ifs <;> linarith
      · rw [if_neg (by omega), if_pos rfl]
        have := htop (-z 1) (by rw [Phi_neg, hzi, hfirst n h, sub_sub_cancel])
        rw [neg_sq] at this
        linarith
      · rw [if_neg (by omega), if_neg (by omega), add_zero, add_zero]
        have : z i = w i := Phi_strictMono.injective (by
          rw [hzi, hmid n i h3 h4]; exact (hw i h1 h2).symm)
        rw [this]
    have hsum := Finset.sum_le_sum hterm
    rw [Finset.sum_add_distrib, Finset.sum_add_distrib, Finset.sum_ite_eq' , Finset.sum_ite_eq',
      if_pos (Finset.mem_Icc.2 ⟨hn, le_rfl⟩), if_pos (Finset.mem_Icc.2 ⟨le_rfl, hn⟩)] at hsum
    linarith

/-- Without equal observations the averaged positions are the positions. -/
theorem tiedAverage_distinct {xs : List ℝ} (hd : xs.Nodup) {o q : ℕ → ℝ} (ho : OrderStats xs o) {i : ℕ} (h1 : 1 ≤ i)
    (h2 : i ≤ xs.length) : tiedAverage xs.length o q i = q i := by
  have hs := sort_strict hd
  rw [sort_points ho, List.pairwise_iff_getElem] at hs
  have hlt : ∀ a b, 1 ≤ a → a < b → b ≤ xs.length → o a < o b := fun a b ha hab hb => by
    have := hs (a - 1) (b - 1) (by rw [length_points]; omega) (by rw [length_points]; omega) (by omega)
    simp only [points, List.getElem_map, List.getElem_range] at this
    rwa [Nat.sub_add_cancel ha, Nat.sub_add_cancel (by omega)] at this
  have e : (Finset.Icc 1 xs.length).filter (fun j => o j = o i) = {i} := by
    ext j
    simp only [Finset.mem_filter, Finset.mem_Icc, Finset.mem_singleton]
    constructor
    · rintro ⟨⟨a, b⟩, c⟩
      rcases lt_trichotomy j i with h | h | h
      · exact absurd c (hlt j i a h h2).ne
      · exact h
      · exact absurd c (hlt i j h1 h b).ne'
    · rintro rfl
      exact ⟨⟨h1, h2⟩, rfl⟩
  rw [tiedAverage, e]
  simp

/-- Observations of a continuous law are distinct. -/
theorem seq_nodup {Q : Measure ℝ} [IsProbabilityMeasure Q] (hc : Continuous (cdf Q)) :
    ∀ᵐ ω ∂seqLaw Q, ∀ n, (List.ofFn (firsts n ω)).Nodup := by
  have hat : NullSingletonClass Q := ⟨fun a => by
    rw [← measure_cdf Q, StieltjesFunction.measure_singleton, leftLim_eq_of_tendsto
      (hc.continuousAt.tendsto.mono_left nhdsWithin_le_nhds), sub_self, ENNReal.ofReal_zero]⟩
  refine ae_all_iff.2 fun n => ?_
  have h : ∀ᵐ x ∂((seqLaw Q).map (firsts n)), Function.Injective x := by
    rw [map_firsts]
    exact ae_injective
  filter_upwards [ae_of_ae_map (measurable_firsts n).aemeasurable h] with ω hω
  exact List.nodup_ofFn.2 hω

/-- A criterion whose value, when no two observations are equal, is an increasing function of the correlation of the normal
probability plot. -/
structure PlotCriterion (s : NormStat) (p : ℕ → ℕ → ℝ) (φ : ℝ → ℝ) : Prop where
  value : ∀ xs o z, 2 ≤ xs.length → xs.Nodup → OrderStats xs o → NormalScores xs.length (p xs.length) z →
    s.value scipyNorm xs = .ok (some (φ (correlation xs.length z o)))
  mono : ∀ a b, 0 ≤ a → a < b → φ a < φ b
  positions : Positions p

theorem plot_consistent {s : NormStat} {φ : ℝ → ℝ} (hs : PlotCriterion s p φ) (code : String)
    (params : Option (List (String × ℝ))) (halt : (s.statistic scipyNorm code params).alternative ≠ .right)
    {Q P : Measure ℝ} [IsProbabilityMeasure Q] [IsProbabilityMeasure P] (h2 : Integrable (fun x => |x| ^ 2) Q)
    (hc : Continuous (cdf Q)) (hQ : ∀ m v, Q ≠ gaussianReal m v) (hP2 : Integrable (fun x => |x| ^ 2) P)
    (hPV : 0 < lawVariance P) (hF : ∀ x, cdf P x = Phi (lawScore P x)) :
    Consistent (s.statistic scipyNorm code params) Q P := by
  have hV := (lawVariance_pos h2).2 fun c hc => hQ c 0 (by rw [hc, gaussianReal_zero_var])
  obtain ⟨κ, hκ, hκ1, haway⟩ := plot_away hV hc hs.positions hQ
  have hB : ∀ z : ℕ → ℕ → ℝ, (∀ n, NormalScores n (p n) (z n)) →
      Tendsto (fun n => (∑ i ∈ Finset.Icc 1 n, z n i ^ 2) / n) atTop (𝓝 1) := fun z hz => by
    rw [Metric.tendsto_nhds]
    intro ε hε
    filter_upwards [scores_square hs.positions hε] with n hn
    rw [Real.dist_eq]
    exact hn _ (hz n)
  have hPc : Continuous (cdf P) := by
    have : (cdf P : ℝ → ℝ) = fun x => Phi (lawScore P x) := funext hF
    rw [this]
    exact Phi_continuous.comp (by unfold lawScore; fun_prop)
  choose z hz using fun n => scores_exist hs.positions n
  have hB := hB z hz
  refine limit_consistent (normal_meas _ code params) (t := fun _ => φ (1 - κ / 4)) (Or.inr ⟨halt, ?_, ?_⟩)
  · filter_upwards [haway, settles_stdDev h2, settles_integral (lawScore_measurable.pow_const 2) (lawScore_integrable h2 hV),
      eventually_varies h2 hV, seq_nodup hc] with ω ha hd hE hvar hnd
    rw [lawScore_integral hV] at hE
    have hσ := Real.sqrt_pos.2 hV
    have hU : Tendsto (fun n => ((∑ i ∈ Finset.Icc 1 n, z n i ^ 2) / n +
        (∫ x, lawScore Q x ^ 2 ∂empiricalLaw (List.ofFn (firsts n ω))) - κ) / 2 *
          (√(lawVariance Q) / stdDev (List.ofFn (firsts n ω))) / √((∑ i ∈ Finset.Icc 1 n, z n i ^ 2) / n)) atTop
        (𝓝 ((1 + 1 - κ) / 2 * (√(lawVariance Q) / √(lawVariance Q)) / √1)) :=
      ((((hB.add hE).sub_const κ).div_const 2).mul (tendsto_const_nhds.div hd hσ.ne')).div hB.sqrt (by simp)
    rw [div_self hσ.ne', Real.sqrt_one, div_one, mul_one] at hU
    filter_upwards [ha, hU.eventually (gt_mem_nhds (show (1 + 1 - κ) / 2 < 1 - κ / 4 by linarith)), hvar,
      hd.eventually (lt_mem_nhds hσ), eventually_ge_atTop 2] with n hn hlt hv hdp hn2
    obtain ⟨o, ho⟩ := exists_orderStats (List.ofFn (firsts n ω))
    have hlen : (List.ofFn (firsts n ω)).length = n := List.length_ofFn
    have hzn : NormalScores (List.ofFn (firsts n ω)).length (p (List.ofFn (firsts n ω)).length) (z n) := by
      rw [hlen]; exact hz n
    refine ⟨_, normal_value (hs.value _ o (z n) (by rw [hlen]; exact hn2) (hnd n) ho hzn), hs.mono _ _ ?_ ?_⟩
    · exact (plot_range ho hv hzn (by rw [hlen]; exact (hs.positions.ascend n hn2).1)
        (by rw [hlen]; exact (hs.positions.ascend n hn2).2)).1
    · rw [correlation_form hs.positions ho hzn (by omega) (lawMean Q) hσ hdp, hlen]
      refine lt_of_le_of_lt ?_ hlt
      have hn' : (0 : ℝ) < n := by exact_mod_cast (by omega : 0 < n)
      refine div_le_div_of_nonneg_right (mul_le_mul_of_nonneg_right ?_ (by positivity)) (Real.sqrt_nonneg _)
      have h3 := hn o (z n) ho (hz n)
      have h4 := mean_order ho fun x => lawScore Q x ^ 2
      rw [hlen] at h4
      rw [← h4]
      have e : ∑ i ∈ Finset.Icc 1 n, (z n i - lawScore Q (o i)) ^ 2 = ∑ i ∈ Finset.Icc 1 n, z n i ^ 2 +
          ∑ i ∈ Finset.Icc 1 n, lawScore Q (o i) ^ 2 - 2 * ∑ i ∈ Finset.Icc 1 n, z n i * lawScore Q (o i) := by
        rw [Finset.mul_sum, ← Finset.sum_add_distrib, ← Finset.sum_sub_distrib]
        exact Finset.sum_congr rfl fun i _ => by ring
      rw [e, le_div_iff₀ hn'] at h3
      change (∑ i ∈ Finset.Icc 1 n, z n i * lawScore Q (o i)) / n ≤ _
      rw [← add_div, div_le_iff₀ hn']
      generalize ∑ i ∈ Finset.Icc 1 n, z n i * lawScore Q (o i) = A at *
      generalize ∑ i ∈ Finset.Icc 1 n, z n i ^ 2 = B at *
      generalize ∑ i ∈ Finset.Icc 1 n, lawScore Q (o i) ^ 2 = E at *
      have : (B + E) / n * n = B + E := div_mul_cancel₀ _ hn'.ne'
      linarith
  · filter_upwards [plot_near hP2 hPV hs.positions hF (t := κ / 8) (by linarith), settles_stdDev hP2,
      seq_nodup hPc] with ω ha hd hnd
    have hσ := Real.sqrt_pos.2 hPV
    have hU : Tendsto (fun n => (1 - κ / 8) * (√(lawVariance P) / stdDev (List.ofFn (firsts n ω))) /
          √((∑ i ∈ Finset.Icc 1 n, z n i ^ 2) / n)) atTop
        (𝓝 ((1 - κ / 8) * (√(lawVariance P) / √(lawVariance P)) / √1)) :=
      ((tendsto_const_nhds.div hd hσ.ne').const_mul _).div hB.sqrt (by simp)
    rw [div_self hσ.ne', Real.sqrt_one, div_one, mul_one] at hU
    filter_upwards [ha, hU.eventually (lt_mem_nhds (show 1 - κ / 4 < 1 - κ / 8 by linarith)),
      hd.eventually (lt_mem_nhds hσ), eventually_ge_atTop 2] with n hn hlt hdp hn2
    obtain ⟨o, ho⟩ := exists_orderStats (List.ofFn (firsts n ω))
    have hlen : (List.ofFn (firsts n ω)).length = n := List.length_ofFn
    have hzn : NormalScores (List.ofFn (firsts n ω)).length (p (List.ofFn (firsts n ω)).length) (z n) := by
      rw [hlen]; exact hz n
    refine ⟨_, normal_value (hs.value _ o (z n) (by rw [hlen]; exact hn2) (hnd n) ho hzn), hs.mono _ _ (by linarith) ?_⟩
    rw [correlation_form hs.positions ho hzn (by omega) (lawMean P) hσ hdp, hlen]
    refine lt_of_lt_of_le hlt ?_
    exact div_le_div_of_nonneg_right (mul_le_mul_of_nonneg_right (hn o (z n) ho (hz n)).1.le (by positivity))
      (Real.sqrt_nonneg _)

theorem plot_against_normal {s : NormStat} {φ : ℝ → ℝ} (hs : PlotCriterion s p φ) (code : String)
    (params : Option (List (String × ℝ))) (halt : (s.statistic scipyNorm code params).alternative ≠ .right)
    (classes : List GeneratorClass) (hp : classes.Perm generatorClasses) (m : ℝ) {v : ℝ} (hv : 0 < v) :
    ∃ G, (Gen.Family.normal m v).simulator classes = .ok G ∧
      (∀ n, G.generate n = .ok (iid n (gaussianReal m v.toNNReal))) ∧
      ∀ Q : Measure ℝ, IsProbabilityMeasure Q → Integrable (fun x => |x| ^ 2) Q → Continuous (cdf Q) →
        (∀ m' v', Q ≠ gaussianReal m' v') →
        Consistent (s.statistic scipyNorm code params) Q (gaussianReal m v.toNNReal) := by
  refine with_normal hp m hv fun Q _ h2 hc hQ => ?_
  refine plot_consistent hs code params halt h2 hc hQ (gaussian_moment_finite m v.toNNReal 2) (gaussian_variance_pos m hv)
    fun x => ?_
  have := cdf_gaussian m (Real.sqrt_pos.2 hv) x
  rw [Real.sq_sqrt hv.le] at this
  rw [this, lawScore, lawMean_gaussian, lawVariance_gaussian, Real.coe_toNNReal _ hv.le]

variable (code : String) (params : Option (List (String × ℝ))) (classes : List GeneratorClass)
  (hp : classes.Perm generatorClasses) (m : ℝ) {v : ℝ} (hv : 0 < v)

include hp hv in
/-- **C137, Looney-Gulledge**: every continuous law with a finite variance that is not a normal law is rejected in the long
run. -/
theorem C137_looneyGulledge : ∃ G, (Gen.Family.normal m v).simulator classes = .ok G ∧
    (∀ n, G.generate n = .ok (iid n (gaussianReal m v.toNNReal))) ∧
    ∀ Q : Measure ℝ, IsProbabilityMeasure Q → Integrable (fun x => |x| ^ 2) Q → Continuous (cdf Q) →
      (∀ m' v', Q ≠ gaussianReal m' v') →
      Consistent (NormStat.looneyGulledge.statistic scipyNorm code params) Q (gaussianReal m v.toNNReal) :=
  plot_against_normal (p := position (3 / 8)) (φ := id) ⟨fun _ _ _ hn _ ho hz => C114_looneyGulledge hn ho hz,
    fun _ _ _ h => h, positions_shifted (by norm_num) (by norm_num)⟩ code params (fun h => by cases h) classes hp m hv

include hp hv in
/-- **C137, Ryan-Joiner**, with positions of any of the three kinds, averaged over equal observations or not. -/
theorem C137_ryanJoiner (weighted : Bool) (α : RjAlpha) : ∃ G, (Gen.Family.normal m v).simulator classes = .ok G ∧
    (∀ n, G.generate n = .ok (iid n (gaussianReal m v.toNNReal))) ∧
    ∀ Q : Measure ℝ, IsProbabilityMeasure Q → Integrable (fun x => |x| ^ 2) Q → Continuous (cdf Q) →
      (∀ m' v', Q ≠ gaussianReal m' v') →
      Consistent ((NormStat.ryanJoiner weighted α).statistic scipyNorm code params) Q (gaussianReal m v.toNNReal) := by
  refine plot_against_normal (p := position α.val) (φ := id) ⟨fun xs o z hn hd ho hz => ?_, fun _ _ _ h => h,
    positions_shifted (by cases α <;> norm_num [RjAlpha.val]) (RjAlpha.val_le α)⟩ code params (fun h => by cases h)
    classes hp m hv
  cases weighted
  · exact C114_ryanJoiner hn ho α hz
  · refine C114_ryanJoiner_weighted hn ho α fun i h1 h2 => ?_
    rw [hz i h1 h2, tiedAverage_distinct hd ho h1 h2]

include hp hv in
/-- **C137, Shapiro-Francia**. -/
theorem C137_shapiroFrancia : ∃ G, (Gen.Family.normal m v).simulator classes = .ok G ∧
    (∀ n, G.generate n = .ok (iid n (gaussianReal m v.toNNReal))) ∧
    ∀ Q : Measure ℝ, IsProbabilityMeasure Q → Integrable (fun x => |x| ^ 2) Q → Continuous (cdf Q) →
      (∀ m' v', Q ≠ gaussianReal m' v') →
      Consistent (NormStat.shapiroFrancia.statistic scipyNorm code params) Q (gaussianReal m v.toNNReal) :=
  plot_against_normal (p := position (3 / 8)) (φ := fun x => x ^ 2) ⟨fun _ _ _ _ _ ho hz => C114_shapiroFrancia ho hz,
    fun a b ha h => pow_lt_pow_left₀ h ha two_ne_zero, positions_shifted (by norm_num) (by norm_num)⟩ code params
    (fun h => by cases h) classes hp m hv

include hp hv in
/-- **C137, Filliben**. -/
theorem C137_filliben : ∃ G, (Gen.Family.normal m v).simulator classes = .ok G ∧
    (∀ n, G.generate n = .ok (iid n (gaussianReal m v.toNNReal))) ∧
    ∀ Q : Measure ℝ, IsProbabilityMeasure Q → Integrable (fun x => |x| ^ 2) Q → Continuous (cdf Q) →
      (∀ m' v', Q ≠ gaussianReal m' v') →
      Consistent (NormStat.filli.statistic scipyNorm code params) Q (gaussianReal m v.toNNReal) :=
  plot_against_normal (p := fillibenPosition) (φ := id) ⟨fun _ _ _ hn _ ho hz =>
    C114_filliben hn ho (filliben_spec (by omega)) hz, fun _ _ _ h => h, positions_filliben⟩ code params
    (fun h => by cases h) classes hp m hv

/-- Exponential observations are told from normal ones by all four criteria. -/
example : Consistent (NormStat.shapiroFrancia.statistic scipyNorm "SF" none) (expMeasure 1) (gaussianReal 2 (Real.toNNReal 5)) ∧
    Consistent ((NormStat.ryanJoiner true .half).statistic scipyNorm "RJ" none) (expMeasure 1)
      (gaussianReal 2 (Real.toNNReal 5)) ∧
    Consistent (NormStat.looneyGulledge.statistic scipyNorm "LG" none) (expMeasure 1) (gaussianReal 2 (Real.toNNReal 5)) ∧
    Consistent (NormStat.filli.statistic scipyNorm "FILLI" none) (expMeasure 1) (gaussianReal 2 (Real.toNNReal 5)) := by
  have hpr := isProbabilityMeasure_expMeasure one_pos
  have h2 : Integrable (fun x => |x| ^ 2) (expMeasure 1) := by simpa using exp_integrable_sq one_pos
  have hne : ∀ m' v', expMeasure 1 ≠ gaussianReal m' v' := fun m' v' e => by
    by_cases hv : v' = 0
    · subst hv
      rw [gaussianReal_zero_var] at e
      have hV : 0 < lawVariance (expMeasure 1) := by
        have := cvSquared_exp one_pos
        rw [cvSquared, lawMean_exp one_pos] at this
        rw [lawVariance, lawMean_exp one_pos]
        have h3 : ∫ x, (x - 1 / 1) ^ 2 ∂expMeasure 1 = 1 := by simpa using this
        rw [h3]
        exact one_pos
      exact (lawVariance_pos h2).1 hV m' e
    · have h1 : (expMeasure 1).real (Set.Iic 0) = 0 := by
        rw [← cdf_eq_real, cdf_expMeasure_eq one_pos]
        simp
      have h3 : 0 < cdf (gaussianReal m' v') 0 := by
        have hv0 : (0 : ℝ) < v' := by exact_mod_cast pos_iff_ne_zero.2 hv
        have := cdf_gaussian m' (Real.sqrt_pos.2 hv0) 0
        rw [Real.sq_sqrt hv0.le, Real.toNNReal_coe] at this
        rw [this]
        exact Phi_pos _
      rw [cdf_eq_real, ← e, h1] at h3
      exact lt_irrefl _ h3
  obtain ⟨_, _, _, a⟩ := C137_shapiroFrancia "SF" none _ (List.Perm.refl _) 2 (v := 5) (by norm_num)
  obtain ⟨_, _, _, b⟩ := C137_ryanJoiner "RJ" none _ (List.Perm.refl _) 2 (v := 5) (by norm_num) true .half
  obtain ⟨_, _, _, c⟩ := C137_looneyGulledge "LG" none _ (List.Perm.refl _) 2 (v := 5) (by norm_num)
  obtain ⟨_, _, _, d⟩ := C137_filliben "FILLI" none _ (List.Perm.refl _) 2 (v := 5) (by norm_num)
  exact ⟨a _ hpr h2 (exp_continuous one_pos) hne, b _ hpr h2 (exp_continuous one_pos) hne,
    c _ hpr h2 (exp_continuous one_pos) hne, d _ hpr h2 (exp_continuous one_pos) hne⟩

end Pysatl.Props
