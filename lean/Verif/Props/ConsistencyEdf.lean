import Verif.Lemmas.EdfDeviation
import Verif.Props.Consistency
import Verif.Props.CalibrationOther

/-! # C135: the power of the criteria built on the empirical distribution function -/

namespace Pysatl.Props

open Pysatl.Decision Pysatl.Resolver Pysatl.Spec Pysatl.Edf Pysatl.Graph Pysatl.Gen
open MeasureTheory ProbabilityTheory Filter Topology

/-- The differences `cdf Q x - F x` that the statistic takes account of. -/
def EdfStat.Sees (e : EdfStat) (δ z : ℝ) : Prop :=
  match e with
  | .ks .right => δ ≤ z
  | .ks .left => δ ≤ -z
  | .ks .twoTailed | .cvm | .ad | .kuiper | .watson => δ ≤ |z|
  | _ => False

/-- A value that a deviation of `δ` guarantees for samples of size `n`. -/
noncomputable def EdfStat.floor (e : EdfStat) (n : ℕ) (δ : ℝ) : ℝ :=
  match e with
  | .cvm | .ad | .watson => n * (δ ^ 3 / 24)
  | _ => δ

theorem EdfStat.Sees.abs {e : EdfStat} {δ z : ℝ} (h : e.Sees δ z) : δ ≤ |z| := by
  unfold Sees at h
  split at h
  · exact h.trans (le_abs_self _)
  · exact h.trans (neg_le_abs _)
  all_goals first | exact h | exact h.elim

theorem EdfStat.Sees.near {e : EdfStat} {δ z z' : ℝ} (h : e.Sees δ z) (hz : |z' - z| ≤ δ / 2) : e.Sees (δ / 2) z' := by
  have h1 := abs_le.1 hz
  have h2 : |z| ≤ |z'| + |z' - z| := by
    have := abs_sub_abs_le_abs_sub z z'
    rw [abs_sub_comm] at this
    linarith
  unfold Sees at h ⊢
  split at h <;> first | linarith | exact h.elim

section

variable {F : ℝ → ℝ} (hc : Continuous F) (hm : Monotone F) (h01 : ∀ x, 0 ≤ F x ∧ F x ≤ 1)
include hm h01 hc

/-- A deviation at `x₀` makes the statistic at least `floor`. -/
theorem edf_far {e : EdfStat} {xs : List ℝ} (hne : xs ≠ []) (hin : e = .ad → ∀ x ∈ xs, 0 < F x ∧ F x < 1) {x₀ δ : ℝ} (hδ : 0 ≤ δ)
    (h : e.Sees δ (fracLe xs x₀ - F x₀)) : ∃ d, e.value F xs = .ok d ∧ e.floor xs.length δ ≤ d := by
  obtain ⟨d, p, m, hd, hp, hm', ld, lp, lm, -⟩ := C55_sup_distance hc hm h01 hne
  have ha := h.abs
  match e with
  | .ks .right => exact ⟨p, hp, le_trans h (lp.1 ⟨x₀, rfl⟩)⟩
  | .ks .left =>
    refine ⟨m, hm', le_trans (show δ ≤ -(fracLe xs x₀ - F x₀) from h) ?_⟩
    have := lm.1 ⟨x₀, rfl⟩
    simp only at this
    linarith
  | .ks .twoTailed => exact ⟨d, hd, le_trans ha (ld.1 ⟨x₀, rfl⟩)⟩
  | .cvm => exact ⟨_, rfl, cvm_deviation hm h01 hne hδ ha⟩
  | .ad =>
    refine ⟨_, rfl, le_trans (cvm_deviation hm h01 hne hδ ha) ?_⟩
    have h1 := (C120_cvm hm hne (hin rfl)).1
    have h2 := cvm_deviation hm h01 hne hδ ha
    have h3 : (0 : ℝ) ≤ xs.length * (δ ^ 3 / 24) := by positivity
    linarith
  | .kuiper =>
    obtain ⟨v, d', _, _, hv, hd', _, _, _, _, _, h1, _⟩ := C58_kuiper hm h01 hne
    rw [hd] at hd'
    cases hd'
    exact ⟨v, hv, le_trans (le_trans ha (ld.1 ⟨x₀, rfl⟩)) h1⟩
  | .watson => exact ⟨_, rfl, watson_deviation hm h01 hne hδ ha⟩

/-- A Kolmogorov-Smirnov distance beyond `δ` makes the Cramer-von Mises statistic large. -/
theorem ks_cvm {xs : List ℝ} (hne : xs ≠ []) {δ d : ℝ} (hδ : 0 ≤ δ) (hd : ksOf .twoTailed F xs = .ok d) (h : δ < d) :
    xs.length * (δ ^ 3 / 24) ≤ cvmOf F xs := by
  obtain ⟨d', p, m, hd', hp, hm', ld, -⟩ := C55_sup_distance hc hm h01 hne
  rw [hd] at hd'
  cases hd'
  obtain ⟨_, ⟨x₀, rfl⟩, hx⟩ := (lt_isLUB_iff ld).1 h
  exact cvm_deviation hm h01 hne hδ hx.le

/-- Unless the Cramer-von Mises statistic (or the statistic itself) is large, the statistic stays below `floor`. -/
theorem edf_near {e : EdfStat} {xs : List ℝ} (hne : xs ≠ []) {δ z : ℝ} (hδ : 0 < δ) (hs : e.Sees δ z)
    (h1 : cvmOf F xs < xs.length * ((δ / 4) ^ 3 / 24)) (h2 : watsonBeta ((sort xs).map F) < xs.length * (δ ^ 3 / 24))
    (h3 : adOf (fun x => Real.log (F x)) (fun x => Real.log (1 - F x)) xs < xs.length * (δ ^ 3 / 24)) :
    ∃ d, e.value F xs = .ok d ∧ d < e.floor xs.length δ := by
  obtain ⟨d, p, m, hd, hp, hm', ld, lp, lm, -⟩ := C55_sup_distance hc hm h01 hne
  have hdl : d ≤ δ / 4 := not_lt.1 fun h => absurd (ks_cvm hc hm h01 hne (by linarith) hd h) (not_le.2 h1)
  have hpd : p ≤ d := lp.2 (by rintro _ ⟨x, rfl⟩; exact (le_abs_self _).trans (ld.1 ⟨x, rfl⟩))
  have hmd : m ≤ d := lm.2 (by
    rintro _ ⟨x, rfl⟩
    refine le_trans ?_ (ld.1 ⟨x, rfl⟩)
    simp only
    rw [abs_sub_comm]
    exact le_abs_self _)
  match e with
  | .ks .right => exact ⟨p, hp, show p < δ by linarith⟩
  | .ks .left => exact ⟨m, hm', show m < δ by linarith⟩
  | .ks .twoTailed => exact ⟨d, hd, show d < δ by linarith⟩
  | .cvm =>
    refine ⟨_, rfl, h1.trans_le ?_⟩
    refine mul_le_mul_of_nonneg_left ?_ (Nat.cast_nonneg _)
    have := pow_le_pow_left₀ (by linarith : 0 ≤ δ / 4) (by linarith : δ / 4 ≤ δ) 3
    linarith
  | .ad => exact ⟨_, rfl, h3⟩
  | .kuiper =>
    obtain ⟨v, d', _, _, hv, hd', _, _, _, _, _, _, h1⟩ := C58_kuiper hm h01 hne
    rw [hd] at hd'
    cases hd'
    exact ⟨v, hv, show v < δ by linarith⟩
  | .watson => exact ⟨_, rfl, h2⟩
  | .minToshiyuki | .greenwood | .moran => exact hs.elim

end

/-- Independent observations of a law with a continuous distribution function. -/
theorem iid_continuousSample {P : Measure ℝ} [IsProbabilityMeasure P] {F : ℝ → ℝ} (hF : Continuous F)
    (hcdf : ∀ x, ProbabilityTheory.cdf P x = F x) (n : ℕ) :
    ContinuousSample (iid n P) F fun (i : Fin n) (x : Fin n → ℝ) => x i where
  probability := by unfold iid; infer_instance
  measurable i := measurable_pi_apply i
  indep := by
    unfold iid
    exact iIndepFun_pi (X := fun _ => id) fun i => measurable_id.aemeasurable
  continuous := hF
  law i x := by
    have hmp := measurePreserving_eval (fun _ : Fin n => P) i
    have h := hmp.measureReal_preimage (s := Set.Iic x) measurableSet_Iic.nullMeasurableSet
    rw [← hcdf, cdf_eq_real]
    exact h

/-- Markov's inequality: a statistic whose expectation does not depend on `n` seldom exceeds a multiple of `n`. -/
theorem markov_small {P : Measure ℝ} [IsProbabilityMeasure P] {f : ∀ n, (Fin n → ℝ) → ℝ} {m η : ℝ} (hη : 0 < η)
    (h0 : ∀ n, 0 < n → ∀ᵐ x ∂iid n P, 0 ≤ f n x) (hi : ∀ n, 0 < n → Integrable (f n) (iid n P))
    (hm : ∀ n, 0 < n → ∫ x, f n x ∂iid n P = m) :
    Tendsto (fun n => iid n P {x | n * η ≤ f n x}) atTop (𝓝 0) := by
  have hP : ∀ n, IsProbabilityMeasure (iid n P) := fun n => by unfold iid; infer_instance
  have hb : ∀ n : ℕ, 0 < n → iid n P {x | n * η ≤ f n x} ≤ ENNReal.ofReal (m / η * (1 / n)) := by
    intro n hn
    have hn' : (0 : ℝ) < n := by exact_mod_cast hn
    have := mul_meas_ge_le_integral_of_nonneg (h0 n hn) (hi n hn) (n * η)
    rw [hm n hn] at this
    rw [← ofReal_measureReal]
    refine ENNReal.ofReal_le_ofReal ?_
    rw [div_mul_div_comm, mul_one, le_div_iff₀ (by positivity)]
    linarith
  have hlim : Tendsto (fun n : ℕ => ENNReal.ofReal (m / η * (1 / n))) atTop (𝓝 0) := by
    have := (tendsto_one_div_atTop_nhds_zero_nat (𝕜 := ℝ)).const_mul (m / η)
    rw [mul_zero] at this
    have := ENNReal.tendsto_ofReal this
    rwa [ENNReal.ofReal_zero] at this
  refine tendsto_of_tendsto_of_tendsto_of_le_of_le' tendsto_const_nhds hlim (.of_forall fun _ => zero_le) ?_
  filter_upwards [eventually_gt_atTop 0] with n hn using hb n hn

/-- **Consistency of the statistics of the empirical distribution function.** The reference law `P` has the continuous
distribution function `F`; the law `Q` of the data differs from it in a way that the statistic takes account of. -/
theorem edf_separates (e : EdfStat) {F : ℝ → ℝ} {P Q : Measure ℝ} [IsProbabilityMeasure P] [IsProbabilityMeasure Q]
    (hF : Continuous F) (hcdf : ∀ x, ProbabilityTheory.cdf P x = F x) (hin : e = .ad → ∀ᵐ x ∂Q, 0 < F x ∧ F x < 1) {x₀ δ : ℝ}
    (hδ : 0 < δ) (hs : e.Sees δ (ProbabilityTheory.cdf Q x₀ - F x₀)) :
    ∃ A E : ∀ n, Set (Fin n → ℝ), Tendsto (fun n => iid n Q (A n)ᶜ) atTop (𝓝 0) ∧
      Tendsto (fun n => iid n P (E n)ᶜ) atTop (𝓝 0) ∧
      ∀ n, 0 < n → ∀ x ∈ A n, ∀ y ∈ E n, ∃ d d', e.value F (List.ofFn x) = .ok d ∧
        e.value F (List.ofFn y) = .ok d' ∧ d' < d := by
  have hm : Monotone F := fun x y h => by rw [← hcdf, ← hcdf]; exact monotone_cdf _ h
  have h01 : ∀ x, 0 ≤ F x ∧ F x ≤ 1 := fun x => by rw [← hcdf]; exact ⟨cdf_nonneg _ _, cdf_le_one _ _⟩
  have hQ : ∀ n, IsProbabilityMeasure (iid n Q) := fun n => by unfold iid; infer_instance
  have hP : ∀ n, IsProbabilityMeasure (iid n P) := fun n => by unfold iid; infer_instance
  set η := δ / 2 with hη
  have hη0 : 0 < η := by linarith
  -- the samples of `Q`
  set A' : ∀ n, Set (Fin n → ℝ) := fun n =>
    {x | |(∑ i, (Set.Iic x₀).indicator (fun _ => (1 : ℝ)) (x i)) / n - ProbabilityTheory.cdf Q x₀| ≤ δ / 2} with hA'
  have hind : Measurable ((Set.Iic x₀).indicator fun _ => (1 : ℝ)) := measurable_const.indicator measurableSet_Iic
  have hAm : ∀ n, MeasurableSet (A' n) := fun n => by
    refine measurableSet_le ?_ measurable_const
    fun_prop
  have hA0 : Tendsto (fun n => iid n Q (A' n)ᶜ) atTop (𝓝 0) := by
    refine eventually_prob_compl hAm ?_
    have hi : Integrable ((Set.Iic x₀).indicator fun _ => (1 : ℝ)) Q :=
      (integrable_const 1).indicator measurableSet_Iic
    filter_upwards [law_of_large_numbers hind hi] with ω hω
    have e1 : ∫ x, (Set.Iic x₀).indicator (fun _ => (1 : ℝ)) x ∂Q = ProbabilityTheory.cdf Q x₀ := by
      rw [integral_indicator measurableSet_Iic, setIntegral_const, cdf_eq_real]; simp
    rw [e1] at hω
    filter_upwards [hω.eventually (Metric.closedBall_mem_nhds _ hη0)] with n hn
    have hn' := (Real.dist_eq _ _).symm.trans_le hn
    simp only [hA', Set.mem_ofPred_eq, firsts]
    rw [Fin.sum_univ_eq_sum_range (fun i => (Set.Iic x₀).indicator (fun _ => (1 : ℝ)) (ω i)) n]
    exact hn'
  have hfr : ∀ n (x : Fin n → ℝ), fracLe (List.ofFn x) x₀ =
      (∑ i, (Set.Iic x₀).indicator (fun _ => (1 : ℝ)) (x i)) / n := by
    intro n x
    rw [fracLe_eq, List.length_ofFn]
    congr 1
    rw [← List.sum_ofFn, ← Function.comp_def ((Set.Iic x₀).indicator fun _ => (1 : ℝ)) x, ← List.map_ofFn]
    generalize List.ofFn x = L
    induction L with
    | nil => simp
    | cons a L ih =>
      rw [List.countP_cons, List.map_cons, List.sum_cons, ← ih]
      by_cases h : a ≤ x₀ <;> simp [Set.indicator, h, add_comm]
  -- the samples of `P`
  have hcs := fun n => iid_continuousSample hF hcdf n
  have hobs : ∀ n (x : Fin n → ℝ), observed (fun (i : Fin n) (x : Fin n → ℝ) => x i) x = List.ofFn x := fun _ _ => rfl
  have e1 : Tendsto (fun n => iid n P {x | n * ((η / 4) ^ 3 / 24) ≤ cvmOf F (List.ofFn x)}) atTop (𝓝 0) := by
    refine markov_small (m := 1 / 6) (by positivity) (fun n hn => .of_forall fun x => ?_) (fun n hn => ?_) fun n hn => ?_
    · have hne : List.ofFn x ≠ [] := by rw [Ne, List.ofFn_eq_nil_iff]; omega
      exact le_trans (by positivity) (C56_lower_bound hm hne).1
    · obtain ⟨S, hS, h1, h2⟩ := C87_cvm (hcs n) hn
      refine h1.congr ?_
      filter_upwards [hS] with x hx
      simpa [EdfStat.value, hobs] using hx.symm
    · obtain ⟨S, hS, h1, h2⟩ := C87_cvm (hcs n) hn
      rw [← h2]
      refine integral_congr_ae ?_
      filter_upwards [hS] with x hx
      simpa [EdfStat.value, hobs] using hx
  have e2 : Tendsto (fun n => iid n P {x | n * (η ^ 3 / 24) ≤ watsonBeta ((sort (List.ofFn x)).map F)}) atTop (𝓝 0) := by
    refine markov_small (m := 1 / 12) (by positivity) (fun n hn => .of_forall fun x => ?_) (fun n hn => ?_) fun n hn => ?_
    · have hne : List.ofFn x ≠ [] := by rw [Ne, List.ofFn_eq_nil_iff]; omega
      have := watson_deviation hm h01 hne (x₀ := 0) le_rfl (abs_nonneg _)
      simpa using this
    · obtain ⟨S, hS, h1, h2⟩ := C87_watson (hcs n) hn
      refine h1.congr ?_
      filter_upwards [hS] with x hx
      simpa [EdfStat.value, hobs] using hx.symm
    · obtain ⟨S, hS, h1, h2⟩ := C87_watson (hcs n) hn
      rw [← h2]
      refine integral_congr_ae ?_
      filter_upwards [hS] with x hx
      simpa [EdfStat.value, hobs] using hx
  have e3 : Tendsto (fun n => iid n P {x | n * (η ^ 3 / 24) ≤
      adOf (fun x => Real.log (F x)) (fun x => Real.log (1 - F x)) (List.ofFn x)}) atTop (𝓝 0) := by
    refine markov_small (m := 1) (by positivity) (fun n hn => ?_) (fun n hn => ?_) fun n hn => ?_
    · filter_upwards [iid_ae (n := n) (ae_cdf_inner hF hcdf)] with x hx
      have hne : List.ofFn x ≠ [] := by rw [Ne, List.ofFn_eq_nil_iff]; omega
      refine (C120_cvm hm hne fun y hy => ?_).2.le
      obtain ⟨i, rfl⟩ := List.mem_ofFn.1 hy
      exact hx i
    · obtain ⟨S, hS, h1, h2⟩ := C87_ad (hcs n) hn
      refine h1.congr ?_
      filter_upwards [hS] with x hx
      simpa [EdfStat.value, hobs] using hx.symm
    · obtain ⟨S, hS, h1, h2⟩ := C87_ad (hcs n) hn
      refine Eq.trans ?_ h2
      refine integral_congr_ae ?_
      filter_upwards [hS] with x hx
      simpa [EdfStat.value, hobs] using hx
  refine ⟨fun n => A' n ∩ {x | e = .ad → ∀ i, 0 < F (x i) ∧ F (x i) < 1}, fun n =>
    ({x | n * ((η / 4) ^ 3 / 24) ≤ cvmOf F (List.ofFn x)} ∪
      ({x | n * (η ^ 3 / 24) ≤ watsonBeta ((sort (List.ofFn x)).map F)} ∪
      {x | n * (η ^ 3 / 24) ≤ adOf (fun x => Real.log (F x)) (fun x => Real.log (1 - F x)) (List.ofFn x)}))ᶜ, ?_, ?_, ?_⟩
  · refine tendsto_of_tendsto_of_tendsto_of_le_of_le tendsto_const_nhds hA0 (fun _ => zero_le) fun n => ?_
    rw [Set.compl_inter]
    refine (measure_union_le _ _).trans ?_
    have : iid n Q {x | e = .ad → ∀ i, 0 < F (x i) ∧ F (x i) < 1}ᶜ = 0 := by
      by_cases he : e = .ad
      · have := iid_ae (n := n) (hin he)
        filter_upwards [this] with x hx _ using hx
      · have : {x : Fin n → ℝ | e = .ad → ∀ i, 0 < F (x i) ∧ F (x i) < 1} = Set.univ :=
          Set.eq_univ_of_forall fun x h => absurd h he
        rw [this, Set.compl_univ, measure_empty]
    rw [this, add_zero]
  · simp only [compl_compl]
    have hsum := e1.add (e2.add e3)
    simp only [add_zero] at hsum
    refine tendsto_of_tendsto_of_tendsto_of_le_of_le tendsto_const_nhds hsum (fun _ => zero_le) fun n => ?_
    exact (measure_union_le _ _).trans (add_le_add le_rfl (measure_union_le _ _))
  · rintro n hn x ⟨hx, hx'⟩ y hy
    have hne : List.ofFn x ≠ [] := by rw [Ne, List.ofFn_eq_nil_iff]; omega
    have hne' : List.ofFn y ≠ [] := by rw [Ne, List.ofFn_eq_nil_iff]; omega
    simp only [Set.mem_compl_iff, Set.mem_union, Set.mem_ofPred_eq, not_or, not_le] at hy
    have hsee : e.Sees η (fracLe (List.ofFn x) x₀ - F x₀) := by
      refine hs.near ?_
      rw [hfr]
      have hx1 : |(∑ i, (Set.Iic x₀).indicator (fun _ => (1 : ℝ)) (x i)) / n - ProbabilityTheory.cdf Q x₀| ≤ δ / 2 := hx
      rwa [sub_sub_sub_cancel_right]
    obtain ⟨d, hd, hd1⟩ := edf_far hF hm h01 hne (fun he y hy => by
      obtain ⟨i, rfl⟩ := List.mem_ofFn.1 hy
      exact hx' he i) hη0.le hsee
    obtain ⟨d', hd', hd2⟩ := edf_near hF hm h01 hne' hη0 hsee (by simpa using hy.1) (by simpa using hy.2.1)
      (by simpa using hy.2.2)
    refine ⟨d, d', hd, hd', ?_⟩
    rw [List.length_ofFn] at hd1 hd2
    exact hd2.trans_le hd1

/-- A criterion that computes, on almost all samples of both laws, an increasing function of such a statistic. -/
theorem edf_consistent (st : Statistic ℝ) (e : EdfStat) {F : ℝ → ℝ} {P Q : Measure ℝ} [IsProbabilityMeasure P]
    [IsProbabilityMeasure Q] (ht : st.alternative ≠ .left) (hF : Continuous F)
    (hcdf : ∀ x, ProbabilityTheory.cdf P x = F x) (hin : e = .ad → ∀ᵐ x ∂Q, 0 < F x ∧ F x < 1) {x₀ δ : ℝ}
    (hδ : 0 < δ) (hs : e.Sees δ (ProbabilityTheory.cdf Q x₀ - F x₀)) {g : ℕ → ℝ → ℝ} (hg : ∀ n, 0 < n → StrictMono (g n))
    (hvQ : ∀ n, 0 < n → ∀ᵐ x ∂iid n Q, st.execute (List.ofFn x) = (e.value F (List.ofFn x)).map (g n))
    (hvP : ∀ n, 0 < n → ∀ᵐ x ∂iid n P, st.execute (List.ofFn x) = (e.value F (List.ofFn x)).map (g n)) :
    Consistent st Q P := by
  obtain ⟨A, E, hA, hE, h⟩ := edf_separates e hF hcdf hin hδ hs
  have restrict : ∀ (R : Measure ℝ) (_ : IsProbabilityMeasure R) (S : ∀ n, Set (Fin n → ℝ)),
      Tendsto (fun n => iid n R (S n)ᶜ) atTop (𝓝 0) →
      (∀ n, 0 < n → ∀ᵐ x ∂iid n R, st.execute (List.ofFn x) = (e.value F (List.ofFn x)).map (g n)) →
      Tendsto (fun n => iid n R (S n ∩ {x | st.execute (List.ofFn x) = (e.value F (List.ofFn x)).map (g n)})ᶜ)
        atTop (𝓝 0) := by
    intro R _ S hS hv
    refine hS.congr' ?_
    filter_upwards [eventually_gt_atTop 0] with n hn
    refine measure_congr ?_
    filter_upwards [hv n hn] with x hx
    refine propext ?_
    show ¬ _ ↔ ¬ _
    exact not_congr ⟨fun h => ⟨h, hx⟩, fun h => h.1⟩
  refine consistent_of_separated (restrict Q ‹_› A hA hvQ) (restrict P ‹_› E hE hvP) (Or.inl ⟨ht, ?_⟩)
  filter_upwards [eventually_gt_atTop 0] with n hn
  rintro x ⟨hx, hx'⟩ y ⟨hy, hy'⟩
  obtain ⟨d, d', hd, hd', hlt⟩ := h n hn x hx y hy
  refine ⟨g n d, g n d', ?_, ?_, hg n hn hlt⟩
  · rw [show st.execute (List.ofFn x) = _ from hx', hd]; rfl
  · rw [show st.execute (List.ofFn y) = _ from hy', hd']; rfl

/-- The statistics that are judged on all differences between distribution functions. -/
def EdfStat.Omnibus (e : EdfStat) : Prop := e ∈ [EdfStat.ks .twoTailed, .cvm, .ad, .kuiper, .watson]

/-- Different laws have distribution functions that differ somewhere. -/
theorem EdfStat.Omnibus.sees {e : EdfStat} (he : e.Omnibus) {P Q : Measure ℝ} [IsProbabilityMeasure P]
    [IsProbabilityMeasure Q] (hne : Q ≠ P) :
    ∃ x₀ δ, 0 < δ ∧ e.Sees δ (ProbabilityTheory.cdf Q x₀ - ProbabilityTheory.cdf P x₀) := by
  obtain ⟨x₀, hx⟩ : ∃ x₀, ProbabilityTheory.cdf Q x₀ ≠ ProbabilityTheory.cdf P x₀ := by
    by_contra hc
    push Not at hc
    exact hne (Measure.eq_of_cdf Q P (StieltjesFunction.ext hc))
  refine ⟨x₀, |ProbabilityTheory.cdf Q x₀ - ProbabilityTheory.cdf P x₀|, abs_pos.2 (sub_ne_zero.2 hx), ?_⟩
  simp only [EdfStat.Omnibus, List.mem_cons, List.not_mem_nil, or_false] at he
  rcases he with rfl | rfl | rfl | rfl | rfl <;> exact le_rfl

end Pysatl.Props
