import Verif.Props.ConsistencyFamilies
import Verif.Props.NormalMirror

/-! # C135: alternatives that are not detected however large the sample -/

namespace Pysatl.Props

open Pysatl.Decision Pysatl.Resolver Pysatl.Spec Pysatl.Edf Pysatl.Graph Pysatl.Gen
open Pysatl.Uniform Pysatl.Weibull Pysatl.Normal Pysatl.Exponent
open MeasureTheory ProbabilityTheory Filter Topology

/-! ### The one-sided Kolmogorov-Smirnov criterion `D-` -/

/-- An observed value beyond all simulated values is accepted by a left-tailed criterion. -/
theorem accepts_beyond {n B : ℕ} (hn : 0 < n) (hB : 0 < B) {st : Statistic ℝ} (ht : st.alternative = .left) {α : ℝ}
    (h0 : 0 ≤ α) (h1 : α ≤ 1) {x : Fin n → ℝ} {y : Fin B → Fin n → ℝ} {d : ℝ} (hd : st.execute (List.ofFn x) = .ok d)
    (hy : ∀ j, ∃ e, st.execute (List.ofFn (y j)) = .ok e ∧ e < d) :
    (α < 1 → ¬ TestRejects st α x y) ∧ ¬ CvRejects st α x y := by
  rw [testRejects_iff hn, cvRejects_iff hn, hd, ht]
  set L := List.ofFn fun j => outcomeVal (st.execute (List.ofFn (y j))) with hL
  have hne : L ≠ [] := by rw [hL, Ne, List.ofFn_eq_nil_iff]; omega
  have hlen : (0 : ℝ) < L.length := by exact_mod_cast List.length_pos_iff.2 hne
  have hb : ∀ z ∈ L, z < d := by
    intro z hz
    rw [hL, List.mem_ofFn] at hz
    obtain ⟨j, rfl⟩ := hz
    obtain ⟨e, he, hlt⟩ := hy j
    rw [he]
    exact hlt
  have hle : fracLe L d = 1 := by
    rw [fracLe, List.filter_eq_self.2 fun z hz => by simpa using (hb z hz).le, div_self hlen.ne']
  constructor
  · rintro hα ⟨_, _, p, hp, hpa⟩
    simp only [getConcreteFactory, if_true, Factory.pValue, outcomeVal, leftPValue_eq hne, hle] at hp
    cases hp
    linarith
  · rintro ⟨_, _, cv, f, hcv, hf, hrej⟩
    obtain ⟨cv', hcv', hin⟩ := C21_critical_value_in_range .left L hne α h0 h1
    rw [hcv] at hcv'
    cases hcv'
    rcases cv with c | ⟨l, r⟩
    · simp only [getConcreteFactory, if_true] at hf
      cases hf
      obtain ⟨z, hz, hcz⟩ := (hin c (by simp [CriticalValue.values])).2
      have : c < d := hcz.trans_lt (hb z hz)
      have h2 : decide (c ≤ d) = false := hrej
      rw [decide_eq_false_iff_not] at h2
      exact h2 this.le
    · simp only [getConcreteFactory, Factory.criticalValue, reduceCtorEq, if_false, if_true, Bind.bind, Except.bind] at hcv
      split at hcv <;> cases hcv

/-- Events whose complements become improbable, on which the test does not reject. -/
theorem power_to_zero {Q P : Measure ℝ} [IsProbabilityMeasure Q] [IsProbabilityMeasure P] {B : ℕ}
    {A E : ∀ n, Set (Fin n → ℝ)} (hA : Tendsto (fun n => iid n Q (A n)ᶜ) atTop (𝓝 0))
    (hE : Tendsto (fun n => iid n P (E n)ᶜ) atTop (𝓝 0)) {S : ∀ n, Set ((Fin n → ℝ) × (Fin B → Fin n → ℝ))}
    (hS : ∀ᶠ n in atTop, ∀ x ∈ A n, ∀ y : Fin B → Fin n → ℝ, (∀ j, y j ∈ E n) → (x, y) ∉ S n) :
    Tendsto (fun n => ((iid n Q).prod (Measure.pi fun _ : Fin B => iid n P)) (S n)) atTop (𝓝 0) := by
  have hbad : Tendsto (fun n => iid n Q (A n)ᶜ + B * iid n P (E n)ᶜ) atTop (𝓝 0) := by
    have := hA.add (ENNReal.Tendsto.const_mul hE (Or.inr (ENNReal.natCast_ne_top B)))
    simpa using this
  refine tendsto_of_tendsto_of_tendsto_of_le_of_le' tendsto_const_nhds hbad (.of_forall fun _ => zero_le) ?_
  filter_upwards [hS] with n hS
  set M := (iid n Q).prod (Measure.pi fun _ : Fin B => iid n P) with hM
  have h1 : M (Prod.fst ⁻¹' (A n)ᶜ) ≤ iid n Q (A n)ᶜ := by
    have hmp := measurePreserving_fst (μ := iid n Q) (ν := Measure.pi fun _ : Fin B => iid n P)
    calc M (Prod.fst ⁻¹' (A n)ᶜ) ≤ M.map Prod.fst (A n)ᶜ := Measure.le_map_apply hmp.measurable.aemeasurable _
      _ = iid n Q (A n)ᶜ := by rw [hmp.map_eq]
  have h2 : ∀ j : Fin B, M ((fun ω => ω.2 j) ⁻¹' (E n)ᶜ) ≤ iid n P (E n)ᶜ := fun j => by
    have hmp := (measurePreserving_eval (fun _ : Fin B => iid n P) j).comp
      (measurePreserving_snd (μ := iid n Q) (ν := Measure.pi fun _ : Fin B => iid n P))
    calc M ((fun ω => ω.2 j) ⁻¹' (E n)ᶜ) ≤ M.map (fun ω => ω.2 j) (E n)ᶜ :=
          Measure.le_map_apply hmp.measurable.aemeasurable _
      _ = iid n P (E n)ᶜ := congrArg (fun m : Measure (Fin n → ℝ) => m (E n)ᶜ) hmp.map_eq
  have hcover : S n ⊆ Prod.fst ⁻¹' (A n)ᶜ ∪ ⋃ j, (fun ω => ω.2 j) ⁻¹' (E n)ᶜ := by
    rintro ⟨x, y⟩ hxy
    by_cases hx : x ∈ A n
    · by_cases hy : ∀ j, y j ∈ E n
      · exact absurd hxy (hS x hx y hy)
      · obtain ⟨j, hj⟩ := not_forall.1 hy
        exact Or.inr (Set.mem_iUnion.2 ⟨j, hj⟩)
    · exact Or.inl hx
  calc M (S n) ≤ M (Prod.fst ⁻¹' (A n)ᶜ ∪ ⋃ j, (fun ω => ω.2 j) ⁻¹' (E n)ᶜ) := measure_mono hcover
    _ ≤ M (Prod.fst ⁻¹' (A n)ᶜ) + M (⋃ j, (fun ω => ω.2 j) ⁻¹' (E n)ᶜ) := measure_union_le _ _
    _ ≤ iid n Q (A n)ᶜ + B * iid n P (E n)ᶜ := by
        refine add_le_add h1 ?_
        refine (measure_iUnion_le _).trans ?_
        rw [tsum_fintype]
        refine (Finset.sum_le_sum fun j _ => h2 j).trans ?_
        simp

/-- **C135, refuted**: the one-sided criterion of the largest amount by which the hypothesised distribution function exceeds
the empirical one is judged in the left tail.  Against every law whose distribution function lies below the hypothesised one
somewhere, the probability of rejection tends to zero, at every level below one (by critical values at every level). -/
theorem C135_refuted_ks_left (code : String) (classes : List GeneratorClass) (hp : classes.Perm generatorClasses)
    {a b : ℝ} (hab : a < b) :
    ∃ G, (Gen.Family.uniform a b).simulator classes = .ok G ∧ (∀ n, G.generate n = .ok (iid n (uniformLaw a b))) ∧
      ∀ Q : Measure ℝ, IsProbabilityMeasure Q → (∀ᵐ x ∂Q, a < x ∧ x < b) →
        (∃ x₀, Q.real (Set.Iic x₀) < (uniformLaw a b).real (Set.Iic x₀)) →
        ∀ B : ℕ, 0 < B → ∀ α : ℝ, 0 ≤ α → α ≤ 1 →
          (α < 1 → Tendsto (fun n => ((iid n Q).prod (Measure.pi fun _ : Fin B => iid n (uniformLaw a b)))
            {ω | TestRejects ((UniStat.ks .left).statistic a b code) α ω.1 ω.2}) atTop (𝓝 0)) ∧
          Tendsto (fun n => ((iid n Q).prod (Measure.pi fun _ : Fin B => iid n (uniformLaw a b)))
            {ω | CvRejects ((UniStat.ks .left).statistic a b code) α ω.1 ω.2}) atTop (𝓝 0) := by
  obtain ⟨G, hG, hgen⟩ := simulates_all (f := .uniform a b) fun n => C111_uniform classes hp a b hab n
  refine ⟨G, hG, hgen, fun Q _ hin ⟨x₀, hx⟩ B hB α h0 h1 => ?_⟩
  have h := cdf_uniformLaw hab
  have := h.1
  rw [← cdf_eq_real, ← cdf_eq_real, h.2] at hx
  obtain ⟨A, E, hA, hE, hsep⟩ := edf_separates (.ks .left) (uniformCdf_continuous hab) h.2 (fun h => by cases h)
    (sub_pos.2 hx) (Q := Q) (x₀ := x₀) (show _ ≤ -(_ - _) by rw [neg_sub])
  have hv : ∀ n, 0 < n → ∀ x : Fin n → ℝ, (∀ i, a < x i ∧ x i < b) →
      ((UniStat.ks .left).statistic a b code).execute (List.ofFn x) = ksOf .left (uniformCdf a b) (List.ofFn x) := by
    intro n hn x hx
    have hne : List.ofFn x ≠ [] := by rw [Ne, List.ofFn_eq_nil_iff]; omega
    refine (uniform_edf (a := a) (b := b) (s := .ks .left) rfl hne fun t ht => by
      obtain ⟨i, rfl⟩ := (List.mem_ofFn' _ _).1 ht
      exact hx i).trans ?_
    exact except_map_self _
  have restrict : ∀ (R : Measure ℝ) (_ : IsProbabilityMeasure R) (S : ∀ n, Set (Fin n → ℝ)),
      Tendsto (fun n => iid n R (S n)ᶜ) atTop (𝓝 0) → (∀ᵐ x ∂R, a < x ∧ x < b) →
      Tendsto (fun n => iid n R (S n ∩ {x | ∀ i, a < x i ∧ x i < b})ᶜ) atTop (𝓝 0) := by
    intro R _ S hS hR
    refine hS.congr fun n => measure_congr ?_
    filter_upwards [iid_ae (n := n) hR] with x hx
    refine propext ?_
    show ¬ _ ↔ ¬ _
    exact not_congr ⟨fun h => ⟨h, hx⟩, fun h => h.1⟩
  have hA' := restrict Q ‹_› A hA hin
  have hE' := restrict _ ‹_› E hE ((ae_cdf_inner (uniformCdf_continuous hab) h.2).mono fun x hx => (uniformCdf_inner hab).1 hx)
  have key : ∀ᶠ n in atTop, ∀ x ∈ A n ∩ {x | ∀ i, a < x i ∧ x i < b}, ∀ y : Fin B → Fin n → ℝ,
      (∀ j, y j ∈ E n ∩ {x | ∀ i, a < x i ∧ x i < b}) →
      (α < 1 → ¬ TestRejects ((UniStat.ks .left).statistic a b code) α x y) ∧
        ¬ CvRejects ((UniStat.ks .left).statistic a b code) α x y := by
    filter_upwards [eventually_gt_atTop 0] with n hn
    rintro x ⟨hx, hx'⟩ y hy
    obtain ⟨d, _, hd, _⟩ := hsep n hn x hx (y ⟨0, hB⟩) (hy _).1
    refine accepts_beyond hn hB rfl h0 h1 (d := d) (by rw [hv n hn x hx']; exact hd) fun j => ?_
    obtain ⟨d', e, hd', he, hlt⟩ := hsep n hn x hx (y j) (hy j).1
    rw [hd] at hd'
    cases hd'
    exact ⟨e, by rw [hv n hn (y j) (hy j).2]; exact he, hlt⟩
  exact ⟨fun hα => power_to_zero hA' hE' (key.mono fun n h x hx y hy => (h x hx y hy).1 hα),
    power_to_zero hA' hE' (key.mono fun n h x hx y hy => (h x hx y hy).2)⟩

example : Tendsto (fun n => ((iid n (uniformLaw 1 2)).prod (Measure.pi fun _ : Fin 99 => iid n (uniformLaw 0 2)))
    {ω | TestRejects ((UniStat.ks .left).statistic 0 2 "KS_UNIFORM") (1 / 20) ω.1 ω.2}) atTop (𝓝 0) := by
  obtain ⟨_, _, _, h⟩ := C135_refuted_ks_left "KS_UNIFORM" generatorClasses (List.Perm.refl _) (a := 0) (b := 2) two_pos
  exact (h _ (cdf_uniformLaw one_lt_two).1 uniform_half ⟨1, uniform_half_lt⟩ 99 (by norm_num) (1 / 20) (by norm_num)
    (by norm_num)).1 (by norm_num)

/-! ### Hypotheses whose reference values come from another law -/

/-- If the size of the rejection region stays bounded away from one, the test is not consistent. -/
theorem not_consistent {st : Statistic ℝ} {Q P : Measure ℝ} {m : ℕ}
    (h : ∀ n, m ≤ n → ((iid n Q).prod (Measure.pi fun _ : Fin 99 => iid n P)) {ω | TestRejects st (1 / 20) ω.1 ω.2} ≤
      (rankBound st.alternative (1 / 20) 99 : ENNReal) / (99 + 1 : ℕ)) : ¬ Consistent st Q P := by
  intro hc
  have h1 := (hc 99 (by norm_num) (1 / 20) (by norm_num) (by norm_num)).1
  have h2 := le_of_tendsto h1 ((eventually_ge_atTop m).mono fun n hn => h n hn)
  have h3 : rankBound st.alternative (1 / 20) 99 < 100 := by
    have e1 : ⌊(1 / 20 : ℝ) * (99 : ℕ)⌋₊ < 50 := by rw [Nat.floor_lt (by positivity)]; norm_num
    have e2 : ⌊(1 / 20 : ℝ) / 2 * (99 : ℕ)⌋₊ < 49 := by rw [Nat.floor_lt (by positivity)]; norm_num
    unfold rankBound
    cases st.alternative <;> simp only <;> omega
  refine absurd h2 (not_le.2 ?_)
  rw [ENNReal.div_lt_iff (by simp) (by simp), one_mul]
  exact_mod_cast h3

theorem gamma_ac {a r : ℝ} (ha : 0 < a) (hr : 0 < r) : gammaMeasure 1 r ≪ gammaMeasure a r := by
  refine Measure.AbsolutelyContinuous.mk fun s hs h => ?_
  have hm : ∀ q : ℝ, Measurable (gammaPDF q r) := fun q => (measurable_gammaPDFReal q r).ennreal_ofReal
  change volume.withDensity (gammaPDF a r) s = 0 at h
  show volume.withDensity (gammaPDF 1 r) s = 0
  rw [withDensity_apply_eq_zero (hm _)] at h ⊢
  have h0 : volume ({0} : Set ℝ) = 0 := Real.volume_singleton
  refine measure_mono_null ?_ (measure_union_null h h0)
  intro x hx
  by_cases hx0 : x = 0
  · exact Or.inr hx0
  refine Or.inl ⟨?_, hx.2⟩
  have hxn : 0 ≤ x := by
    by_contra hc
    exact hx.1 (gammaPDF_of_neg (not_le.1 hc))
  have hxp : 0 < x := lt_of_le_of_ne hxn (Ne.symm hx0)
  show gammaPDF a r x ≠ 0
  rw [gammaPDF_of_nonneg hxn, ne_eq, ENNReal.ofReal_eq_zero, not_le]
  have := Real.Gamma_pos_of_pos ha
  positivity

/-- Gamma laws of different shapes differ. -/
theorem gamma_ne {a r : ℝ} (ha : 0 < a) (hr : 0 < r) (ha1 : a ≠ 1) : gammaMeasure 1 r ≠ gammaMeasure a r := by
  intro h
  have hm : ∀ q : ℝ, Measurable (gammaPDF q r) := fun q => (measurable_gammaPDFReal q r).ennreal_ofReal
  have hpr := isProbabilityMeasure_gammaMeasure one_pos hr
  have hae : gammaPDF 1 r =ᵐ[volume] gammaPDF a r := by
    refine (withDensity_eq_iff (hm 1).aemeasurable (hm a).aemeasurable ?_).1 h
    have := measure_ne_top (gammaMeasure 1 r) Set.univ
    rwa [gammaMeasure, withDensity_apply _ MeasurableSet.univ, setLIntegral_univ] at this
  have pick : ∀ l u : ℝ, l < u → ∃ x ∈ Set.Ioo l u, gammaPDF 1 r x = gammaPDF a r x := by
    intro l u hlu
    by_contra hc
    push Not at hc
    have : volume (Set.Ioo l u) = 0 := measure_mono_null (fun x hx => hc x hx) hae
    rw [Real.volume_Ioo, ENNReal.ofReal_eq_zero] at this
    linarith
  have hG := Real.Gamma_pos_of_pos ha
  have value : ∀ x : ℝ, 0 < x → gammaPDF 1 r x = gammaPDF a r x → r = r ^ a / Real.Gamma a * x ^ (a - 1) := by
    intro x hx he
    rw [gammaPDF_of_nonneg hx.le, gammaPDF_of_nonneg hx.le, ENNReal.ofReal_eq_ofReal_iff (by positivity)
      (by positivity)] at he
    simp only [sub_self, Real.rpow_zero, Real.rpow_one, Real.Gamma_one, div_one, mul_one] at he
    exact mul_right_cancel₀ (Real.exp_pos _).ne' he
  obtain ⟨x, hx, ex⟩ := pick 0 1 one_pos
  obtain ⟨y, hy, ey⟩ := pick 1 2 one_lt_two
  have h1 := value x hx.1 ex
  have h2 := value y (by linarith [hy.1]) ey
  have hc : 0 < r ^ a / Real.Gamma a := by positivity
  have h3 : x ^ (a - 1) = y ^ (a - 1) := mul_left_cancel₀ hc.ne' (h1.symm.trans h2)
  rcases lt_or_gt_of_ne ha1 with h | h
  · have g1 := Real.one_lt_rpow_of_pos_of_lt_one_of_neg hx.1 hx.2 (by linarith : a - 1 < 0)
    have g2 := Real.rpow_lt_one_of_one_lt_of_neg hy.1 (by linarith : a - 1 < 0)
    linarith
  · have g1 := Real.rpow_lt_one hx.1.le hx.2 (by linarith : 0 < a - 1)
    have g2 := Real.one_lt_rpow hy.1 (by linarith : 0 < a - 1)
    linarith

/-- **C135, refuted for the gamma family**: for every hypothesised shape `a ≠ 1`, data of the gamma law of shape one are not
detected, since all simulated samples have that law.  However large the sample, the test rejects them no more often than its
level allows. -/
theorem C135_refuted_gamma {lib : Gamma.GammaLib} (hlib : ScipyGamma lib) {a β : ℝ} (ha : 0 < a) (ha1 : a ≠ 1)
    (hβ : 0 < β) {s : Gamma.GammaStat} {e : EdfStat} (hs : s.edf = some e) (classes : List GeneratorClass)
    (hp : classes.Perm generatorClasses) :
    ∃ (G : Generator) (Q : Measure ℝ), (Gen.Family.gamma a β).simulator classes = .ok G ∧
      (∀ n, G.generate n = .ok (iid n Q)) ∧ IsProbabilityMeasure Q ∧ Q ≠ gammaMeasure a β ∧
      (∀ n, e.least ≤ n → ∀ B, 0 < B → ∀ α, ((iid n Q).prod (Measure.pi fun _ : Fin B => iid n Q))
        {ω | TestRejects (s.statistic lib ⟨a, β⟩) α ω.1 ω.2} ≤
        (rankBound s.alternative α B : ENNReal) / (B + 1 : ℕ)) ∧
      ¬ Consistent (s.statistic lib ⟨a, β⟩) Q Q := by
  have hpr := isProbabilityMeasure_gammaMeasure one_pos hβ
  have hpa := isProbabilityMeasure_gammaMeasure ha hβ
  obtain ⟨G, hG, hgen⟩ := simulates_all fun n => simulates (simulator_law hp (.gamma a β)) (gamma_rvs_one hβ) n
  have key : ∀ n, e.least ≤ n → ∀ B, 0 < B → KeepsLevel (s.statistic lib ⟨a, β⟩) (iid n (gammaMeasure 1 β))
      (iid n (gammaMeasure 1 β)) B := by
    intro n hn B hB
    refine simple_level (s.statistic lib ⟨a, β⟩) e (continuous_cdf (gammaMeasure a β)) (fun _ => rfl)
      (gamma_ac ha hβ) hn hB (g := fun u => u) measurable_id (fun _ _ h => h) (.of_forall fun x => ?_)
    have hn0 : 0 < n := lt_of_lt_of_le (by cases e <;> simp [EdfStat.least]) hn
    rw [except_map_self]
    exact gamma_edf hlib (p := ⟨a, β⟩) ha hβ hs (by rw [Ne, List.ofFn_eq_nil_iff]; omega)
  exact ⟨G, _, hG, hgen, hpr, gamma_ne ha hβ ha1, fun n hn B hB α => (key n hn B hB).1 α,
    not_consistent (m := e.least) fun n hn => (key n hn 99 (by norm_num)).1 _⟩

example : ∃ (G : Generator) (Q : Measure ℝ), (Gen.Family.gamma 2 3).simulator generatorClasses = .ok G ∧
    (∀ n, G.generate n = .ok (iid n Q)) ∧ Q ≠ gammaMeasure 2 3 ∧
    ¬ Consistent ((Gamma.GammaStat.ks .twoTailed).statistic idealGamma ⟨2, 3⟩) Q Q := by
  obtain ⟨G, Q, h1, h2, _, h3, _, h4⟩ := C135_refuted_gamma scipyGamma_ideal (a := 2) (β := 3) (by norm_num) (by norm_num)
    (by norm_num) (s := .ks .twoTailed) rfl generatorClasses (List.Perm.refl _)
  exact ⟨G, Q, h1, h2, h3, h4⟩

/-- **C135, refuted for normal hypotheses with a mean**: Kolmogorov-Smirnov and Cramer-von Mises compare the sample with the
standard normal law whatever the hypothesis.  For the hypothesis `N(m, v)`, `m ≠ 0`, data of the law `N(-m, v)` are not
detected: however large the sample, the test rejects them no more often than its level allows. -/
theorem C135_refuted_normal {s : NormStat} (hs : s = .ks .twoTailed ∨ s = .cvm) (code : String)
    (params : Option (List (String × ℝ))) (classes : List GeneratorClass) (hp : classes.Perm generatorClasses)
    {m v : ℝ} (hm : m ≠ 0) (hv : 0 < v) :
    ∃ G, (Gen.Family.normal m v).simulator classes = .ok G ∧
      (∀ n, G.generate n = .ok (iid n (gaussianReal m v.toNNReal))) ∧
      gaussianReal (-m) v.toNNReal ≠ gaussianReal m v.toNNReal ∧
      (∀ n, 0 < n → ∀ B, 0 < B → ∀ α,
        ((iid n (gaussianReal (-m) v.toNNReal)).prod (Measure.pi fun _ : Fin B => iid n (gaussianReal m v.toNNReal)))
          {ω | TestRejects (s.statistic scipyNorm code params) α ω.1 ω.2} ≤
          (rankBound s.alternative α B : ENNReal) / (B + 1 : ℕ)) ∧
      ¬ Consistent (s.statistic scipyNorm code params) (gaussianReal (-m) v.toNNReal) (gaussianReal m v.toNNReal) := by
  obtain ⟨G, hG, hgen⟩ := simulates_all (f := .normal m v) fun n => C111_normal classes hp m v hv.le n
  have key : ∀ n, 0 < n → ∀ B, 0 < B → ∀ α,
        ((iid n (gaussianReal (-m) v.toNNReal)).prod (Measure.pi fun _ : Fin B => iid n (gaussianReal m v.toNNReal)))
          {ω | TestRejects (s.statistic scipyNorm code params) α ω.1 ω.2} ≤
          (rankBound s.alternative α B : ENNReal) / (B + 1 : ℕ) := by
    intro n hn B hB α
    obtain ⟨G', M, hG', hM, h⟩ := level_normal (s := s) (by rcases hs with rfl | rfl; exacts [.inl ⟨_, rfl⟩, .inr rfl])
      code params classes hp m hv hn hB
    rw [hG] at hG'
    cases hG'
    rw [hgen] at hM
    cases hM
    refine le_trans (le_of_eq ?_) (h.1 α)
    have e1 : iid n (gaussianReal (-m) v.toNNReal) =
        (iid n (gaussianReal m v.toNNReal)).map fun x i => -(x i) := by
      rw [iid_map _ measurable_neg, gaussianReal_map_neg]
    have hme : MeasurableEmbedding fun (x : Fin n → ℝ) i => -(x i) := (MeasurableEquiv.neg (Fin n → ℝ)).measurableEmbedding
    have e2 : (iid n (gaussianReal (-m) v.toNNReal)).prod
        (Measure.pi fun _ : Fin B => iid n (gaussianReal m v.toNNReal)) =
        ((iid n (gaussianReal m v.toNNReal)).prod (Measure.pi fun _ : Fin B => iid n (gaussianReal m v.toNNReal))).map
          (Prod.map (fun x i => -(x i)) id) := by
      rw [← Measure.map_prod_map _ _ hme.measurable measurable_id, Measure.map_id, e1]
    rw [e2, (hme.prodMap MeasurableEmbedding.id).map_apply]
    congr 1
    ext ω
    show TestRejects _ α (fun i => -(ω.1 i)) ω.2 ↔ TestRejects _ α ω.1 ω.2
    have hval : (s.statistic scipyNorm code params).execute (List.ofFn fun i => -(ω.1 i)) =
        (s.statistic scipyNorm code params).execute (List.ofFn ω.1) := by
      have := C115_mirror scipyNorm_mirror (s := s) (by rcases hs with rfl | rfl <;> trivial) (List.ofFn ω.1)
      rw [List.map_ofFn] at this
      simp only [NormStat.statistic]
      rw [← this]
      rfl
    rw [testRejects_iff hn, testRejects_iff hn, hval]
  refine ⟨G, hG, hgen, ?_, key, not_consistent (m := 1) fun n hn => key n hn 99 (by norm_num) _⟩
  intro h
  have := congrArg (fun μ : Measure ℝ => ∫ x, x ∂μ) h
  simp only [integral_id_gaussianReal] at this
  exact hm (by linarith)

example : ∃ G, (Gen.Family.normal 3 4).simulator generatorClasses = .ok G ∧
    ¬ Consistent (NormStat.cvm.statistic scipyNorm "CVM" none) (gaussianReal (-3) (Real.toNNReal 4))
      (gaussianReal 3 (Real.toNNReal 4)) := by
  obtain ⟨G, h1, _, _, _, h2⟩ := C135_refuted_normal (s := .cvm) (.inr rfl) "CVM" none generatorClasses (List.Perm.refl _)
    (m := 3) (v := 4) (by norm_num) (by norm_num)
  exact ⟨G, h1, h2⟩

end Pysatl.Props
