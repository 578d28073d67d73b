import Verif.Props.LogNormalSimple

/-! # C125: a true hypothesis is rejected when the simulated samples do not follow it

The generators of the gamma, beta and Student families are called without some of the parameters of the hypothesis. -/

namespace Pysatl.Props

open Pysatl.Decision Pysatl.Resolver Pysatl.Spec Pysatl.Edf Pysatl.Graph Pysatl.Gen
open MeasureTheory ProbabilityTheory Filter Topology

/-- If the simulated samples follow another law `P` than the hypothesis `H`, the two-tailed Kolmogorov-Smirnov criterion
rejects data of the hypothesised law with probability tending to one. -/
theorem rejects_truth (st : Statistic ℝ) {F : ℝ → ℝ} {H P : Measure ℝ} [IsProbabilityMeasure H] [IsProbabilityMeasure P]
    (ht : st.alternative = .twoTailed) (hF : Continuous F) (hcdf : ∀ x, ProbabilityTheory.cdf H x = F x) (hne : P ≠ H)
    (hvH : ∀ n, 0 < n → ∀ᵐ x ∂iid n H, st.execute (List.ofFn x) = (EdfStat.ks .twoTailed).value F (List.ofFn x))
    (hvP : ∀ n, 0 < n → ∀ᵐ x ∂iid n P, st.execute (List.ofFn x) = (EdfStat.ks .twoTailed).value F (List.ofFn x)) :
    Consistent st H P := by
  obtain ⟨x₀, δ, hδ, hsee⟩ := EdfStat.Omnibus.sees (e := .ks .twoTailed) (by simp [EdfStat.Omnibus]) hne
  rw [hcdf] at hsee
  obtain ⟨A, E, hA, hE, h⟩ := edf_separates (.ks .twoTailed) hF hcdf (by simp) hδ hsee
  have restrict : ∀ (R : Measure ℝ) (_ : IsProbabilityMeasure R) (S : ∀ n, Set (Fin n → ℝ)),
      Tendsto (fun n => iid n R (S n)ᶜ) atTop (𝓝 0) →
      (∀ n, 0 < n → ∀ᵐ x ∂iid n R, st.execute (List.ofFn x) = (EdfStat.ks .twoTailed).value F (List.ofFn x)) →
      Tendsto (fun n => iid n R (S n ∩ {x | st.execute (List.ofFn x) =
        (EdfStat.ks .twoTailed).value F (List.ofFn x)})ᶜ) atTop (𝓝 0) := by
    intro R _ S hS hv
    refine hS.congr' ?_
    filter_upwards [eventually_gt_atTop 0] with n hn
    refine measure_congr ?_
    filter_upwards [hv n hn] with x hx
    refine propext ?_
    show ¬ _ ↔ ¬ _
    exact not_congr ⟨fun h => ⟨h, hx⟩, fun h => h.1⟩
  refine consistent_of_separated (restrict H ‹_› E hE hvH) (restrict P ‹_› A hA hvP) (Or.inr ⟨by simp [ht], ?_⟩)
  filter_upwards [eventually_gt_atTop 0] with n hn
  rintro x ⟨hx, hx'⟩ y ⟨hy, hy'⟩
  obtain ⟨d, d', hd, hd', hlt⟩ := h n hn y hy x hx
  exact ⟨d', d, Eq.trans hx' hd', Eq.trans hy' hd, hlt⟩

variable {classes : List GeneratorClass} (hp : classes.Perm generatorClasses)

include hp in
/-- **C125, refuted for every gamma hypothesis of shape other than one**: data of exactly the hypothesised law are rejected
with probability tending to one, at every level. -/
theorem C125_refuted_gamma_large {lib : Gamma.GammaLib} (hlib : ScipyGamma lib) {a β : ℝ} (ha : 0 < a) (ha1 : a ≠ 1)
    (hβ : 0 < β) :
    ∃ G P, (Gen.Family.gamma a β).simulator classes = .ok G ∧ (∀ n, G.generate n = .ok (iid n P)) ∧
      Consistent ((Gamma.GammaStat.ks .twoTailed).statistic lib ⟨a, β⟩) (gammaMeasure a β) P := by
  have hpr := isProbabilityMeasure_gammaMeasure one_pos hβ
  have hpa := isProbabilityMeasure_gammaMeasure ha hβ
  obtain ⟨G, hG, hgen⟩ := simulates_all fun n => simulates (simulator_law hp (.gamma a β)) (gamma_rvs_one hβ) n
  have hv : ∀ n, 0 < n → ∀ x : Fin n → ℝ, ((Gamma.GammaStat.ks .twoTailed).statistic lib ⟨a, β⟩).execute (List.ofFn x) =
      (EdfStat.ks .twoTailed).value (fun x => ProbabilityTheory.cdf (gammaMeasure a β) x) (List.ofFn x) := fun n hn x =>
    gamma_edf hlib (p := ⟨a, β⟩) ha hβ (s := .ks .twoTailed) (e := .ks .twoTailed) rfl (by rw [Ne, List.ofFn_eq_nil_iff]; omega)
  exact ⟨G, _, hG, hgen, rejects_truth _ rfl (continuous_cdf (gammaMeasure a β)) (fun _ => rfl) (gamma_ne ha hβ ha1)
    (fun n hn => .of_forall (hv n hn)) (fun n hn => .of_forall (hv n hn))⟩

theorem beta_ne {a b : ℝ} (ha : 0 < a) (hb : 0 < b) (hab : ¬ (a = 1 ∧ b = 1)) : betaMeasure 1 1 ≠ betaMeasure a b := by
  intro h
  have hm : ∀ a b : ℝ, Measurable (betaPDF a b) := fun a b => (measurable_betaPDFReal a b).ennreal_ofReal
  have hpr : IsProbabilityMeasure (betaMeasure 1 1) := isProbabilityMeasureBeta one_pos one_pos
  have hae : betaPDF 1 1 =ᵐ[volume] betaPDF a b := by
    refine (withDensity_eq_iff (hm 1 1).aemeasurable (hm a b).aemeasurable ?_).1 h
    rw [lintegral_betaPDF_eq_one one_pos one_pos]
    exact ENNReal.one_ne_top
  have hB := beta_pos ha hb
  have hB1 := beta_pos (one_pos (α := ℝ)) (one_pos (α := ℝ))
  set f : ℝ → ℝ := fun x => Real.log (1 / ProbabilityTheory.beta a b) + (a - 1) * Real.log x + (b - 1) * Real.log (1 - x)
  have hEq : Set.EqOn f (fun _ => Real.log (1 / ProbabilityTheory.beta 1 1)) (Set.Ioo 0 1) := by
    refine Measure.eqOn_open_of_ae_eq (μ := volume) ?_ isOpen_Ioo ?_ continuousOn_const
    · rw [EventuallyEq, ae_restrict_iff' measurableSet_Ioo]
      filter_upwards [hae] with x hx hx01
      rw [betaPDF_of_pos_lt_one hx01.1 hx01.2, betaPDF_of_pos_lt_one hx01.1 hx01.2] at hx
      have h1 : 0 < 1 - x := sub_pos.2 hx01.2
      have h0 := hx01.1
      rw [ENNReal.ofReal_eq_ofReal_iff (by positivity) (by positivity)] at hx
      simp only [sub_self, Real.rpow_zero, mul_one] at hx
      rw [hx, Real.log_mul (by positivity) (by positivity), Real.log_mul (by positivity) (by positivity),
        Real.log_rpow h0, Real.log_rpow h1]
    · refine ContinuousOn.add (ContinuousOn.add continuousOn_const (continuousOn_const.mul ?_))
        (continuousOn_const.mul ?_)
      · exact Real.continuousOn_log.mono fun x hx => hx.1.ne'
      · exact Real.continuousOn_log.comp (by fun_prop) fun x hx => (sub_pos.2 hx.2).ne'
  have e1 := hEq (show (1 / 4 : ℝ) ∈ Set.Ioo 0 1 by norm_num)
  have e2 := hEq (show (1 / 2 : ℝ) ∈ Set.Ioo 0 1 by norm_num)
  have e3 := hEq (show (3 / 4 : ℝ) ∈ Set.Ioo 0 1 by norm_num)
  simp only [f] at e1 e2 e3
  rw [show (1 - 1 / 4 : ℝ) = 3 / 4 by norm_num] at e1
  rw [show (1 - 1 / 2 : ℝ) = 1 / 2 by norm_num] at e2
  rw [show (1 - 3 / 4 : ℝ) = 1 / 4 by norm_num] at e3
  have h13 : Real.log (1 / 4) < Real.log (3 / 4) := Real.log_lt_log (by norm_num) (by norm_num)
  have hab' : a = b := by
    have : (a - b) * (Real.log (3 / 4) - Real.log (1 / 4)) = 0 := by linarith
    rcases mul_eq_zero.1 this with h | h <;> linarith
  subst hab'
  have hl : Real.log (1 / 4) + Real.log (3 / 4) < Real.log (1 / 2) + Real.log (1 / 2) := by
    rw [← Real.log_mul (by norm_num) (by norm_num), ← Real.log_mul (by norm_num) (by norm_num)]
    exact Real.log_lt_log (by norm_num) (by norm_num)
  have : (a - 1) * (Real.log (1 / 4) + Real.log (3 / 4) - (Real.log (1 / 2) + Real.log (1 / 2))) = 0 := by linarith
  rcases mul_eq_zero.1 this with h | h
  · exact hab ⟨by linarith, by linarith⟩
  · linarith

include hp in
/-- **C125, refuted for every beta hypothesis other than the uniform one**: the samples are simulated with both shapes equal
to one, and data of exactly the hypothesised law are rejected with probability tending to one, at every level. -/
theorem C125_refuted_beta {lib : Beta.BetaLib} (hlib : ScipyBetaCdf lib) {a b : ℝ} (ha : 0 < a) (hb : 0 < b)
    (hab : ¬ (a = 1 ∧ b = 1)) (code : String) :
    ∃ G P, (Gen.Family.beta a b).simulator classes = .ok G ∧ (∀ n, G.generate n = .ok (iid n P)) ∧
      Consistent ((Beta.BetaStat.ks .twoTailed).statistic lib ⟨a, b⟩ code) (betaMeasure a b) P := by
  have hpr : IsProbabilityMeasure (betaMeasure 1 1) := isProbabilityMeasureBeta one_pos one_pos
  have hpa : IsProbabilityMeasure (betaMeasure a b) := isProbabilityMeasureBeta ha hb
  obtain ⟨G, hG, hgen⟩ := simulates_all fun n => simulates (simulator_law hp (.beta a b)) (beta_rvs one_pos one_pos) n
  have hv : ∀ R : Measure ℝ, IsProbabilityMeasure R → (∀ᵐ x ∂R, 0 ≤ x ∧ x ≤ 1) → ∀ n, 0 < n → ∀ᵐ x ∂iid n R,
      ((Beta.BetaStat.ks .twoTailed).statistic lib ⟨a, b⟩ code).execute (List.ofFn x) =
      (EdfStat.ks .twoTailed).value (fun x => ProbabilityTheory.cdf (betaMeasure a b) x) (List.ofFn x) := by
    intro R _ hR n hn
    filter_upwards [iid_ae (n := n) hR] with x hx
    refine beta_edf hlib (p := ⟨a, b⟩) ha hb (s := .ks .twoTailed) rfl fun t ht => ?_
    obtain ⟨i, rfl⟩ := (List.mem_ofFn' _ _).1 ht
    exact hx i
  exact ⟨G, _, hG, hgen, rejects_truth _ rfl (continuous_cdf (betaMeasure a b)) (fun _ => rfl) (beta_ne ha hb hab)
    (hv _ hpa beta_inside) (hv _ hpr beta_inside)⟩

theorem student_cdf_injective {k : ℝ} (hk : 0 < k) {x y : ℝ}
    (h : ProbabilityTheory.cdf (studentLaw k) x = ProbabilityTheory.cdf (studentLaw k) y) : x = y := by
  have := student_prob hk
  wlog hxy : x ≤ y generalizing x y
  · exact (this h.symm (not_le.1 hxy).le).symm
  by_contra hne
  have hlt := lt_of_le_of_ne hxy hne
  have h0 : studentLaw k (Set.Ioc x y) = 0 := by
    rw [← measure_cdf (studentLaw k), StieltjesFunction.measure_Ioc, h, sub_self, ENNReal.ofReal_zero]
  rw [studentLaw, density, withDensity_apply_eq_zero (by fun_prop)] at h0
  have hsub : Set.Ioc x y ⊆ {z : ℝ | ENNReal.ofReal (Real.Gamma ((k + 1) / 2) /
      (√(k * Real.pi) * Real.Gamma (k / 2)) * (1 + z ^ 2 / k) ^ (-((k + 1) / 2))) ≠ 0} ∩ Set.Ioc x y := by
    refine fun z hz => ⟨?_, hz⟩
    have h1 := Real.Gamma_pos_of_pos (by linarith : 0 < (k + 1) / 2)
    have h2 := Real.Gamma_pos_of_pos (by linarith : 0 < k / 2)
    have h3 := Real.pi_pos
    rw [Set.mem_ofPred_eq, ne_eq, ENNReal.ofReal_eq_zero, not_le]
    positivity
  have := measure_mono_null hsub h0
  rw [Real.volume_Ioc, ENNReal.ofReal_eq_zero] at this
  linarith

/-- The hypothesised law of the Student criteria: location `m` and scale `c`. -/
noncomputable def studentAt (k m c : ℝ) : Measure ℝ := (studentLaw k).map fun z => m + c * z

section
variable {lib : Student.StudentLib} (hlib : ScipyStudent lib) {k m c : ℝ} (hk : 0 < k) (hc : 0 < c)

include hk in
theorem studentAt_prob : IsProbabilityMeasure (studentAt k m c) := by
  have hpr := student_prob hk
  exact Measure.isProbabilityMeasure_map (by fun_prop)

include hk hc in
theorem cdf_studentAt (x : ℝ) :
    ProbabilityTheory.cdf (studentAt k m c) x = ProbabilityTheory.cdf (studentLaw k) ((x - m) / c) := by
  have hpr := student_prob hk
  have hpa := studentAt_prob (m := m) (c := c) hk
  rw [cdf_eq_real, cdf_eq_real, studentAt, map_measureReal_apply (by fun_prop) measurableSet_Iic]
  congr 1
  ext z
  simp only [Set.mem_preimage, Set.mem_Iic, le_div_iff₀ hc]
  constructor <;> intro h <;> linarith

include hk in
theorem studentAt_continuous : Continuous fun x => ProbabilityTheory.cdf (studentLaw k) ((x - m) / c) := by
  have hpr := student_prob hk
  exact (continuous_cdf (studentLaw k)).comp (by fun_prop)

include hk hc in
theorem studentAt_ne (hmc : ¬ (m = 0 ∧ c = 1)) : studentLaw k ≠ studentAt k m c := by
  intro h
  have key : ∀ x : ℝ, x = (x - m) / c := fun x => student_cdf_injective hk (by rw [← cdf_studentAt hk hc, ← h])
  have h0 := key 0
  have h1 := key 1
  rw [eq_div_iff hc.ne'] at h0 h1
  exact hmc ⟨by linarith, by linarith⟩

include hlib hk in
theorem studentAt_edf {s : Student.StudentStat} {e : EdfStat} (hs : s.edf = some e) (hl : s ≠ .lilliefors)
    (xs : List ℝ) : (s.statistic lib ⟨k, m, c⟩).execute xs =
      e.value (fun x => ProbabilityTheory.cdf (studentLaw k) ((x - m) / c)) xs := by
  have h1 : lib.cdf k = fun x => ProbabilityTheory.cdf (studentLaw k) x := by
    funext x; rw [hlib.cdf hk]
  have h : (Student.standardized ⟨k, m, c⟩ xs).map (lib.cdf k) =
      (sort xs).map fun x => ProbabilityTheory.cdf (studentLaw k) ((x - m) / c) := by
    rw [Student.standardized, List.map_map, h1]
    rfl
  rw [EdfStat.value_eq, ← h]
  cases s <;> simp only [Student.StudentStat.edf, Option.some.injEq, reduceCtorEq] at hs <;> subst hs <;>
    simp only [Student.StudentStat.statistic, Student.StudentStat.value, EdfStat.ofVals]
  case lilliefors => exact absurd rfl hl
  case andersonDarling =>
    rw [List.map_map, List.map_map]
    congr 3
    · funext x; rw [hlib.logcdf hk, h1]; rfl
    · funext x; rw [hlib.logsf hk, h1]; rfl

include hk hc in
theorem studentAt_ac : studentLaw k ≪ studentAt k m c := by
  have h1 : (volume : Measure ℝ) ≪ studentLaw k := by
    refine withDensity_absolutelyContinuous' (by fun_prop) (.of_forall fun z => ?_)
    have h1 := Real.Gamma_pos_of_pos (by linarith : 0 < (k + 1) / 2)
    have h2 := Real.Gamma_pos_of_pos (by linarith : 0 < k / 2)
    have h3 := Real.pi_pos
    rw [ne_eq, ENNReal.ofReal_eq_zero, not_le]
    positivity
  have h2 : studentLaw k ≪ (volume : Measure ℝ) := withDensity_absolutelyContinuous _ _
  have hm : Measurable fun z : ℝ => m + c * z := by fun_prop
  have h3 : (volume : Measure ℝ) ≪ (volume : Measure ℝ).map fun z => m + c * z := by
    have e : (fun z : ℝ => m + c * z) = (fun z => m + z) ∘ fun z => c * z := rfl
    rw [e, ← Measure.map_map (by fun_prop) (by fun_prop), Real.map_volume_mul_left hc.ne', Measure.map_smul,
      map_add_left_eq_self]
    refine Measure.absolutelyContinuous_smul ?_
    simp [hc.ne']
  exact (h2.trans h3).trans (h1.map hm)

include hp hlib hk hc in
/-- **C125, refuted for every Student hypothesis with a location or a scale**: the samples are simulated with location zero
and scale one, and data of exactly the hypothesised law are rejected with probability tending to one, at every level. -/
theorem C125_refuted_student (hmc : ¬ (m = 0 ∧ c = 1)) :
    ∃ G P, (Gen.Family.student k m c).simulator classes = .ok G ∧ (∀ n, G.generate n = .ok (iid n P)) ∧
      Consistent ((Student.StudentStat.ks .twoTailed).statistic lib ⟨k, m, c⟩) (studentAt k m c) P := by
  have hpr := student_prob hk
  have hpa := studentAt_prob (m := m) (c := c) hk
  obtain ⟨G, hG, hgen⟩ := simulates_all (f := .student k m c) fun n => (C111_degreesOfFreedom classes hp k hk n).2
  exact ⟨G, _, hG, hgen, rejects_truth _ rfl (studentAt_continuous hk) (cdf_studentAt hk hc) (studentAt_ne hk hc hmc)
    (fun n _ => .of_forall fun x => studentAt_edf hlib hk (s := .ks .twoTailed) rfl (by simp) _)
    (fun n _ => .of_forall fun x => studentAt_edf hlib hk (s := .ks .twoTailed) rfl (by simp) _)⟩

include hp hlib hk hc in
/-- **C135, refuted for every Student hypothesis with a location or a scale**: data with location zero and scale one are not
detected.  However large the sample, they are rejected no more often than the level allows.  (The Lilliefors class has no
location and scale.) -/
theorem C135_refuted_student (hmc : ¬ (m = 0 ∧ c = 1)) {s : Student.StudentStat} {e : EdfStat} (hs : s.edf = some e)
    (hl : s ≠ .lilliefors) :
    ∃ (G : Generator) (Q : Measure ℝ), (Gen.Family.student k m c).simulator classes = .ok G ∧
      (∀ n, G.generate n = .ok (iid n Q)) ∧ IsProbabilityMeasure Q ∧ Q ≠ studentAt k m c ∧
      (∀ n, e.least ≤ n → ∀ B, 0 < B → ∀ α, ((iid n Q).prod (Measure.pi fun _ : Fin B => iid n Q))
        {ω | TestRejects (s.statistic lib ⟨k, m, c⟩) α ω.1 ω.2} ≤
        (rankBound s.alternative α B : ENNReal) / (B + 1 : ℕ)) ∧
      ¬ Consistent (s.statistic lib ⟨k, m, c⟩) Q Q := by
  have hpr := student_prob hk
  have hpa := studentAt_prob (m := m) (c := c) hk
  obtain ⟨G, hG, hgen⟩ := simulates_all (f := .student k m c) fun n => (C111_degreesOfFreedom classes hp k hk n).2
  have key : ∀ n, e.least ≤ n → ∀ B, 0 < B → KeepsLevel (s.statistic lib ⟨k, m, c⟩) (iid n (studentLaw k))
      (iid n (studentLaw k)) B := fun n hn B hB =>
    simple_level (s.statistic lib ⟨k, m, c⟩) e (studentAt_continuous hk) (cdf_studentAt hk hc) (studentAt_ac hk hc)
      hn hB (g := fun u => u) measurable_id (fun _ _ h => h)
      (.of_forall fun x => by rw [except_map_self, studentAt_edf hlib hk hs hl])
  exact ⟨G, _, hG, hgen, hpr, studentAt_ne hk hc hmc, fun n hn B hB α => (key n hn B hB).1 α,
    not_consistent (m := e.least) fun n hn => (key n hn 99 (by norm_num)).1 _⟩

end

theorem beta_ac {a b : ℝ} (ha : 0 < a) (hb : 0 < b) : betaMeasure 1 1 ≪ betaMeasure a b := by
  refine Measure.AbsolutelyContinuous.mk fun s hs h => ?_
  have hm : ∀ a b : ℝ, Measurable (betaPDF a b) := fun a b => (measurable_betaPDFReal a b).ennreal_ofReal
  change volume.withDensity (betaPDF a b) s = 0 at h
  show volume.withDensity (betaPDF 1 1) s = 0
  rw [withDensity_apply_eq_zero (hm _ _)] at h ⊢
  refine measure_mono_null ?_ h
  intro x hx
  refine ⟨?_, hx.2⟩
  have h0 : 0 < x := by
    by_contra hc
    exact hx.1 (betaPDF_eq_zero_of_nonpos (not_lt.1 hc))
  have h1 : x < 1 := by
    by_contra hc
    exact hx.1 (betaPDF_eq_zero_of_one_le (not_lt.1 hc))
  rw [Set.mem_ofPred_eq, betaPDF, ne_eq, ENNReal.ofReal_eq_zero, not_le]
  exact betaPDFReal_pos h0 h1 ha hb

include hp in
/-- **C135, refuted for every beta hypothesis other than the uniform one**: uniform data are not detected.  However large the
sample, they are rejected no more often than the level allows. -/
theorem C135_refuted_beta {lib : Beta.BetaLib} (hlib : ScipyBetaCdf lib) {a b : ℝ} (ha : 0 < a) (hb : 0 < b)
    (hab : ¬ (a = 1 ∧ b = 1)) {s : Beta.BetaStat} {e : EdfStat} (hs : s.edf = some e) (code : String) :
    ∃ (G : Generator) (Q : Measure ℝ), (Gen.Family.beta a b).simulator classes = .ok G ∧
      (∀ n, G.generate n = .ok (iid n Q)) ∧ IsProbabilityMeasure Q ∧ Q ≠ betaMeasure a b ∧
      (∀ n, e.least ≤ n → ∀ B, 0 < B → ∀ α, ((iid n Q).prod (Measure.pi fun _ : Fin B => iid n Q))
        {ω | TestRejects (s.statistic lib ⟨a, b⟩ code) α ω.1 ω.2} ≤
        (rankBound s.alternative α B : ENNReal) / (B + 1 : ℕ)) ∧
      ¬ Consistent (s.statistic lib ⟨a, b⟩ code) Q Q := by
  have hpr : IsProbabilityMeasure (betaMeasure 1 1) := isProbabilityMeasureBeta one_pos one_pos
  have hpa : IsProbabilityMeasure (betaMeasure a b) := isProbabilityMeasureBeta ha hb
  obtain ⟨G, hG, hgen⟩ := simulates_all fun n => simulates (simulator_law hp (.beta a b)) (beta_rvs one_pos one_pos) n
  have key : ∀ n, e.least ≤ n → ∀ B, 0 < B → KeepsLevel (s.statistic lib ⟨a, b⟩ code) (iid n (betaMeasure 1 1))
      (iid n (betaMeasure 1 1)) B := by
    intro n hn B hB
    refine simple_level (s.statistic lib ⟨a, b⟩ code) e (continuous_cdf (betaMeasure a b)) (fun _ => rfl)
      (beta_ac ha hb) hn hB (g := fun u => u) measurable_id (fun _ _ h => h) ?_
    filter_upwards [iid_ae (n := n) (beta_inside (a := 1) (b := 1))] with x hx
    rw [except_map_self]
    refine beta_edf hlib (p := ⟨a, b⟩) ha hb hs fun t ht => ?_
    obtain ⟨i, rfl⟩ := (List.mem_ofFn' _ _).1 ht
    exact hx i
  exact ⟨G, _, hG, hgen, hpr, beta_ne ha hb hab, fun n hn B hB α => (key n hn B hB).1 α,
    not_consistent (m := e.least) fun n hn => (key n hn 99 (by norm_num)).1 _⟩

example : ∃ G P, (Gen.Family.gamma 2 3).simulator generatorClasses = .ok G ∧ (∀ n, G.generate n = .ok (iid n P)) ∧
    Consistent ((Gamma.GammaStat.ks .twoTailed).statistic idealGamma ⟨2, 3⟩) (gammaMeasure 2 3) P :=
  C125_refuted_gamma_large (List.Perm.refl _) scipyGamma_ideal (by norm_num) (by norm_num) (by norm_num)

example : ∃ G P, (Gen.Family.beta 2 3).simulator generatorClasses = .ok G ∧ (∀ n, G.generate n = .ok (iid n P)) ∧
    Consistent ((Beta.BetaStat.ks .twoTailed).statistic idealBeta ⟨2, 3⟩ "KS") (betaMeasure 2 3) P :=
  C125_refuted_beta (List.Perm.refl _) scipyBetaCdf_ideal (by norm_num) (by norm_num) (by norm_num) _

example : ∃ G P, (Gen.Family.student 5 1 1).simulator generatorClasses = .ok G ∧ (∀ n, G.generate n = .ok (iid n P)) ∧
    Consistent ((Student.StudentStat.ks .twoTailed).statistic idealStudent ⟨5, 1, 1⟩) (studentAt 5 1 1) P :=
  C125_refuted_student (List.Perm.refl _) scipyStudent_ideal (by norm_num) (by norm_num) (by norm_num)

example : ∃ (G : Generator) (Q : Measure ℝ), (Gen.Family.beta 2 3).simulator generatorClasses = .ok G ∧
    (∀ n, G.generate n = .ok (iid n Q)) ∧ Q ≠ betaMeasure 2 3 ∧
    ¬ Consistent (Beta.BetaStat.watson.statistic idealBeta ⟨2, 3⟩ "W") Q Q := by
  obtain ⟨G, Q, h1, h2, _, h3, _, h4⟩ := C135_refuted_beta (List.Perm.refl generatorClasses) scipyBetaCdf_ideal (a := 2)
    (b := 3) (by norm_num) (by norm_num) (by norm_num) (s := .watson) rfl "W"
  exact ⟨G, Q, h1, h2, h3, h4⟩

example : ∃ (G : Generator) (Q : Measure ℝ), (Gen.Family.student 5 1 2).simulator generatorClasses = .ok G ∧
    (∀ n, G.generate n = .ok (iid n Q)) ∧ Q ≠ studentAt 5 1 2 ∧
    ¬ Consistent (Student.StudentStat.cvm.statistic idealStudent ⟨5, 1, 2⟩) Q Q := by
  obtain ⟨G, Q, h1, h2, _, h3, _, h4⟩ := C135_refuted_student (List.Perm.refl generatorClasses) scipyStudent_ideal
    (k := 5) (m := 1) (c := 2) (by norm_num) (by norm_num) (by norm_num) (s := .cvm) rfl (by simp)
  exact ⟨G, Q, h1, h2, h3, h4⟩

end Pysatl.Props
