import Verif.Props.ConsistencyEdf

/-! # C135: consistency, family by family -/

namespace Pysatl.Props

open Pysatl.Decision Pysatl.Resolver Pysatl.Spec Pysatl.Edf Pysatl.Graph Pysatl.Gen
open Pysatl.Uniform Pysatl.Weibull Pysatl.Normal Pysatl.Exponent
open MeasureTheory ProbabilityTheory Filter Topology

/-- One generator for all sample sizes. -/
theorem simulates_all {f : Gen.Family} {classes : List GeneratorClass} {M : ∀ n, Measure (Fin n → ℝ)}
    (h : ∀ n, ∃ G, f.simulator classes = .ok G ∧ G.generate n = .ok (M n)) :
    ∃ G, f.simulator classes = .ok G ∧ ∀ n, G.generate n = .ok (M n) := by
  obtain ⟨G, hG, _⟩ := h 0
  refine ⟨G, hG, fun n => ?_⟩
  obtain ⟨G', hG', hn⟩ := h n
  rw [hG] at hG'
  cases hG'
  exact hn

theorem uniformCdf_inner {a b x : ℝ} (hab : a < b) : (0 < uniformCdf a b x ∧ uniformCdf a b x < 1) ↔ a < x ∧ x < b := by
  have hba : 0 < b - a := sub_pos.2 hab
  unfold uniformCdf
  constructor
  · intro h
    constructor
    · by_contra hc
      rw [if_pos (not_lt.1 hc)] at h
      exact lt_irrefl _ h.1
    · by_contra hc
      by_cases ha : x ≤ a
      · rw [if_pos ha] at h; exact lt_irrefl _ h.1
      · rw [if_neg ha, if_pos (not_lt.1 hc)] at h
        exact lt_irrefl _ h.2
  · rintro ⟨h1, h2⟩
    rw [if_neg (not_le.2 h1), if_neg (not_le.2 h2)]
    exact ⟨div_pos (sub_pos.2 h1) hba, (div_lt_one hba).2 (by linarith)⟩

theorem uniform_consistent {s : UniStat} {e : EdfStat} (hs : s.edf = some e) (ht : s.alternative ≠ .left) (code : String)
    {a b : ℝ} (hab : a < b) {Q : Measure ℝ} [IsProbabilityMeasure Q] (hin : ∀ᵐ x ∂Q, a < x ∧ x < b) {x₀ δ : ℝ}
    (hδ : 0 < δ) (hsee : e.Sees δ (ProbabilityTheory.cdf Q x₀ - ProbabilityTheory.cdf (uniformLaw a b) x₀)) :
    Consistent (s.statistic a b code) Q (uniformLaw a b) := by
  have h := cdf_uniformLaw hab
  have := h.1
  have hv : ∀ R : Measure ℝ, IsProbabilityMeasure R → (∀ᵐ x ∂R, a < x ∧ x < b) → ∀ n, 0 < n → ∀ᵐ x ∂iid n R,
      (s.statistic a b code).execute (List.ofFn x) = (e.value (uniformCdf a b) (List.ofFn x)).map (s.rescale n) := by
    intro R _ hR n hn
    filter_upwards [iid_ae (n := n) hR] with x hx
    have hne : List.ofFn x ≠ [] := by rw [Ne, List.ofFn_eq_nil_iff]; omega
    have := uniform_edf (a := a) (b := b) hs hne fun t ht => by
      obtain ⟨i, rfl⟩ := (List.mem_ofFn' _ _).1 ht
      exact hx i
    rw [List.length_ofFn] at this
    exact this
  refine edf_consistent (s.statistic a b code) e ht (uniformCdf_continuous hab) h.2
    (fun _ => hin.mono fun x hx => (uniformCdf_inner hab).2 hx) hδ (by rw [← h.2]; exact hsee) (g := s.rescale) ?_
    (hv Q ‹_› hin) (hv _ ‹_› ((ae_cdf_inner (uniformCdf_continuous hab) h.2).mono fun x hx => (uniformCdf_inner hab).1 hx))
  intro n hn u v huv
  have hn1 : (0 : ℝ) < n := by exact_mod_cast hn
  cases s <;> try exact huv
  show u / n + 1 / 4 < v / n + 1 / 4
  have := div_lt_div_of_pos_right huv hn1
  linarith

/-- **C135, uniform family.** The hypothesis is the uniform distribution on `[a, b]`; the data are independent observations
of any other law on `(a, b)`. -/
theorem C135_uniform {s : UniStat} {e : EdfStat} (hs : s.edf = some e) (he : e.Omnibus) (code : String)
    (classes : List GeneratorClass) (hp : classes.Perm generatorClasses) {a b : ℝ} (hab : a < b) :
    ∃ G, (Gen.Family.uniform a b).simulator classes = .ok G ∧ (∀ n, G.generate n = .ok (iid n (uniformLaw a b))) ∧
      ∀ Q : Measure ℝ, IsProbabilityMeasure Q → (∀ᵐ x ∂Q, a < x ∧ x < b) → Q ≠ uniformLaw a b →
        Consistent (s.statistic a b code) Q (uniformLaw a b) := by
  obtain ⟨G, hG, hgen⟩ := simulates_all (f := .uniform a b) fun n => C111_uniform classes hp a b hab n
  refine ⟨G, hG, hgen, fun Q _ hin hne => ?_⟩
  have := (cdf_uniformLaw hab).1
  obtain ⟨x₀, δ, hδ, hsee⟩ := he.sees hne
  refine uniform_consistent hs ?_ code hab hin hδ hsee
  cases s <;> simp only [UniStat.edf, Option.some.injEq, reduceCtorEq] at hs <;> subst hs <;>
    simp_all [EdfStat.Omnibus, UniStat.alternative]

/-- **C135, uniform family**: the one-sided criterion detects the laws whose distribution function exceeds the hypothesised
one somewhere. -/
theorem C135_uniform_right (code : String) {a b : ℝ} (hab : a < b) {Q : Measure ℝ} [IsProbabilityMeasure Q]
    (hin : ∀ᵐ x ∂Q, a < x ∧ x < b) {x₀ : ℝ} (hx : (uniformLaw a b).real (Set.Iic x₀) < Q.real (Set.Iic x₀)) :
    Consistent ((UniStat.ks .right).statistic a b code) Q (uniformLaw a b) := by
  have := (cdf_uniformLaw hab).1
  rw [← cdf_eq_real, ← cdf_eq_real] at hx
  exact uniform_consistent (s := .ks .right) rfl (by simp [UniStat.alternative]) code hab hin (sub_pos.2 hx)
    (show _ ≤ _ from le_rfl)

theorem uniform_inside {a b : ℝ} (hab : a < b) : ∀ᵐ x ∂(uniformLaw a b), a < x ∧ x < b := by
  have h := cdf_uniformLaw hab
  have := h.1
  exact (ae_cdf_inner (uniformCdf_continuous hab) h.2).mono fun x hx => (uniformCdf_inner hab).1 hx

/-- Observations on `[1, 2]` contradict the uniform distribution on `[0, 2]`. -/
theorem uniform_half : ∀ᵐ x ∂(uniformLaw 1 2), (0 : ℝ) < x ∧ x < 2 :=
  (uniform_inside one_lt_two).mono fun x hx => ⟨by linarith [hx.1], hx.2⟩

theorem uniform_half_lt : (uniformLaw 1 2).real (Set.Iic 1) < (uniformLaw 0 2).real (Set.Iic (1 : ℝ)) := by
  have h1 := cdf_uniformLaw (one_lt_two (α := ℝ))
  have h2 := cdf_uniformLaw (two_pos (α := ℝ))
  have := h1.1
  have := h2.1
  rw [← cdf_eq_real, ← cdf_eq_real, h1.2, h2.2]
  norm_num [uniformCdf]

theorem uniform_half_ne : uniformLaw 1 2 ≠ uniformLaw 0 2 := fun h => by
  have := uniform_half_lt
  rw [h] at this
  exact lt_irrefl _ this

example : Consistent (UniStat.watson.statistic 0 2 "WATSON_UNIFORM") (uniformLaw 1 2) (uniformLaw 0 2) := by
  obtain ⟨_, _, _, h⟩ := C135_uniform (s := .watson) rfl (by simp [EdfStat.Omnibus]) "WATSON_UNIFORM" generatorClasses
    (List.Perm.refl _) (a := 0) (b := 2) two_pos
  exact h _ (cdf_uniformLaw one_lt_two).1 uniform_half uniform_half_ne

/-- **C135, normal family, what holds**: the hypothesis is the standard normal law.  The data are independent observations of
any other law. -/
theorem C135_normal_partial {s : NormStat} (hs : s = .ks .twoTailed ∨ s = .cvm) (code : String)
    (params : Option (List (String × ℝ))) (classes : List GeneratorClass) (hp : classes.Perm generatorClasses) :
    ∃ G, (Gen.Family.normal 0 1).simulator classes = .ok G ∧ (∀ n, G.generate n = .ok (iid n (gaussianReal 0 1))) ∧
      ∀ Q : Measure ℝ, IsProbabilityMeasure Q → Q ≠ gaussianReal 0 1 →
        Consistent (s.statistic scipyNorm code params) Q (gaussianReal 0 1) := by
  obtain ⟨G, hG, hgen⟩ := simulates_all (f := .normal 0 1) fun n => C111_normal classes hp 0 1 zero_le_one n
  refine ⟨G, hG, fun n => by rw [hgen]; simp, fun Q _ hne => ?_⟩
  obtain ⟨e, he, hval⟩ : ∃ e : EdfStat, e.Omnibus ∧ (e = .ks .twoTailed ∨ e = .cvm) ∧
      ∀ x, (s.statistic scipyNorm code params).execute x = e.value Phi x := by
    rcases hs with rfl | rfl
    · refine ⟨.ks .twoTailed, by simp [EdfStat.Omnibus], Or.inl rfl, fun x => ?_⟩
      show ((ksOf .twoTailed Phi x).map some >>= _) = ksOf .twoTailed Phi x
      cases ksOf .twoTailed Phi x <;> rfl
    · exact ⟨.cvm, by simp [EdfStat.Omnibus], Or.inr rfl, fun x => rfl⟩
  obtain ⟨x₀, δ, hδ, hsee⟩ := he.sees hne
  refine edf_consistent (s.statistic scipyNorm code params) e ?_ Phi_continuous (fun x => rfl)
    (fun _ => .of_forall fun x => ⟨Phi_pos x, Phi_lt_one x⟩) hδ hsee (g := fun _ u => u) (fun _ _ => strictMono_id)
    (fun n _ => .of_forall fun x => ?_) (fun n _ => .of_forall fun x => ?_)
  · rcases hs with rfl | rfl <;> simp [NormStat.statistic, NormStat.alternative]
  · rw [except_map_self, hval.2]
  · rw [except_map_self, hval.2]

example : Consistent ((NormStat.ks .twoTailed).statistic scipyNorm "KS" none) (gaussianReal 1 1) (gaussianReal 0 1) := by
  obtain ⟨_, _, _, h⟩ := C135_normal_partial (s := .ks .twoTailed) (.inl rfl) "KS" none generatorClasses (List.Perm.refl _)
  refine h _ inferInstance fun h => ?_
  have := congrArg (fun μ : Measure ℝ => ∫ x, x ∂μ) h
  simp at this

/-- **C135, exponential family**: Cramer-von Mises for all rates. -/
theorem C135_exponential_cvm {r : ℝ} (hr : 0 < r) (code : String) (params : Option (List (String × ℝ)))
    (classes : List GeneratorClass) (hp : classes.Perm generatorClasses) :
    ∃ G, (Gen.Family.exponential r).simulator classes = .ok G ∧ (∀ n, G.generate n = .ok (iid n (expMeasure r))) ∧
      ∀ Q : Measure ℝ, IsProbabilityMeasure Q → Q ≠ expMeasure r →
        Consistent ((ExpStat.cvm r).statistic code params) Q (expMeasure r) := by
  have hpr : IsProbabilityMeasure (expMeasure r) := isProbabilityMeasure_expMeasure hr
  obtain ⟨G, hG, hgen⟩ := simulates_all (f := .exponential r) fun n => C111_exponential classes hp r hr n
  refine ⟨G, hG, hgen, fun Q _ hne => ?_⟩
  obtain ⟨x₀, δ, hδ, hsee⟩ := EdfStat.Omnibus.sees (e := .cvm) (by simp [EdfStat.Omnibus]) hne
  have hc : Continuous (exponCdf r) := by
    have := continuous_cdf (expMeasure r)
    simp only [cdf_exp hr] at this
    exact this
  exact edf_consistent ((ExpStat.cvm r).statistic code params) .cvm (by simp [ExpStat.statistic, ExpStat.alternative]) hc
    (cdf_exp hr) (fun h => by cases h) hδ (by rw [← cdf_exp hr]; exact hsee) (g := fun _ u => u)
    (fun _ _ => strictMono_id) (fun n _ => .of_forall fun x => rfl) (fun n _ => .of_forall fun x => rfl)

/-- **C135, exponential family, what holds**: Kolmogorov-Smirnov for rate one. -/
theorem C135_exponential_ks_partial (code : String) (params : Option (List (String × ℝ)))
    (classes : List GeneratorClass) (hp : classes.Perm generatorClasses) :
    ∃ G, (Gen.Family.exponential 1).simulator classes = .ok G ∧ (∀ n, G.generate n = .ok (iid n (expMeasure 1))) ∧
      ∀ Q : Measure ℝ, IsProbabilityMeasure Q → Q ≠ expMeasure 1 →
        Consistent ((ExpStat.ks .twoTailed).statistic code params) Q (expMeasure 1) := by
  have hr : (0 : ℝ) < 1 := one_pos
  have hpr : IsProbabilityMeasure (expMeasure 1) := isProbabilityMeasure_expMeasure hr
  obtain ⟨G, hG, hgen⟩ := simulates_all (f := .exponential 1) fun n => C111_exponential classes hp 1 hr n
  refine ⟨G, hG, hgen, fun Q _ hne => ?_⟩
  obtain ⟨x₀, δ, hδ, hsee⟩ := EdfStat.Omnibus.sees (e := .ks .twoTailed) (by simp [EdfStat.Omnibus]) hne
  have hc : Continuous (exponCdf 1) := by
    have := continuous_cdf (expMeasure 1)
    simp only [cdf_exp hr] at this
    exact this
  exact edf_consistent ((ExpStat.ks .twoTailed).statistic code params) (.ks .twoTailed)
    (by simp [ExpStat.statistic, ExpStat.alternative]) hc
    (cdf_exp hr) (fun h => by cases h) hδ (by rw [← cdf_exp hr]; exact hsee) (g := fun _ u => u)
    (fun _ _ => strictMono_id) (fun n _ => .of_forall fun x => (except_map_self _).symm)
    (fun n _ => .of_forall fun x => (except_map_self _).symm)

/-- **C135, gamma family, what holds**: shape `1`, the shape of all simulated samples.  The data are independent positive
observations of any other law. -/
theorem C135_gamma_partial {lib : Gamma.GammaLib} (hlib : ScipyGamma lib) {β : ℝ} (hβ : 0 < β)
    {s : Gamma.GammaStat} {e : EdfStat} (hs : s.edf = some e) (he : e.Omnibus) (classes : List GeneratorClass)
    (hp : classes.Perm generatorClasses) :
    ∃ G, (Gen.Family.gamma 1 β).simulator classes = .ok G ∧ (∀ n, G.generate n = .ok (iid n (gammaMeasure 1 β))) ∧
      ∀ Q : Measure ℝ, IsProbabilityMeasure Q → (∀ᵐ x ∂Q, 0 < x) → Q ≠ gammaMeasure 1 β →
        Consistent (s.statistic lib ⟨1, β⟩) Q (gammaMeasure 1 β) := by
  have hpr := isProbabilityMeasure_gammaMeasure one_pos hβ
  obtain ⟨G, hG, hgen⟩ := simulates_all fun n => simulates (simulator_law hp (.gamma 1 β)) (gamma_rvs_one hβ) n
  refine ⟨G, hG, hgen, fun Q _ hpos hne => ?_⟩
  obtain ⟨x₀, δ, hδ, hsee⟩ := he.sees hne
  have hv : ∀ n, 0 < n → ∀ x : Fin n → ℝ, (s.statistic lib ⟨1, β⟩).execute (List.ofFn x) =
      (e.value (fun x => ProbabilityTheory.cdf (gammaMeasure 1 β) x) (List.ofFn x)).map fun u => u := fun n hn x => by
    rw [except_map_self]
    exact gamma_edf hlib (p := ⟨1, β⟩) one_pos hβ hs (by rw [Ne, List.ofFn_eq_nil_iff]; omega)
  refine edf_consistent (s.statistic lib ⟨1, β⟩) e ?_ (continuous_cdf (gammaMeasure 1 β)) (fun _ => rfl) (fun _ => ?_) hδ hsee
    (g := fun _ u => u) (fun _ _ => strictMono_id) (fun n hn => .of_forall fun x => hv n hn x)
    (fun n hn => .of_forall fun x => hv n hn x)
  · cases s <;> simp only [Gamma.GammaStat.edf, Option.some.injEq, reduceCtorEq] at hs <;> subst hs <;>
      simp_all [EdfStat.Omnibus, Gamma.GammaStat.statistic, Gamma.GammaStat.alternative]
  · filter_upwards [hpos] with x hx using gamma_interior one_pos hβ hx

theorem student_interior {k : ℝ} (hk : 0 < k) (x : ℝ) :
    0 < ProbabilityTheory.cdf (studentLaw k) x ∧ ProbabilityTheory.cdf (studentLaw k) x < 1 := by
  have := student_prob hk
  refine cdf_interior (μ := studentLaw k) (f := fun x => ENNReal.ofReal (Real.Gamma ((k + 1) / 2) /
    (√(k * Real.pi) * Real.Gamma (k / 2)) * (1 + x ^ 2 / k) ^ (-((k + 1) / 2)))) (by fun_prop) rfl (sub_one_lt x)
    (lt_add_one x) fun y _ => ?_
  have h1 := Real.Gamma_pos_of_pos (by linarith : 0 < (k + 1) / 2)
  have h2 := Real.Gamma_pos_of_pos (by linarith : 0 < k / 2)
  have h3 := Real.pi_pos
  rw [ne_eq, ENNReal.ofReal_eq_zero, not_le]
  positivity

/-- **C135, Student family, what holds**: location `0` and scale `1`.  The data are independent observations of any other
law. -/
theorem C135_student_partial {lib : Student.StudentLib} (hlib : ScipyStudent lib) {k : ℝ} (hk : 0 < k)
    {s : Student.StudentStat} {e : EdfStat} (hs : s.edf = some e) (he : e.Omnibus) (classes : List GeneratorClass)
    (hp : classes.Perm generatorClasses) :
    ∃ G, (Gen.Family.student k 0 1).simulator classes = .ok G ∧ (∀ n, G.generate n = .ok (iid n (studentLaw k))) ∧
      ∀ Q : Measure ℝ, IsProbabilityMeasure Q → Q ≠ studentLaw k →
        Consistent (s.statistic lib ⟨k, 0, 1⟩) Q (studentLaw k) := by
  have hpr := student_prob hk
  obtain ⟨G, hG, hgen⟩ := simulates_all (f := .student k 0 1) fun n => (C111_degreesOfFreedom classes hp k hk n).2
  refine ⟨G, hG, hgen, fun Q _ hne => ?_⟩
  obtain ⟨x₀, δ, hδ, hsee⟩ := he.sees hne
  have hv : ∀ n, ∀ x : Fin n → ℝ, (s.statistic lib ⟨k, 0, 1⟩).execute (List.ofFn x) =
      (e.value (fun x => ProbabilityTheory.cdf (studentLaw k) x) (List.ofFn x)).map fun u => u := fun n x => by
    rw [except_map_self]
    exact student_edf hlib hk hs _
  refine edf_consistent (s.statistic lib ⟨k, 0, 1⟩) e ?_ (continuous_cdf (studentLaw k)) (fun _ => rfl) (fun _ => ?_) hδ hsee
    (g := fun _ u => u) (fun _ _ => strictMono_id) (fun n hn => .of_forall fun x => hv n x)
    (fun n hn => .of_forall fun x => hv n x)
  · cases s <;> simp only [Student.StudentStat.edf, Option.some.injEq, reduceCtorEq] at hs <;> subst hs <;>
      simp_all [EdfStat.Omnibus, Student.StudentStat.statistic, Student.StudentStat.alternative]
  · exact .of_forall fun x => student_interior hk x

/-- **C135, beta family, what holds**: both shapes `1`.  The data are independent observations of any other law on
`(0, 1)`. -/
theorem C135_beta_partial {lib : Beta.BetaLib} (hlib : ScipyBetaCdf lib)
    {s : Beta.BetaStat} {e : EdfStat} (hs : s.edf = some e) (he : e.Omnibus) (code : String)
    (classes : List GeneratorClass) (hp : classes.Perm generatorClasses) :
    ∃ G, (Gen.Family.beta 1 1).simulator classes = .ok G ∧ (∀ n, G.generate n = .ok (iid n (betaMeasure 1 1))) ∧
      ∀ Q : Measure ℝ, IsProbabilityMeasure Q → (∀ᵐ x ∂Q, 0 < x ∧ x < 1) → Q ≠ betaMeasure 1 1 →
        Consistent (s.statistic lib ⟨1, 1⟩ code) Q (betaMeasure 1 1) := by
  have hpr : IsProbabilityMeasure (betaMeasure 1 1) := isProbabilityMeasureBeta one_pos one_pos
  obtain ⟨G, hG, hgen⟩ := simulates_all fun n => simulates (simulator_law hp (.beta 1 1)) (beta_rvs one_pos one_pos) n
  refine ⟨G, hG, hgen, fun Q _ hpos hne => ?_⟩
  obtain ⟨x₀, δ, hδ, hsee⟩ := he.sees hne
  have hv : ∀ R : Measure ℝ, IsProbabilityMeasure R → (∀ᵐ x ∂R, 0 ≤ x ∧ x ≤ 1) → ∀ n, 0 < n → ∀ᵐ x ∂iid n R,
      (s.statistic lib ⟨1, 1⟩ code).execute (List.ofFn x) =
      (e.value (fun x => ProbabilityTheory.cdf (betaMeasure 1 1) x) (List.ofFn x)).map fun u => u := by
    intro R _ hR n hn
    filter_upwards [iid_ae (n := n) hR] with x hx
    rw [except_map_self]
    refine beta_edf hlib (p := ⟨1, 1⟩) one_pos one_pos hs fun t ht => ?_
    obtain ⟨i, rfl⟩ := (List.mem_ofFn' _ _).1 ht
    exact hx i
  refine edf_consistent (s.statistic lib ⟨1, 1⟩ code) e ?_ (continuous_cdf (betaMeasure 1 1)) (fun _ => rfl) (fun _ => ?_)
    hδ hsee (g := fun _ u => u) (fun _ _ => strictMono_id) (hv Q ‹_› (hpos.mono fun x hx => ⟨hx.1.le, hx.2.le⟩))
    (hv _ ‹_› beta_inside)
  · cases s <;> simp only [Beta.BetaStat.edf, Option.some.injEq, reduceCtorEq] at hs <;> subst hs <;>
      simp_all [EdfStat.Omnibus, Beta.BetaStat.statistic, Beta.BetaStat.alternative]
  · filter_upwards [hpos] with x hx using beta_interior one_pos one_pos hx.1 hx.2

/-- **C135, Weibull family**, for all shape parameters: the hypothesised law `μ` is the one with distribution function
`(1 - exp (-x^k))^a` on the positive numbers.  The data are independent positive observations of any other law. -/
theorem C135_weibull (min : Minimizer) {s : WeibullStat} {e : EdfStat} (hs : s.edf = some e) (he : e.Omnibus)
    (code : String) (classes : List GeneratorClass) (hp : classes.Perm generatorClasses) {a k : ℝ} (ha : 0 < a)
    (hk : 0 < k) :
    ∃ (μ : Measure ℝ) (G : Generator), (IsProbabilityMeasure μ ∧ ∀ x, μ.real (Set.Iic x) =
        if x ≤ 0 then 0 else (1 - Real.exp (-x ^ k)) ^ a) ∧
      (Gen.Family.weibull a k).simulator classes = .ok G ∧ (∀ n, G.generate n = .ok (iid n μ)) ∧
      ∀ Q : Measure ℝ, IsProbabilityMeasure Q → (∀ᵐ x ∂Q, 0 < x) → Q ≠ μ →
        Consistent (s.statistic min ⟨a, k⟩ code) Q μ := by
  obtain ⟨μ, hr, hpr, hc⟩ := weibull_rvs ha hk
  obtain ⟨G, hG, hgen⟩ := simulates_all fun n => simulates (simulator_law hp (.weibull a k)) hr n
  have hcont : Continuous (Weibull.cdf a k) := by
    have h : NullSingletonClass μ := by
      have e := rvs_ok (d := { name := "exponweib", shapes := [a, k] }) (by exact ⟨ha, hk⟩) (by exact zero_le_one (α := ℝ))
      rw [hr] at e
      rw [Except.ok.inj e]
      show NullSingletonClass (Measure.map (fun z => 0 + 1 * z) (ofDensity _))
      simp only [zero_add, one_mul, Measure.map_id']
      unfold ofDensity
      infer_instance
    have hc' := continuous_cdf μ
    simp only [hc] at hc'
    exact hc'
  refine ⟨μ, G, ⟨hpr, fun x => by rw [← cdf_eq_real, hc]; rfl⟩, hG, hgen, fun Q _ hpos hne => ?_⟩
  obtain ⟨x₀, δ, hδ, hsee⟩ := he.sees hne
  have hv : ∀ n, ∀ x : Fin n → ℝ, (s.statistic min ⟨a, k⟩ code).execute (List.ofFn x) =
      (e.value (Weibull.cdf a k) (List.ofFn x)).map fun u => u := fun n x => by
    rw [except_map_self]
    exact weibull_edf min ⟨a, k⟩ hs (.ndarray (List.ofFn x))
  refine edf_consistent (s.statistic min ⟨a, k⟩ code) e ?_ hcont hc (fun _ => ?_) hδ (by rw [← hc]; exact hsee)
    (g := fun _ u => u) (fun _ _ => strictMono_id) (fun n hn => .of_forall fun x => hv n x)
    (fun n hn => .of_forall fun x => hv n x)
  · cases s <;> simp only [WeibullStat.edf, Option.some.injEq, reduceCtorEq] at hs <;> subst hs <;>
      simp_all [EdfStat.Omnibus, WeibullStat.statistic, WeibullStat.alternative]
  · filter_upwards [hpos] with x hx
    rw [Weibull.cdf, if_neg (not_le.2 hx)]
    have h1 : Real.exp (-x ^ k) < 1 := Real.exp_lt_one_iff.2 (by have := Real.rpow_pos_of_pos hx k; linarith)
    have h2 := Real.exp_pos (-x ^ k)
    exact ⟨Real.rpow_pos_of_pos (by linarith) _, Real.rpow_lt_one (by linarith) (by linarith) ha⟩

example (min : Minimizer) : ∃ μ : Measure ℝ, (∀ x, μ.real (Set.Iic x) =
      if x ≤ 0 then 0 else (1 - Real.exp (-x ^ (3 : ℝ))) ^ (2 : ℝ)) ∧
    Consistent (WeibullStat.cvm.statistic min ⟨2, 3⟩ "CVM_WEIBULL") (uniformLaw 1 2) μ := by
  obtain ⟨μ, _, h0, _, _, h⟩ := C135_weibull min (s := .cvm) rfl (by simp [EdfStat.Omnibus]) "CVM_WEIBULL"
    generatorClasses (List.Perm.refl _) (a := 2) (k := 3) (by norm_num) (by norm_num)
  refine ⟨μ, h0.2, h _ (cdf_uniformLaw one_lt_two).1 (uniform_half.mono fun x hx => hx.1) fun he => ?_⟩
  have h1 := cdf_uniformLaw (one_lt_two (α := ℝ))
  have := h1.1
  have h2 : (uniformLaw 1 2).real (Set.Iic (1 : ℝ)) = 0 := by
    rw [← cdf_eq_real, h1.2]; norm_num [uniformCdf]
  rw [he, h0.2 1, if_neg (by norm_num)] at h2
  have h3 : Real.exp (-(1 : ℝ) ^ (3 : ℝ)) < 1 := by
    rw [Real.exp_lt_one_iff]; simp
  have h4 := Real.rpow_pos_of_pos (by linarith : 0 < 1 - Real.exp (-(1 : ℝ) ^ (3 : ℝ))) 2
  linarith

end Pysatl.Props
