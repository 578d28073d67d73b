import Verif.Props.ConsistencyDesgagne
import Verif.Props.ConsistencyEppsPulley
import Verif.Props.ConsistencyLilliefors
import Verif.Props.ConsistencyNormalRefuted
import Verif.Props.ConsistencyPlot

/-! # C148: criteria of log-normality detect what the criteria of normality detect in the logarithms -/

namespace Pysatl.Props

open Pysatl.Decision Pysatl.Resolver Pysatl.Spec Pysatl.Edf Pysatl.Graph Pysatl.Gen Pysatl.Normal Pysatl.LogNormal
open MeasureTheory ProbabilityTheory Filter Topology

theorem wrapped_tail (cls : NormStat) : wrappedAlternative cls = cls.alternative := by
  cases cls <;> rfl

/-- A positive law is the law of the exponentials of its logarithms. -/
theorem exp_of_logs {Q : Measure ℝ} (h : ∀ᵐ x ∂Q, 0 < x) : (Q.map Real.log).map Real.exp = Q := by
  rw [Measure.map_map Real.measurable_exp Real.measurable_log]
  conv_rhs => rw [← Measure.map_id (μ := Q)]
  exact Measure.map_congr (h.mono fun x hx => Real.exp_log hx)

theorem samples_exp (n B : ℕ) (L P : Measure ℝ) [IsProbabilityMeasure L] [IsProbabilityMeasure P] :
    (iid n (L.map Real.exp)).prod (Measure.pi fun _ : Fin B => iid n (P.map Real.exp)) =
      ((iid n L).prod (Measure.pi fun _ : Fin B => iid n P)).map
        (Prod.map (fun x i => Real.exp (x i)) fun y j i => Real.exp (y j i)) := by
  have h1 := iid_map (n := n) L Real.measurable_exp
  have h2 := iid_map (n := n) P Real.measurable_exp
  have hm : Measurable fun (x : Fin n → ℝ) i => Real.exp (x i) := (measurableEmbedding_exp n).measurable
  have hi : IsProbabilityMeasure ((iid n P).map fun x i => Real.exp (x i)) :=
    Measure.isProbabilityMeasure_map hm.aemeasurable
  have h3 : (Measure.pi fun _ : Fin B => iid n P).map (fun y j i => Real.exp (y j i)) =
      Measure.pi fun _ : Fin B => (iid n P).map fun x i => Real.exp (x i) :=
    Measure.pi_map_pi fun _ => hm.aemeasurable
  rw [← h1, ← h2, ← h3, Measure.map_prod_map _ _ hm (by fun_prop)]

theorem samples_exp_embedding (n B : ℕ) : MeasurableEmbedding
    (Prod.map (fun (x : Fin n → ℝ) i => Real.exp (x i)) fun (y : Fin B → Fin n → ℝ) j i => Real.exp (y j i)) := by
  refine Continuous.measurableEmbedding (by fun_prop) fun a b h => ?_
  refine Prod.ext (funext fun i => ?_) (funext fun j => funext fun i => ?_)
  · exact Real.exp_injective (congrFun (congrArg Prod.fst h) i)
  · exact Real.exp_injective (congrFun (congrFun (congrArg Prod.snd h) j) i)

section
variable {cls : NormStat} (hc : Wrapped cls) {s : ℝ} (hs : 0 < s) (scale : ℝ) (code : String)
  (params : Option (List (String × ℝ)))

include hc hs in
/-- **C148, power**: the observations follow any law `Q` of positive numbers, the reference values are simulated with any
log-normal law.  The probability that the criterion of log-normality rejects is that with which the criterion of normality
rejects the law of the logarithms, for every sample size, number of simulations and level. -/
theorem C148_power (Q : Measure ℝ) [IsProbabilityMeasure Q] (hQ : ∀ᵐ x ∂Q, 0 < x) (mu sigma : ℝ) {n : ℕ} (hn : 0 < n)
    (B : ℕ) (α : ℝ) :
    ((iid n Q).prod (Measure.pi fun _ : Fin B => iid n (logNormalLaw mu sigma)))
        {ω | TestRejects (wrappedStatistic scipyNorm cls s scale code params) α ω.1 ω.2} =
      ((iid n (Q.map Real.log)).prod (Measure.pi fun _ : Fin B => iid n (gaussianReal mu (sigma ^ 2).toNNReal)))
        {ω | TestRejects (cls.statistic scipyNorm code params) α ω.1 ω.2} ∧
    ((iid n Q).prod (Measure.pi fun _ : Fin B => iid n (logNormalLaw mu sigma)))
        {ω | CvRejects (wrappedStatistic scipyNorm cls s scale code params) α ω.1 ω.2} =
      ((iid n (Q.map Real.log)).prod (Measure.pi fun _ : Fin B => iid n (gaussianReal mu (sigma ^ 2).toNNReal)))
        {ω | CvRejects (cls.statistic scipyNorm code params) α ω.1 ω.2} := by
  have hL : IsProbabilityMeasure (Q.map Real.log) := Measure.isProbabilityMeasure_map Real.measurable_log.aemeasurable
  have e : ∀ x : Fin n → ℝ, (wrappedStatistic scipyNorm cls s scale code params).execute (List.ofFn fun i => Real.exp (x i)) =
      (cls.statistic scipyNorm code params).execute (List.ofFn x) := fun x => by
    have := wrappedStatistic_exp scipyNorm_symmetric hc (scale := scale) hs code params (List.ofFn x)
    rwa [List.map_ofFn] at this
  have ha : (wrappedStatistic scipyNorm cls s scale code params).alternative =
      (cls.statistic scipyNorm code params).alternative := wrapped_tail cls
  have hQ' : iid n Q = iid n ((Q.map Real.log).map Real.exp) := by rw [exp_of_logs hQ]
  rw [logNormalLaw, hQ', samples_exp, (samples_exp_embedding n B).map_apply, (samples_exp_embedding n B).map_apply]
  constructor
  · congr 1
    ext ω
    simp only [Set.mem_preimage, Set.mem_setOf_eq, testRejects_iff hn, Prod.map_fst, Prod.map_snd, e, ha]
  · congr 1
    ext ω
    simp only [Set.mem_preimage, Set.mem_setOf_eq, cvRejects_iff hn, Prod.map_fst, Prod.map_snd, e, ha]

include hc hs in
/-- **C148, detection**: a law of positive observations is detected, or missed, by the criterion of log-normality exactly
if its logarithms are by the criterion of normality. -/
theorem C148_detects (Q : Measure ℝ) [IsProbabilityMeasure Q] (hQ : ∀ᵐ x ∂Q, 0 < x) (mu sigma : ℝ) :
    (Consistent (wrappedStatistic scipyNorm cls s scale code params) Q (logNormalLaw mu sigma) ↔
      Consistent (cls.statistic scipyNorm code params) (Q.map Real.log) (gaussianReal mu (sigma ^ 2).toNNReal)) ∧
    (Undetected (wrappedStatistic scipyNorm cls s scale code params) Q (logNormalLaw mu sigma) ↔
      Undetected (cls.statistic scipyNorm code params) (Q.map Real.log) (gaussianReal mu (sigma ^ 2).toNNReal)) := by
  have h1 : ∀ (B : ℕ) (α : ℝ), (fun n => ((iid n Q).prod (Measure.pi fun _ : Fin B => iid n (logNormalLaw mu sigma)))
        {ω | TestRejects (wrappedStatistic scipyNorm cls s scale code params) α ω.1 ω.2}) =ᶠ[atTop] fun n =>
      ((iid n (Q.map Real.log)).prod (Measure.pi fun _ : Fin B => iid n (gaussianReal mu (sigma ^ 2).toNNReal)))
        {ω | TestRejects (cls.statistic scipyNorm code params) α ω.1 ω.2} := fun B α => by
    filter_upwards [eventually_gt_atTop 0] with n hn
    exact (C148_power hc hs scale code params Q hQ mu sigma hn B α).1
  have h2 : ∀ (B : ℕ) (α : ℝ), (fun n => ((iid n Q).prod (Measure.pi fun _ : Fin B => iid n (logNormalLaw mu sigma)))
        {ω | CvRejects (wrappedStatistic scipyNorm cls s scale code params) α ω.1 ω.2}) =ᶠ[atTop] fun n =>
      ((iid n (Q.map Real.log)).prod (Measure.pi fun _ : Fin B => iid n (gaussianReal mu (sigma ^ 2).toNNReal)))
        {ω | CvRejects (cls.statistic scipyNorm code params) α ω.1 ω.2} := fun B α => by
    filter_upwards [eventually_gt_atTop 0] with n hn
    exact (C148_power hc hs scale code params Q hQ mu sigma hn B α).2
  unfold Consistent Undetected
  simp only [fun B α => tendsto_congr' (l₂ := 𝓝 (1 : ENNReal)) (h1 B α),
    fun B α => tendsto_congr' (l₂ := 𝓝 (1 : ENNReal)) (h2 B α),
    fun B α => tendsto_congr' (l₂ := 𝓝 (0 : ENNReal)) (h1 B α),
    fun B α => tendsto_congr' (l₂ := 𝓝 (0 : ENNReal)) (h2 B α), and_self]

end

/-- The generator of log-normal samples, for all sample sizes. -/
theorem with_logNormal {classes : List GeneratorClass} (hp : classes.Perm generatorClasses) (mu : ℝ) {sigma : ℝ}
    (hσ : 0 < sigma) {R : Prop} (h : R) :
    ∃ G, getAvailableGenerator classes .logNormal (some [("s", sigma), ("mu", mu)]) = .ok G ∧
      (∀ n, G.generate n = .ok (iid n (logNormalLaw mu sigma))) ∧ R := by
  obtain ⟨G, hG, _⟩ := C111_logNormal classes hp sigma mu hσ 0
  refine ⟨G, hG, fun n => ?_, h⟩
  obtain ⟨G', hG', hn⟩ := C111_logNormal classes hp sigma mu hσ n
  rw [hG] at hG'
  cases hG'
  exact hn

theorem log_moment {Q : Measure ℝ} {k : ℕ} (h : Integrable (fun x => |Real.log x| ^ k) Q) :
    Integrable (fun x => |x| ^ k) (Q.map Real.log) :=
  (integrable_map_measure (by fun_prop) Real.measurable_log.aemeasurable).2 h

theorem logs_not_normal {Q : Measure ℝ} (hQ : ∀ᵐ x ∂Q, 0 < x) (h : ∀ mu' sigma', Q ≠ logNormalLaw mu' sigma') :
    ∀ m v, Q.map Real.log ≠ gaussianReal m v := fun m v e => h m √v (by
  rw [logNormalLaw, Real.sq_sqrt v.coe_nonneg, Real.toNNReal_coe, ← e, exp_of_logs hQ])

theorem logs_not_const {Q : Measure ℝ} (hQ : ∀ᵐ x ∂Q, 0 < x) (h : ∀ c, Q ≠ Measure.dirac c) :
    ∀ c, Q.map Real.log ≠ Measure.dirac c := fun c e => h (Real.exp c) (by
  rw [← exp_of_logs hQ, e, Measure.map_dirac' Real.measurable_exp])

section
variable {s : ℝ} (hs : 0 < s) (scale : ℝ) (code : String) (params : Option (List (String × ℝ)))
variable {classes : List GeneratorClass} (hp : classes.Perm generatorClasses) (mu : ℝ) {sigma : ℝ} (hσ : 0 < sigma)

include hs hp hσ in
/-- **C148, every law**: a law of positive observations whose logarithms have a finite variance and that is not
log-normal is rejected in the long run by the log-normality criteria of Lilliefors and of Epps and Pulley; if the law is
continuous, also by those of Looney and Gulledge, Ryan and Joiner, Shapiro and Francia and Filliben. -/
theorem C148_every_law : ∃ G, getAvailableGenerator classes .logNormal (some [("s", sigma), ("mu", mu)]) = .ok G ∧
    (∀ n, G.generate n = .ok (iid n (logNormalLaw mu sigma))) ∧
    ∀ Q : Measure ℝ, IsProbabilityMeasure Q → (∀ᵐ x ∂Q, 0 < x) → Integrable (fun x => |Real.log x| ^ 2) Q →
      (∀ mu' sigma', Q ≠ logNormalLaw mu' sigma') →
      (∀ cls, cls = NormStat.lilliefors ∨ cls = NormStat.eppsPulley →
        Consistent (wrappedStatistic scipyNorm cls s scale code params) Q (logNormalLaw mu sigma)) ∧
      (Continuous (cdf (Q.map Real.log)) → ∀ cls, cls = NormStat.looneyGulledge ∨ cls = NormStat.ryanJoiner false .other ∨
          cls = NormStat.shapiroFrancia ∨ cls = NormStat.filli →
        Consistent (wrappedStatistic scipyNorm cls s scale code params) Q (logNormalLaw mu sigma)) := by
  refine with_logNormal hp mu hσ fun Q _ hQ h2 hne => ?_
  have hL : IsProbabilityMeasure (Q.map Real.log) := Measure.isProbabilityMeasure_map Real.measurable_log.aemeasurable
  have hv := pow_pos hσ 2
  have m2 := log_moment h2
  have hN := logs_not_normal hQ hne
  refine ⟨?_, fun hcont => ?_⟩
  · rintro _ (rfl | rfl) <;> refine (C148_detects (by trivial) hs scale code params Q hQ mu sigma).1.2 ?_
    · obtain ⟨_, _, _, h⟩ := C137_lilliefors code params classes hp mu hv
      exact h _ hL m2 hN
    · obtain ⟨_, _, _, h⟩ := C137_eppsPulley code params classes hp mu hv
      exact h _ hL m2 hN
  · rintro _ (rfl | rfl | rfl | rfl)
    · obtain ⟨_, _, _, h⟩ := C137_looneyGulledge code params classes hp mu hv
      exact (C148_detects (by trivial) hs scale code params Q hQ mu sigma).1.2 (h _ hL m2 hcont hN)
    · obtain ⟨_, _, _, h⟩ := C137_ryanJoiner code params classes hp mu hv false .other
      exact (C148_detects (by exact ⟨rfl, rfl⟩) hs scale code params Q hQ mu sigma).1.2 (h _ hL m2 hcont hN)
    · obtain ⟨_, _, _, h⟩ := C137_shapiroFrancia code params classes hp mu hv
      exact (C148_detects (by trivial) hs scale code params Q hQ mu sigma).1.2 (h _ hL m2 hcont hN)
    · obtain ⟨_, _, _, h⟩ := C137_filliben code params classes hp mu hv
      exact (C148_detects (by trivial) hs scale code params Q hQ mu sigma).1.2 (h _ hL m2 hcont hN)

include hs hp hσ in
/-- **C148, moments**: a law of positive observations whose logarithms have a finite fourth moment and a skewness other
than zero or a kurtosis other than three is rejected in the long run by the log-normality criteria of Jarque and Bera,
D'Agostino and Pearson, Doornik and Hansen and the first of Bontemps and Meddahi. -/
theorem C148_moments : ∃ G, getAvailableGenerator classes .logNormal (some [("s", sigma), ("mu", mu)]) = .ok G ∧
    (∀ n, G.generate n = .ok (iid n (logNormalLaw mu sigma))) ∧
    ∀ Q : Measure ℝ, IsProbabilityMeasure Q → (∀ᵐ x ∂Q, 0 < x) → Integrable (fun x => |Real.log x| ^ 4) Q →
      (∀ c, Q ≠ Measure.dirac c) →
      (lawStandardised (Q.map Real.log) 3 ≠ 0 ∨ lawStandardised (Q.map Real.log) 4 ≠ 3) →
      ∀ cls, cls = NormStat.jarqueBera ∨ cls = NormStat.dap ∨ cls = NormStat.doornikHansen ∨
          cls = NormStat.bontempsMeddahi1 →
        Consistent (wrappedStatistic scipyNorm cls s scale code params) Q (logNormalLaw mu sigma) := by
  refine with_logNormal hp mu hσ fun Q _ hQ h4 hne hk => ?_
  have hL : IsProbabilityMeasure (Q.map Real.log) := Measure.isProbabilityMeasure_map Real.measurable_log.aemeasurable
  have hv := pow_pos hσ 2
  have m4 := log_moment h4
  have hN := logs_not_const hQ hne
  rintro _ (rfl | rfl | rfl | rfl) <;> refine (C148_detects (by trivial) hs scale code params Q hQ mu sigma).1.2 ?_
  · obtain ⟨_, _, _, h⟩ := C137_jarqueBera code params classes hp mu hv
    exact h _ hL m4 hN hk
  · obtain ⟨_, _, _, h⟩ := C137_dap code params classes hp mu hv
    exact h _ hL m4 hN hk
  · obtain ⟨_, _, _, h⟩ := C137_doornikHansen code params classes hp mu hv
    exact h _ hL m4 hN hk
  · obtain ⟨_, _, _, h⟩ := C137_bontempsMeddahi1 code params classes hp mu hv
    exact h _ hL m4 hN hk

/-- The law of `exp U` for `U` uniform on `[0, b]`. -/
noncomputable def logUniform (b : ℝ) : Measure ℝ := (uniformLaw 0 b).map Real.exp

theorem logUniform_pos (b : ℝ) : ∀ᵐ x ∂logUniform b, 0 < x := by
  rw [logUniform, ae_map_iff Real.measurable_exp.aemeasurable measurableSet_Ioi]
  exact .of_forall fun _ => Real.exp_pos _

theorem logUniform_log (b : ℝ) : (logUniform b).map Real.log = uniformLaw 0 b := by
  rw [logUniform, Measure.map_map Real.measurable_log Real.measurable_exp,
    show Real.log ∘ Real.exp = id from funext Real.log_exp, Measure.map_id]

theorem logUniform_moment (b : ℝ) (k : ℕ) : Integrable (fun x => |Real.log x| ^ k) (logUniform b) := by
  have h := uniform_moment (b := b) k
  rw [← logUniform_log] at h
  exact (integrable_map_measure (by fun_prop) Real.measurable_log.aemeasurable).1 h

theorem logUniform_not_logNormal {b : ℝ} (hb : 0 < b) : ∀ mu' sigma', logUniform b ≠ logNormalLaw mu' sigma' := fun m v e =>
  uniform_not_normal hb m (v ^ 2).toNNReal (by
    rw [← logUniform_log, e, logNormalLaw, Measure.map_map Real.measurable_log Real.measurable_exp,
      show Real.log ∘ Real.exp = id from funext Real.log_exp, Measure.map_id])

include hs hp hσ in
/-- **C148, tails are inherited too**: log-uniform observations are not log-normal, but the log-normality criteria made
from the sample kurtosis and from Gel, Miao and Gastwirth's ratio inherit their right tails and reject them with a
probability that tends to zero. -/
theorem C148_inherits_tails {b : ℝ} (hb : 0 < b) : (∀ mu' sigma', logUniform b ≠ logNormalLaw mu' sigma') ∧
    Undetected (wrappedStatistic scipyNorm .kurtosis s scale code params) (logUniform b) (logNormalLaw mu sigma) ∧
    Undetected (wrappedStatistic scipyNorm .gmg s scale code params) (logUniform b) (logNormalLaw mu sigma) := by
  have hpr := (cdf_uniformLaw hb).1
  have hi : IsProbabilityMeasure (logUniform b) := Measure.isProbabilityMeasure_map Real.measurable_exp.aemeasurable
  refine ⟨logUniform_not_logNormal hb, ?_, ?_⟩ <;>
    refine (C148_detects (by trivial) hs scale code params _ (logUniform_pos b) mu sigma).2.2 ?_ <;> rw [logUniform_log]
  · exact (C137_refuted_kurtosis code params hp mu (pow_pos hσ 2) hb).2
  · exact (C137_refuted_gmg code params _ hp mu (pow_pos hσ 2) hb).2

end

/-- Log-uniform observations are told from log-normal ones by Lilliefors' criterion and by that of Shapiro and Francia. -/
example : Consistent (wrappedStatistic scipyNorm .lilliefors 1 1 "L" none) (logUniform 3) (logNormalLaw 0 1) ∧
    Consistent (wrappedStatistic scipyNorm .shapiroFrancia 1 1 "SF" none) (logUniform 3) (logNormalLaw 0 1) ∧
    Consistent (wrappedStatistic scipyNorm .jarqueBera 1 1 "JB" none) (logUniform 3) (logNormalLaw 0 1) := by
  have h3 : (0 : ℝ) < 3 := by norm_num
  have hpr := (cdf_uniformLaw h3).1
  have hi : IsProbabilityMeasure (logUniform 3) := Measure.isProbabilityMeasure_map Real.measurable_exp.aemeasurable
  obtain ⟨_, _, _, h⟩ := C148_every_law one_pos 1 "L" none (List.Perm.refl _) 0 one_pos
  obtain ⟨_, _, _, h'⟩ := C148_every_law one_pos 1 "SF" none (List.Perm.refl _) 0 one_pos
  obtain ⟨_, _, _, k⟩ := C148_moments one_pos 1 "JB" none (List.Perm.refl _) 0 one_pos
  refine ⟨(h _ hi (logUniform_pos 3) (logUniform_moment 3 2) (logUniform_not_logNormal h3)).1 _ (Or.inl rfl),
    (h' _ hi (logUniform_pos 3) (logUniform_moment 3 2) (logUniform_not_logNormal h3)).2 ?_ _ (Or.inr (Or.inr (Or.inl rfl))),
    k _ hi (logUniform_pos 3) (logUniform_moment 3 4) (fun c e => ?_) (Or.inr ?_) _ (Or.inl rfl)⟩
  · rw [logUniform_log, funext (cdf_uniformLaw h3).2]
    exact uniformCdf_continuous h3
  · refine uniform_not_const h3 (Real.log c) ?_
    rw [← logUniform_log, e, Measure.map_dirac' Real.measurable_log]
  · rw [logUniform_log, uniform_kurtosis h3]
    norm_num

end Pysatl.Props
