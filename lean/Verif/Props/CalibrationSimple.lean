import Verif.Lemmas.NoTiesEdf
import Verif.Props.CalibrationFamilies
import Verif.Props.CalibrationCritical
import Verif.Props.SamplingLaws
import Verif.Props.AndersonDarling
import Verif.Props.Weibull
import Verif.Props.Uniform

/-! # C125: the Monte Carlo test of a completely specified distribution keeps its level -/

namespace Pysatl.Props

open Pysatl.Decision Pysatl.Resolver Pysatl.Spec Pysatl.Edf Pysatl.Graph Pysatl.Gen
open Pysatl.Uniform Pysatl.Weibull
open MeasureTheory ProbabilityTheory

/-! ### The general statement -/

theorem iid_ac {μ ν : Measure ℝ} [IsProbabilityMeasure μ] [IsProbabilityMeasure ν] (h : μ ≪ ν) :
    ∀ n, iid n μ ≪ iid n ν
  | 0 => by
    have : iid 0 μ = iid 0 ν := by
      unfold iid
      rw [Measure.pi_of_empty, Measure.pi_of_empty]
    rw [this]
  | n + 1 => by
    have e1 := (measurePreserving_piFinSuccAbove (fun _ : Fin (n + 1) => μ) 0).symm
    have e2 := (measurePreserving_piFinSuccAbove (fun _ : Fin (n + 1) => ν) 0).symm
    show Measure.pi _ ≪ Measure.pi _
    rw [← e1.map_eq, ← e2.map_eq]
    exact (h.prod (iid_ac h n)).map e1.measurable

theorem continuous_cdf (μ : Measure ℝ) [IsProbabilityMeasure μ] [NullSingletonClass μ] :
    Continuous fun x => ProbabilityTheory.cdf μ x := by
  rw [continuous_iff_continuousAt]
  intro x
  have hmono := monotone_cdf μ
  rw [hmono.continuousAt_iff_leftLim_eq_rightLim]
  have h1 : Function.rightLim (ProbabilityTheory.cdf μ) x = ProbabilityTheory.cdf μ x :=
    (ProbabilityTheory.cdf μ).rightLim_eq x
  have h2 : Function.leftLim (ProbabilityTheory.cdf μ) x = ProbabilityTheory.cdf μ x := by
    have h := (ProbabilityTheory.cdf μ).measure_singleton x
    rw [measure_cdf, measure_singleton] at h
    have h' := ENNReal.ofReal_eq_zero.mp h.symm
    exact le_antisymm (hmono.leftLim_le le_rfl) (by linarith)
  rw [h1, h2]

theorem map_cdf {F : ℝ → ℝ} {μ : Measure ℝ} [IsProbabilityMeasure μ] (hF : Continuous F)
    (hcdf : ∀ x, ProbabilityTheory.cdf μ x = F x) : μ.map F = unitLaw :=
  map_transform (X := id) measurable_id hF fun x => by rw [← hcdf, cdf_eq_real]; rfl

theorem ae_cdf_inner {F : ℝ → ℝ} {μ : Measure ℝ} [IsProbabilityMeasure μ] (hF : Continuous F)
    (hcdf : ∀ x, ProbabilityTheory.cdf μ x = F x) : ∀ᵐ x ∂μ, 0 < F x ∧ F x < 1 := by
  have h := unitLaw_inner
  rw [← map_cdf hF hcdf] at h
  exact ae_of_ae_map hF.measurable.aemeasurable h

/-- Statistics that agree on almost all samples reject alike. -/
theorem level_congr {st st' : Statistic ℝ} (ha : st.alternative = st'.alternative) {n B : ℕ} (hn : 0 < n)
    {μ : Measure (Fin n → ℝ)} [IsProbabilityMeasure μ]
    (h : ∀ᵐ x ∂μ, st.execute (List.ofFn x) = st'.execute (List.ofFn x)) (α : ℝ) :
    (μ.prod (Measure.pi fun _ : Fin B => μ)) {ω | TestRejects st α ω.1 ω.2} =
      (μ.prod (Measure.pi fun _ : Fin B => μ)) {ω | TestRejects st' α ω.1 ω.2} ∧
    (μ.prod (Measure.pi fun _ : Fin B => μ)) {ω | CvRejects st α ω.1 ω.2} =
      (μ.prod (Measure.pi fun _ : Fin B => μ)) {ω | CvRejects st' α ω.1 ω.2} := by
  have h1 : ∀ᵐ ω ∂(μ.prod (Measure.pi fun _ : Fin B => μ)), st.execute (List.ofFn ω.1) = st'.execute (List.ofFn ω.1) :=
    Measure.quasiMeasurePreserving_fst.ae h
  have h2 : ∀ᵐ ω ∂(μ.prod (Measure.pi fun _ : Fin B => μ)), ∀ j,
      st.execute (List.ofFn (ω.2 j)) = st'.execute (List.ofFn (ω.2 j)) := by
    have : ∀ᵐ y ∂(Measure.pi fun _ : Fin B => μ), ∀ j, st.execute (List.ofFn (y j)) = st'.execute (List.ofFn (y j)) :=
      ae_all_iff.2 fun j => (measurePreserving_eval (fun _ : Fin B => μ) j).quasiMeasurePreserving.ae h
    exact Measure.quasiMeasurePreserving_snd.ae this
  constructor <;> refine measure_congr ?_ <;> filter_upwards [h1, h2] with ω h1 h2 <;> refine propext ?_
  · show TestRejects st α ω.1 ω.2 ↔ TestRejects st' α ω.1 ω.2
    rw [testRejects_iff hn, testRejects_iff hn, h1, ha]
    simp only [h2]
  · show CvRejects st α ω.1 ω.2 ↔ CvRejects st' α ω.1 ω.2
    rw [cvRejects_iff hn, cvRejects_iff hn, h1, ha]
    simp only [h2]

theorem keepsLevel_congr {st st' : Statistic ℝ} (ha : st.alternative = st'.alternative) {n B : ℕ} (hn : 0 < n)
    {μ : Measure (Fin n → ℝ)} [IsProbabilityMeasure μ]
    (h : ∀ᵐ x ∂μ, st.execute (List.ofFn x) = st'.execute (List.ofFn x)) (h' : KeepsLevel st' μ μ B) :
    KeepsLevel st μ μ B :=
  ⟨fun α => by rw [(level_congr ha hn h α).1, ha]; exact h'.1 α,
    fun α h0 h1 => by rw [(level_congr ha hn h α).2, ha]; exact h'.2 α h0 h1⟩

theorem outcomeMeas_map {α : Type} [MeasurableSpace α] {f : α → Except PyErr ℝ} (h : OutcomeMeas f) {g : ℝ → ℝ}
    (hg : Measurable g) : OutcomeMeas fun a => (f a).map g := fun c => by
  have : {a | ∃ d ≤ c, (f a).map g = .ok d} = {a | ∃ d, f a = .ok d} ∩ {a | g (outcomeVal (f a)) ≤ c} := by
    ext a
    simp only [Set.mem_inter_iff, Set.mem_ofPred_eq]
    cases f a <;> simp [outcomeVal, Except.map]
  rw [this]
  exact (measurable_isOk h).inter (measurableSet_le (hg.comp (measurable_outcomeVal h)) measurable_const)

/-- The distribution function `F` of a statistic is continuous and belongs to some law with respect to which the law of the
data is absolutely continuous; the statistic is, up to an injective map, one of those of the transformed sample.
Then the test calibrated with the law of the data keeps its level. -/
theorem simple_level (st : Statistic ℝ) (s : EdfStat) {F : ℝ → ℝ} {μ₀ μ : Measure ℝ} [IsProbabilityMeasure μ₀]
    [IsProbabilityMeasure μ] (hF : Continuous F) (hcdf : ∀ x, cdf μ₀ x = F x) (hac : μ ≪ μ₀) {n B : ℕ}
    (hn : s.least ≤ n) (hB : 0 < B) {g : ℝ → ℝ} (hg : Measurable g) (hgi : g.Injective)
    (hval : ∀ᵐ x ∂(iid n μ), st.execute (List.ofFn x) = (s.value F (List.ofFn x)).map g) :
    KeepsLevel st (iid n μ) (iid n μ) B := by
  have hn0 : 0 < n := lt_of_lt_of_le (by cases s <;> simp [EdfStat.least]) hn
  set st' : Statistic ℝ := { st with execute := fun x => (s.value F x).map g } with hst
  have hP : IsProbabilityMeasure (iid n μ) := by unfold iid; infer_instance
  have hF' : Monotone F := by
    intro x y h
    rw [← hcdf, ← hcdf]; exact monotone_cdf _ h
  have hval' : ∀ x : Fin n → ℝ, s.value F (List.ofFn x) = s.ofVals (sort (List.ofFn fun i => F (x i))) := by
    intro x
    have : (sort (List.ofFn x)).map F = sort (List.ofFn fun i => F (x i)) := by
      refine List.Perm.eq_of_pairwise (le := (· ≤ ·)) (fun _ _ _ _ => le_antisymm) (map_sorted hF' _)
        (sort_pairwise _) ?_
      refine ((sort_perm _).map F).trans ?_
      rw [List.map_ofFn]
      exact (sort_perm _).symm
    rw [EdfStat.value_eq, this]
  refine keepsLevel_congr (st := st) (st' := st') rfl hn0 hval ?_
  have hM : OutcomeMeas fun x : Fin n → ℝ => st'.execute (List.ofFn x) := by
    refine outcomeMeas_map ?_ hg
    intro c
    simp only [hval']
    have hS : MeasurableSet {v : Fin n → ℝ | List.ofFn v ∈ {l | ∃ d ≤ c, s.ofVals l = .ok d}} :=
      outcomeMeas_edf (listMeas_ofFn n) s c
    have hm : Measurable fun (x : Fin n → ℝ) i => F (x i) := by
      have := hF.measurable
      fun_prop
    exact hm (measurable_sort hS)
  have hT : ∀ c, iid n μ {x | st'.execute (List.ofFn x) = .ok c} = 0 := by
    intro c
    by_cases hc : ∃ c', g c' = c
    · obtain ⟨c', rfl⟩ := hc
      have h0 : iid n μ₀ {x | s.value F (List.ofFn x) = .ok c'} = 0 := by
        simp only [hval']
        have hm : Measurable fun (x : Fin n → ℝ) i => F (x i) := by
          have := hF.measurable
          fun_prop
        have h1 : (iid n μ₀).map (fun x i => F (x i)) = Measure.pi fun _ : Fin n => unitLaw := by
          rw [iid_map μ₀ (φ := F) hF.measurable, map_cdf hF hcdf]
          rfl
        have h2 := edf_no_ties s hn c'
        rw [← h1, Measure.map_apply_of_aemeasurable hm.aemeasurable] at h2
        · exact h2
        · exact measurable_sort (S := {l | s.ofVals l = .ok c'})
            (measurable_okValue (outcomeMeas_edf (listMeas_ofFn n) s) c')
      refine measure_mono_null (fun x hx => ?_) ((iid_ac hac n) h0)
      have hx' : (s.value F (List.ofFn x)).map g = .ok (g c') := hx
      show s.value F (List.ofFn x) = .ok c'
      rcases h : s.value F (List.ofFn x) with e | d
      · rw [h] at hx'; cases hx'
      · rw [h] at hx'
        rw [hgi (Except.ok.inj hx')]
    · refine measure_mono_null (fun x hx => ?_) measure_empty
      have hx' : (s.value F (List.ofFn x)).map g = .ok c := hx
      rcases h : s.value F (List.ofFn x) with e | d
      · rw [h] at hx'; cases hx'
      · rw [h] at hx'
        exact hc ⟨d, Except.ok.inj hx'⟩
  exact keepsLevel hn0 hB hM hT fun α => monteCarlo_level st' hn0 hB measurable_id Measure.map_id
    (.of_forall fun x => rfl) hM (fun _ => hT) α

/-- The generator that the Monte Carlo resolver picks for a family draws independent observations of the law of its
scipy distribution. -/
theorem simulates {classes : List GeneratorClass} {f : Gen.Family} {d : Scipy}
    (h : ∃ g, f.simulator classes = .ok g ∧ g.law = .plain d) {μ : Measure ℝ} (hd : d.rvs = .ok μ) (n : ℕ) :
    ∃ G, f.simulator classes = .ok G ∧ G.generate n = .ok (iid n μ) := by
  obtain ⟨g, h1, h2⟩ := h
  exact ⟨g, h1, generate_plain h2 hd n⟩

/-! ### Uniform family -/

theorem cdf_uniformLaw {a b : ℝ} (hab : a < b) : IsProbabilityMeasure (uniformLaw a b) ∧
    ∀ x, ProbabilityTheory.cdf (uniformLaw a b) x = uniformCdf a b x := by
  have hba : 0 < b - a := sub_pos.2 hab
  have hp : IsProbabilityMeasure (uniformLaw a b) :=
    cond_isProbabilityMeasure_of_finite (by simp [hab]) (by simp)
  refine ⟨hp, fun x => ?_⟩
  rw [cdf_eq_real, uniformLaw, measureReal_def, cond_apply measurableSet_Icc, ENNReal.toReal_mul, ENNReal.toReal_inv,
    ← measureReal_def, ← measureReal_def, Real.volume_real_Icc_of_le hab.le,
    ← Set.Ici_inter_Iic, Set.inter_assoc, Set.Iic_inter_Iic, Set.Ici_inter_Iic, uniformCdf]
  split_ifs with h1 h2
  · rw [Real.volume_real_Icc, max_eq_right (by rw [min_eq_right (by linarith)]; linarith), mul_zero]
  · rw [min_eq_left h2, Real.volume_real_Icc_of_le hab.le, inv_mul_cancel₀ hba.ne']
  · rw [min_eq_right (by linarith), Real.volume_real_Icc_of_le (by linarith)]
    ring

theorem uniformCdf_continuous {a b : ℝ} (hab : a < b) : Continuous (uniformCdf a b) := by
  have h := cdf_uniformLaw hab
  have := h.1
  have h' : NullSingletonClass (uniformLaw a b) :=
    ⟨fun x => cond_absolutelyContinuous (measure_singleton x)⟩
  have hc := continuous_cdf (uniformLaw a b)
  simp only [h.2] at hc
  exact hc

/-- The uniformity class as a statistic of the transformed sample; Watson's is an injective function of it. -/
def _root_.Pysatl.Uniform.UniStat.edf : UniStat → Option EdfStat
  | .ks t => some (.ks t)
  | .andersonDarling => some .ad
  | .cvm => some .cvm
  | .lilliefors => some (.ks .twoTailed)
  | .watson => some .watson
  | .kuiper => some .kuiper
  | .greenwood => some .greenwood
  | _ => none

/-- `u / n + 1 / 4` for Watson's statistic (see `C57_uniform_partial`), otherwise nothing changes. -/
noncomputable def _root_.Pysatl.Uniform.UniStat.rescale (n : ℕ) : UniStat → ℝ → ℝ
  | .watson, u => u / n + 1 / 4
  | _, u => u

theorem except_map_self (r : Except PyErr ℝ) : r.map (fun u => u) = r := by cases r <;> rfl

theorem uniform_edf {a b : ℝ} {s : UniStat} {e : EdfStat} (hs : s.edf = some e) {xs : List ℝ} (hne : xs ≠ [])
    (hx : ∀ x ∈ xs, a < x ∧ x < b) :
    s.value a b xs = (e.value (uniformCdf a b) xs).map (s.rescale xs.length) := by
  have hv := validateUniform_ok (a := a) (b := b) fun x h => ⟨(hx x h).1.le, (hx x h).2.le⟩
  have hu : uniformVals a b xs = (sort xs).map (uniformCdf a b) :=
    List.map_congr_left fun x h => by
      obtain ⟨h1, h2⟩ := hx x ((sort_perm xs).mem_iff.1 h)
      rw [uniformCdf, if_neg (not_le.2 h1), if_neg (not_le.2 h2)]
  have hl : (sort xs).length = xs.length := (sort_perm xs).length_eq
  rw [EdfStat.value_eq]
  cases s <;> simp only [UniStat.edf, Option.some.injEq, reduceCtorEq] at hs <;> subst hs <;>
    simp only [UniStat.value, hv, bind, Except.bind, pure, Except.pure, EdfStat.ofVals]
  case ks t => exact (except_map_self _).symm
  case andersonDarling => rw [List.map_map, List.map_map]; rfl
  case cvm => rfl
  case lilliefors => exact (except_map_self _).symm
  case watson =>
    rw [hu, C57_uniform_partial (by
      intro h
      have h1 := congrArg List.length h
      rw [List.length_map, hl] at h1
      exact hne (List.length_eq_zero_iff.1 h1)), List.length_map, hl]
    rfl
  case kuiper => rw [hu]; exact (except_map_self _).symm
  case greenwood =>
    rw [greenwoodUniform, hv]
    simp only [bind, Except.bind, pure, Except.pure, hu]
    rw [greenwoodGamma, if_neg]
    · rfl
    · have hin : ∀ v ∈ (sort xs).map (uniformCdf a b), 0 ≤ v ∧ v ≤ 1 := by
        rw [← hu]
        intro v hv
        obtain ⟨x, h, rfl⟩ := List.mem_map.1 hv
        obtain ⟨h1, h2⟩ := hx x ((sort_perm xs).mem_iff.1 h)
        have hba : 0 < b - a := by linarith
        exact ⟨div_nonneg (by linarith) hba.le, by rw [div_le_one hba]; linarith⟩
      have hpw : ((sort xs).map (uniformCdf a b)).Pairwise (· ≤ ·) := by
        rw [← hu, uniformVals, List.pairwise_map]
        refine (sort_pairwise xs).imp_of_mem fun {x y} hx1 _ h => ?_
        obtain ⟨h1, h2⟩ := hx x ((sort_perm xs).mem_iff.1 hx1)
        have hba : 0 < b - a := by linarith
        gcongr
      have := npDiff_nonneg' (l := 0 :: ((sort xs).map (uniformCdf a b) ++ [1])) (by
        rw [List.pairwise_cons, List.pairwise_append]
        refine ⟨fun v hv => ?_, hpw, by simp, fun u hu v hv => ?_⟩
        · rcases List.mem_append.1 hv with h | h
          · exact (hin v h).1
          · rw [List.mem_singleton.1 h]; exact zero_le_one
        · rw [List.mem_singleton.1 hv]; exact (hin u hu).2)
      simpa [spacings] using this

theorem level_uniform {s : UniStat} {e : EdfStat} (hs : s.edf = some e) (code : String)
    (classes : List GeneratorClass) (hp : classes.Perm generatorClasses) {a b : ℝ} (hab : a < b) {n B : ℕ}
    (hn : e.least ≤ n) (hB : 0 < B) :
    ∃ G M, (Gen.Family.uniform a b).simulator classes = .ok G ∧ G.generate n = .ok M ∧
      KeepsLevel (s.statistic a b code) (iid n (uniformLaw a b)) (M) B := by
  obtain ⟨G, hG, hgen⟩ := C111_uniform classes hp a b hab n
  have h := cdf_uniformLaw hab
  have := h.1
  have hn0 : 0 < n := lt_of_lt_of_le (by cases e <;> simp [EdfStat.least]) hn
  have hn1 : (0 : ℝ) < n := by exact_mod_cast hn0
  refine ⟨G, _, hG, hgen, simple_level (s.statistic a b code) e (uniformCdf_continuous hab) h.2
    Measure.AbsolutelyContinuous.rfl hn hB (g := s.rescale n) ?_ ?_ ?_⟩
  · cases s <;> first
      | exact measurable_id
      | (show Measurable fun u : ℝ => u / n + 1 / 4
         fun_prop)
  · intro u v huv
    cases s <;> try exact huv
    have huv' : u / n + 1 / 4 = v / n + 1 / 4 := huv
    have : u / n = v / n := by linarith
    rwa [div_left_inj' hn1.ne'] at this
  · filter_upwards [iid_ae (n := n) (ae_cdf_inner (uniformCdf_continuous hab) h.2)] with x hx
    have hne : List.ofFn x ≠ [] := by rw [Ne, List.ofFn_eq_nil_iff]; omega
    have := uniform_edf (a := a) (b := b) hs hne fun t ht => by
      obtain ⟨i, rfl⟩ := (List.mem_ofFn' _ _).1 ht
      have h1 := hx i
      unfold uniformCdf at h1
      constructor
      · by_contra hc
        rw [if_pos (not_lt.1 hc)] at h1
        exact lt_irrefl _ h1.1
      · by_contra hc
        by_cases ha : x i ≤ a
        · rw [if_pos ha] at h1; exact lt_irrefl _ h1.1
        · rw [if_neg ha, if_pos (not_lt.1 hc)] at h1
          exact lt_irrefl _ h1.2
    rw [List.length_ofFn] at this
    exact this

/-- **C125, uniform family.** The hypothesis is the uniform distribution on `[a, b]`.  The reference values come from the
generator that the Monte Carlo resolver picks; the data are independent observations of the hypothesised law. -/
theorem C125_level_uniform {s : UniStat} {e : EdfStat} (hs : s.edf = some e) (code : String)
    (classes : List GeneratorClass) (hp : classes.Perm generatorClasses) {a b : ℝ} (hab : a < b) {n B : ℕ}
    (hn : e.least ≤ n) (hB : 0 < B) (α : ℝ) :
    ∃ G M, (Gen.Family.uniform a b).simulator classes = .ok G ∧ G.generate n = .ok M ∧
      ((iid n (uniformLaw a b)).prod (Measure.pi fun _ : Fin B => M))
        {ω | TestRejects (s.statistic a b code) α ω.1 ω.2} ≤
        (rankBound s.alternative α B : ENNReal) / (B + 1 : ℕ) := by
  obtain ⟨G, M, h1, h2, h⟩ := level_uniform hs code classes hp hab hn hB
  exact ⟨G, M, h1, h2, h.1 α⟩

/-- **C126, critical values, uniform family.** The hypothesis is the uniform distribution on `[a, b]`.  The reference values come from the
generator that the Monte Carlo resolver picks; the data are independent observations of the hypothesised law. -/
theorem C126_level_uniform {s : UniStat} {e : EdfStat} (hs : s.edf = some e) (code : String)
    (classes : List GeneratorClass) (hp : classes.Perm generatorClasses) {a b : ℝ} (hab : a < b) {n B : ℕ}
    (hn : e.least ≤ n) (hB : 0 < B) {α : ℝ}
    (h0 : 0 ≤ α) (h1 : α ≤ 1) :
    ∃ G M, (Gen.Family.uniform a b).simulator classes = .ok G ∧ G.generate n = .ok M ∧
      ((iid n (uniformLaw a b)).prod (Measure.pi fun _ : Fin B => M))
        {ω | CvRejects (s.statistic a b code) α ω.1 ω.2} ≤
        (criticalBound s.alternative α B : ENNReal) / (B + 1 : ℕ) := by
  obtain ⟨G, M, g1, g2, h⟩ := level_uniform hs code classes hp hab hn hB
  exact ⟨G, M, g1, g2, h.2 α h0 h1⟩

example : ∃ G M, (Gen.Family.uniform 2 5).simulator generatorClasses = .ok G ∧ G.generate 10 = .ok M ∧
    ((iid 10 (uniformLaw 2 5)).prod (Measure.pi fun _ : Fin 999 => M))
      {ω | TestRejects (UniStat.kuiper.statistic 2 5 "KUIPER_UNIFORM") (1 / 20) ω.1 ω.2} ≤
      (rankBound .right (1 / 20) 999 : ENNReal) / (999 + 1 : ℕ) :=
  C125_level_uniform (s := .kuiper) rfl _ _ (List.Perm.refl _) (by norm_num) (by simp [EdfStat.least]) (by norm_num) _

/-! ### Weibull family -/

theorem weibull_rvs {a k : ℝ} (ha : 0 < a) (hk : 0 < k) :
    ∃ μ, ({ name := "exponweib", shapes := [a, k] } : Scipy).rvs = .ok μ ∧ IsProbabilityMeasure μ ∧
      ∀ x, ProbabilityTheory.cdf μ x = Weibull.cdf a k x := by
  have h := exponweib_cdf ha hk
  refine ⟨_, rvs_ok (d := { name := "exponweib", shapes := [a, k] }) (by exact ⟨ha, hk⟩) (by exact zero_le_one (α := ℝ)), ?_⟩
  have e : (Measure.map (fun z : ℝ => ({ name := "exponweib", shapes := [a, k] } : Scipy).loc +
      ({ name := "exponweib", shapes := [a, k] } : Scipy).scale * z)
      ({ name := "exponweib", shapes := [a, k] } : Scipy).standard) =
      density fun x => if 0 < x then
        a * k * (1 - Real.exp (-x ^ k)) ^ (a - 1) * Real.exp (-x ^ k) * x ^ (k - 1) else 0 := by
    show Measure.map (fun z => 0 + 1 * z) _ = _
    simp only [zero_add, one_mul, Measure.map_id']
    rfl
  rw [e]
  refine ⟨h.1, fun x => ?_⟩
  rw [h.2, Weibull.cdf]
  by_cases hx : 0 < x
  · rw [if_neg (not_le.2 hx), if_pos hx]
  · rw [if_pos (not_lt.1 hx), if_neg hx]

theorem level_weibull (min : Minimizer) {s : WeibullStat} {e : EdfStat} (hs : s.edf = some e) (code : String)
    (classes : List GeneratorClass) (hp : classes.Perm generatorClasses) {a k : ℝ} (ha : 0 < a) (hk : 0 < k) {n B : ℕ}
    (hn : e.least ≤ n) (hB : 0 < B) :
    ∃ (μ : Measure ℝ) (G : Generator), (IsProbabilityMeasure μ ∧ ∀ x, μ.real (Set.Iic x) =
        if x ≤ 0 then 0 else (1 - Real.exp (-x ^ k)) ^ a) ∧
      (Gen.Family.weibull a k).simulator classes = .ok G ∧ G.generate n = .ok (iid n μ) ∧
      KeepsLevel (s.statistic min ⟨a, k⟩ code) (iid n μ) (iid n μ) B := by
  obtain ⟨μ, hr, hpr, hc⟩ := weibull_rvs ha hk
  obtain ⟨G, hG, hgen⟩ := simulates (simulator_law hp (.weibull a k)) hr n
  have hcont : Continuous (Weibull.cdf a k) := by
    have h : NullSingletonClass μ := by
      have e := rvs_ok (d := { name := "exponweib", shapes := [a, k] }) (by exact ⟨ha, hk⟩) (by exact zero_le_one (α := ℝ))
      rw [hr] at e
      rw [Except.ok.inj e]
      show NullSingletonClass (Measure.map (fun z => 0 + 1 * z) (ofDensity _))
      simp only [zero_add, one_mul, Measure.map_id']
      unfold ofDensity
      infer_instance
    have hc' := continuous_cdf μ
    simp only [hc] at hc'
    exact hc'
  refine ⟨μ, G, ⟨hpr, fun x => ?_⟩, hG, hgen, simple_level (s.statistic min ⟨a, k⟩ code) e hcont hc
    Measure.AbsolutelyContinuous.rfl hn hB (g := fun u => u) measurable_id (fun _ _ h => h) (.of_forall fun x => ?_)⟩
  · rw [← cdf_eq_real, hc]; rfl
  · rw [except_map_self]
    exact weibull_edf min ⟨a, k⟩ hs (.ndarray (List.ofFn x))

/-- **C125, Weibull family**, for all shape parameters: the hypothesised law is the one with distribution function
`(1 - exp (-x^k))^a` on the positive numbers. -/
theorem C125_level_weibull (min : Minimizer) {s : WeibullStat} {e : EdfStat} (hs : s.edf = some e) (code : String)
    (classes : List GeneratorClass) (hp : classes.Perm generatorClasses) {a k : ℝ} (ha : 0 < a) (hk : 0 < k) {n B : ℕ}
    (hn : e.least ≤ n) (hB : 0 < B) (α : ℝ) :
    ∃ (μ : Measure ℝ) (G : Generator), (IsProbabilityMeasure μ ∧ ∀ x, μ.real (Set.Iic x) =
        if x ≤ 0 then 0 else (1 - Real.exp (-x ^ k)) ^ a) ∧
      (Gen.Family.weibull a k).simulator classes = .ok G ∧ G.generate n = .ok (iid n μ) ∧
      ((iid n μ).prod (Measure.pi fun _ : Fin B => iid n μ))
        {ω | TestRejects (s.statistic min ⟨a, k⟩ code) α ω.1 ω.2} ≤
        (rankBound s.alternative α B : ENNReal) / (B + 1 : ℕ) := by
  obtain ⟨μ, G, h0, h1, h2, h⟩ := level_weibull min hs code classes hp ha hk hn hB
  exact ⟨μ, G, h0, h1, h2, h.1 α⟩

/-- **C126, critical values, Weibull family**, for all shape parameters: the hypothesised law is the one with distribution function
`(1 - exp (-x^k))^a` on the positive numbers. -/
theorem C126_level_weibull (min : Minimizer) {s : WeibullStat} {e : EdfStat} (hs : s.edf = some e) (code : String)
    (classes : List GeneratorClass) (hp : classes.Perm generatorClasses) {a k : ℝ} (ha : 0 < a) (hk : 0 < k) {n B : ℕ}
    (hn : e.least ≤ n) (hB : 0 < B) {α : ℝ}
    (h0 : 0 ≤ α) (h1 : α ≤ 1) :
    ∃ (μ : Measure ℝ) (G : Generator), (IsProbabilityMeasure μ ∧ ∀ x, μ.real (Set.Iic x) =
        if x ≤ 0 then 0 else (1 - Real.exp (-x ^ k)) ^ a) ∧
      (Gen.Family.weibull a k).simulator classes = .ok G ∧ G.generate n = .ok (iid n μ) ∧
      ((iid n μ).prod (Measure.pi fun _ : Fin B => iid n μ))
        {ω | CvRejects (s.statistic min ⟨a, k⟩ code) α ω.1 ω.2} ≤
        (criticalBound s.alternative α B : ENNReal) / (B + 1 : ℕ) := by
  obtain ⟨μ, G, g0, g1, g2, h⟩ := level_weibull min hs code classes hp ha hk hn hB
  exact ⟨μ, G, g0, g1, g2, h.2 α h0 h1⟩

example (min : Minimizer) : ∃ (μ : Measure ℝ) (G : Generator), (IsProbabilityMeasure μ ∧ ∀ x, μ.real (Set.Iic x) =
      if x ≤ 0 then 0 else (1 - Real.exp (-x ^ (3 : ℝ))) ^ (2 : ℝ)) ∧
    (Gen.Family.weibull 2 3).simulator generatorClasses = .ok G ∧ G.generate 5 = .ok (iid 5 μ) ∧
    ((iid 5 μ).prod (Measure.pi fun _ : Fin 99 => iid 5 μ))
      {ω | TestRejects (WeibullStat.cvm.statistic min ⟨2, 3⟩ "CVM_WEIBULL") (1 / 20) ω.1 ω.2} ≤
      (rankBound .right (1 / 20) 99 : ENNReal) / (99 + 1 : ℕ) :=
  C125_level_weibull min (s := .cvm) rfl _ _ (List.Perm.refl _) (by norm_num) (by norm_num) (by simp [EdfStat.least])
    (by norm_num) _

end Pysatl.Props
