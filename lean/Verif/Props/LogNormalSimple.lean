import Verif.Model.LogNormalEdf
import Verif.Props.ConsistencyRefuted
import Verif.Props.CalibrationFamilies

/-! # C125, C126, C135: completely specified log-normal hypotheses

The hypothesis `(s, scale)` is that the data follow `logNormalLaw (log scale) s`. -/

namespace Pysatl.Props

open Pysatl.Decision Pysatl.Resolver Pysatl.Spec Pysatl.Edf Pysatl.Graph Pysatl.Gen Pysatl.Normal Pysatl.LogNormal
open MeasureTheory ProbabilityTheory Filter Topology

/-- The statistic of the empirical distribution function that a criterion computes. -/
def simpleEdf : SimpleStat → EdfStat
  | .ks t => .ks t
  | .cvm => .cvm

theorem logNormalSimple_value (s scale : ℝ) (code : String) (st : SimpleStat) (x : List ℝ) :
    (st.statistic scipyNorm s scale code).execute x = (simpleEdf st).value (lognormCdf scipyNorm s scale) x := by
  cases st <;> rfl

theorem cdf_logNormalLaw {s scale : ℝ} (hs : 0 < s) (hc : 0 < scale) (x : ℝ) :
    ProbabilityTheory.cdf (logNormalLaw (Real.log scale) s) x = lognormCdf scipyNorm s scale x := by
  rw [cdf_eq_real, logNormalLaw, map_measureReal_apply Real.measurable_exp measurableSet_Iic, lognormCdf]
  split_ifs with h
  · have : Real.exp ⁻¹' Set.Iic x = ∅ := by
      ext z
      simp only [Set.mem_preimage, Set.mem_Iic, Set.mem_empty_iff_false, iff_false, not_le]
      exact h.trans_lt (Real.exp_pos z)
    rw [this, measureReal_empty]
  · push Not at h
    have : Real.exp ⁻¹' Set.Iic x = Set.Iic (Real.log x) := by
      ext z
      simp only [Set.mem_preimage, Set.mem_Iic]
      exact (Real.le_log_iff_exp_le h).symm
    rw [this, ← cdf_eq_real, cdf_gaussian _ hs, Real.log_div h.ne' hc.ne']
    rfl

theorem logNormal_nullSingleton (mu : ℝ) {s : ℝ} (hs : 0 < s) : NullSingletonClass (logNormalLaw mu s) := by
  have hv : (s ^ 2).toNNReal ≠ 0 := (Real.toNNReal_pos.2 (by positivity)).ne'
  have := noAtoms_gaussianReal (μ := mu) hv
  refine ⟨fun x => ?_⟩
  rw [logNormalLaw, Measure.map_apply Real.measurable_exp (measurableSet_singleton x)]
  refine Set.Subsingleton.measure_zero (fun a ha b hb => ?_) _
  exact Real.exp_injective (Eq.trans ha (Eq.symm hb))

theorem lognormCdf_continuous {s scale : ℝ} (hs : 0 < s) (hc : 0 < scale) : Continuous (lognormCdf scipyNorm s scale) := by
  have := logNormal_nullSingleton (Real.log scale) hs
  have h := continuous_cdf (logNormalLaw (Real.log scale) s)
  rwa [show (fun x => ProbabilityTheory.cdf (logNormalLaw (Real.log scale) s) x) = lognormCdf scipyNorm s scale from
    funext (cdf_logNormalLaw hs hc)] at h

theorem logNormal_ac (mu mu' : ℝ) {s : ℝ} (hs : 0 < s) : logNormalLaw mu s ≪ logNormalLaw mu' s := by
  have hv : (s ^ 2).toNNReal ≠ 0 := (Real.toNNReal_pos.2 (by positivity)).ne'
  exact ((gaussianReal_absolutelyContinuous mu hv).trans (gaussianReal_absolutelyContinuous' mu' hv)).map
    Real.measurable_exp

theorem logNormal_ne {mu mu' s : ℝ} (h : mu ≠ mu') : logNormalLaw mu s ≠ logNormalLaw mu' s := by
  intro e
  have e' := congrArg (fun m : Measure ℝ => m.map Real.log) e
  simp only [logNormalLaw, Measure.map_map Real.measurable_log Real.measurable_exp,
    show Real.log ∘ Real.exp = id from funext Real.log_exp, Measure.map_id] at e'
  have := congrArg (fun μ : Measure ℝ => ∫ x, x ∂μ) e'
  simp only [integral_id_gaussianReal] at this
  exact h this

/-- The simulator of a log-normal hypothesis forgets the scale. -/
theorem logNormal_simulates {classes : List GeneratorClass} (hp : classes.Perm generatorClasses) {s : ℝ} (hs : 0 < s)
    (scale : ℝ) : ∃ G, (Gen.Family.logNormal s scale).simulator classes = .ok G ∧
      ∀ n, G.generate n = .ok (iid n (logNormalLaw 0 s)) := by
  refine simulates_all fun n => simulates (simulator_law hp (.logNormal s scale)) ?_ n
  rw [rvs_ok (by exact hs) (by exact zero_le_one)]
  show Except.ok (((gaussianReal 0 (s ^ 2).toNNReal).map Real.exp).map fun z => 0 + 1 * z) = _
  simp only [zero_add, one_mul]
  rw [show (fun z : ℝ => z) = id from rfl, Measure.map_id]
  rfl

section
variable {s : ℝ} (hs : 0 < s) (code : String) {classes : List GeneratorClass} (hp : classes.Perm generatorClasses)

include hs in
theorem level_logNormal (st : SimpleStat) {scale : ℝ} (hc : 0 < scale) {n B : ℕ} (hn : 0 < n) (hB : 0 < B) :
    KeepsLevel (st.statistic scipyNorm s scale code) (iid n (logNormalLaw 0 s)) (iid n (logNormalLaw 0 s)) B := by
  refine simple_level _ (simpleEdf st) (lognormCdf_continuous hs hc) (cdf_logNormalLaw hs hc)
    (logNormal_ac 0 (Real.log scale) hs) ?_ hB (g := fun u => u) measurable_id (fun _ _ h => h) (.of_forall fun x => ?_)
  · cases st <;> exact hn
  · rw [except_map_self, logNormalSimple_value]

include hs hp in
/-- **C125, log-normal family, what holds**: Kolmogorov-Smirnov and Cramer-von Mises with scale `1`, which is the scale the
simulated samples always have.  Missing: every other scale (`C125_refuted_logNormal`). -/
theorem C125_level_logNormal_partial (st : SimpleStat) {n B : ℕ} (hn : 0 < n) (hB : 0 < B) (α : ℝ) :
    ∃ G M, (Gen.Family.logNormal s 1).simulator classes = .ok G ∧ G.generate n = .ok M ∧
      ((iid n (logNormalLaw 0 s)).prod (Measure.pi fun _ : Fin B => M))
        {ω | TestRejects (st.statistic scipyNorm s 1 code) α ω.1 ω.2} ≤
        (rankBound st.alternative α B : ENNReal) / (B + 1 : ℕ) := by
  obtain ⟨G, hG, hgen⟩ := logNormal_simulates hp hs 1
  exact ⟨G, _, hG, hgen n, (level_logNormal hs code st one_pos hn hB).1 α⟩

include hs hp in
/-- **C126, critical values, log-normal family, what holds**: Kolmogorov-Smirnov and Cramer-von Mises with scale `1`.
Missing: every other scale. -/
theorem C126_level_logNormal_partial (st : SimpleStat) {n B : ℕ} (hn : 0 < n) (hB : 0 < B) {α : ℝ} (h0 : 0 ≤ α)
    (h1 : α ≤ 1) :
    ∃ G M, (Gen.Family.logNormal s 1).simulator classes = .ok G ∧ G.generate n = .ok M ∧
      ((iid n (logNormalLaw 0 s)).prod (Measure.pi fun _ : Fin B => M))
        {ω | CvRejects (st.statistic scipyNorm s 1 code) α ω.1 ω.2} ≤
        (criticalBound st.alternative α B : ENNReal) / (B + 1 : ℕ) := by
  obtain ⟨G, hG, hgen⟩ := logNormal_simulates hp hs 1
  exact ⟨G, _, hG, hgen n, (level_logNormal hs code st one_pos hn hB).2 α h0 h1⟩

include hs hp in
/-- **C125, refuted for log-normal hypotheses with a scale**: for any scale other than `1`, data of exactly the hypothesised
law are rejected by the two-tailed Kolmogorov-Smirnov criterion with probability tending to one, at every level, by both
procedures.  The simulated samples have scale `1`, so their distances are large, and the small distance of the data is judged
in the left tail. -/
theorem C125_refuted_logNormal {scale : ℝ} (hc : 0 < scale) (hc1 : scale ≠ 1) :
    ∃ G P, (Gen.Family.logNormal s scale).simulator classes = .ok G ∧ (∀ n, G.generate n = .ok (iid n P)) ∧
      Consistent ((SimpleStat.ks .twoTailed).statistic scipyNorm s scale code) (logNormalLaw (Real.log scale) s) P := by
  obtain ⟨G, hG, hgen⟩ := logNormal_simulates hp hs scale
  refine ⟨G, _, hG, hgen, ?_⟩
  have hl : (0 : ℝ) ≠ Real.log scale := (Real.log_ne_zero_of_pos_of_ne_one hc hc1).symm
  obtain ⟨x₀, δ, hδ, hsee⟩ := EdfStat.Omnibus.sees (e := .ks .twoTailed) (by simp [EdfStat.Omnibus])
    (logNormal_ne (s := s) hl)
  rw [cdf_logNormalLaw hs hc] at hsee
  obtain ⟨A, E, hA, hE, h⟩ := edf_separates (.ks .twoTailed) (lognormCdf_continuous hs hc) (cdf_logNormalLaw hs hc)
    (by simp) hδ hsee
  refine consistent_of_separated hE hA (Or.inr ⟨by simp [SimpleStat.statistic, SimpleStat.alternative], ?_⟩)
  filter_upwards [eventually_gt_atTop 0] with n hn x hx y hy
  obtain ⟨d, d', hd, hd', hlt⟩ := h n hn y hy x hx
  exact ⟨d', d, hd', hd, hlt⟩

include hs hp in
/-- **C135, log-normal family, what holds**: with scale `1`, Kolmogorov-Smirnov and Cramer-von Mises detect every law other
than the hypothesised one.  Missing: every other scale (`C135_refuted_logNormal`). -/
theorem C135_logNormal_partial {st : SimpleStat} (hst : st = .ks .twoTailed ∨ st = .cvm) :
    ∃ G, (Gen.Family.logNormal s 1).simulator classes = .ok G ∧ (∀ n, G.generate n = .ok (iid n (logNormalLaw 0 s))) ∧
      ∀ Q : Measure ℝ, IsProbabilityMeasure Q → Q ≠ logNormalLaw 0 s →
        Consistent (st.statistic scipyNorm s 1 code) Q (logNormalLaw 0 s) := by
  obtain ⟨G, hG, hgen⟩ := logNormal_simulates hp hs 1
  refine ⟨G, hG, hgen, fun Q _ hne => ?_⟩
  have hcdf : ∀ x, ProbabilityTheory.cdf (logNormalLaw 0 s) x = lognormCdf scipyNorm s 1 x := fun x => by
    rw [← cdf_logNormalLaw hs one_pos, Real.log_one]
  have he : (simpleEdf st).Omnibus := by rcases hst with rfl | rfl <;> simp [simpleEdf, EdfStat.Omnibus]
  obtain ⟨x₀, δ, hδ, hsee⟩ := he.sees hne
  rw [hcdf] at hsee
  refine edf_consistent _ (simpleEdf st) ?_ (lognormCdf_continuous hs one_pos) hcdf ?_ hδ hsee (g := fun _ u => u)
    (fun _ _ => strictMono_id) (fun n _ => .of_forall fun x => ?_) (fun n _ => .of_forall fun x => ?_)
  · rcases hst with rfl | rfl <;> simp [SimpleStat.statistic, SimpleStat.alternative]
  · rcases hst with rfl | rfl <;> simp [simpleEdf]
  · rw [except_map_self, logNormalSimple_value]
  · rw [except_map_self, logNormalSimple_value]

include hs hp in
/-- **C135, refuted for log-normal hypotheses with a scale**: data of scale `1` are not detected when the hypothesis has
another scale.  However large the sample, they are rejected no more often than the level allows. -/
theorem C135_refuted_logNormal (st : SimpleStat) {scale : ℝ} (hc : 0 < scale) (hc1 : scale ≠ 1) :
    ∃ G P, (Gen.Family.logNormal s scale).simulator classes = .ok G ∧ (∀ n, G.generate n = .ok (iid n P)) ∧
      logNormalLaw 0 s ≠ logNormalLaw (Real.log scale) s ∧
      (∀ n, 0 < n → ∀ B, 0 < B → ∀ α, ((iid n (logNormalLaw 0 s)).prod (Measure.pi fun _ : Fin B => iid n P))
        {ω | TestRejects (st.statistic scipyNorm s scale code) α ω.1 ω.2} ≤
        (rankBound st.alternative α B : ENNReal) / (B + 1 : ℕ)) ∧
      ¬ Consistent (st.statistic scipyNorm s scale code) (logNormalLaw 0 s) P := by
  obtain ⟨G, hG, hgen⟩ := logNormal_simulates hp hs scale
  exact ⟨G, _, hG, hgen, logNormal_ne (Real.log_ne_zero_of_pos_of_ne_one hc hc1).symm,
    fun n hn B hB α => (level_logNormal hs code st hc hn hB).1 α,
    not_consistent (m := 1) fun n hn => (level_logNormal hs code st hc hn (by norm_num)).1 _⟩

end

example : ∃ G P, (Gen.Family.logNormal 2 3).simulator generatorClasses = .ok G ∧ (∀ n, G.generate n = .ok (iid n P)) ∧
    Consistent ((SimpleStat.ks .twoTailed).statistic scipyNorm 2 3 "KS") (logNormalLaw (Real.log 3) 2) P :=
  C125_refuted_logNormal (by norm_num) _ (List.Perm.refl _) (by norm_num) (by norm_num)

example : ∃ G M, (Gen.Family.logNormal 2 1).simulator generatorClasses = .ok G ∧ G.generate 20 = .ok M ∧
    ((iid 20 (logNormalLaw 0 2)).prod (Measure.pi fun _ : Fin 99 => M))
      {ω | TestRejects (SimpleStat.cvm.statistic scipyNorm 2 1 "CVM") (1 / 20) ω.1 ω.2} ≤
      (rankBound .right (1 / 20) 99 : ENNReal) / (99 + 1 : ℕ) :=
  C125_level_logNormal_partial (by norm_num) _ (List.Perm.refl _) .cvm (by norm_num) (by norm_num) _

example : ∃ G M, (Gen.Family.logNormal 2 1).simulator generatorClasses = .ok G ∧ G.generate 20 = .ok M ∧
    ((iid 20 (logNormalLaw 0 2)).prod (Measure.pi fun _ : Fin 99 => M))
      {ω | CvRejects (SimpleStat.cvm.statistic scipyNorm 2 1 "CVM") (1 / 20) ω.1 ω.2} ≤
      (criticalBound .right (1 / 20) 99 : ENNReal) / (99 + 1 : ℕ) :=
  C126_level_logNormal_partial (by norm_num) _ (List.Perm.refl _) .cvm (by norm_num) (by norm_num) (by norm_num)
    (by norm_num)

example : Consistent (SimpleStat.cvm.statistic scipyNorm 2 1 "CVM") (logNormalLaw 1 2) (logNormalLaw 0 2) := by
  obtain ⟨_, _, _, h⟩ := C135_logNormal_partial (s := 2) (by norm_num) "CVM" (List.Perm.refl generatorClasses) (.inr rfl)
  exact h _ inferInstance (logNormal_ne one_ne_zero)

example : ∃ G P, (Gen.Family.logNormal 2 3).simulator generatorClasses = .ok G ∧ (∀ n, G.generate n = .ok (iid n P)) ∧
    ¬ Consistent (SimpleStat.cvm.statistic scipyNorm 2 3 "CVM") (logNormalLaw 0 2) P := by
  obtain ⟨G, P, h1, h2, _, _, h⟩ := C135_refuted_logNormal (s := 2) (by norm_num) "CVM"
    (List.Perm.refl generatorClasses) .cvm (scale := 3) (by norm_num) (by norm_num)
  exact ⟨G, P, h1, h2, h⟩

end Pysatl.Props
