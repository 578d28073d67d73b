import Verif.Props.ConsistencyLogNormal
import Verif.Props.LimitLawHermite
import Verif.Props.LimitLawTests

/-! # C148: limit laws of the criteria of log-normality -/

namespace Pysatl.Props

open Pysatl.Decision Pysatl.Resolver Pysatl.Spec Pysatl.Edf Pysatl.Graph Pysatl.Gen Pysatl.Normal Pysatl.LogNormal
open MeasureTheory ProbabilityTheory Filter Topology

section
variable {cls : NormStat} (hc : Wrapped cls) {s : ℝ} (hs : 0 < s) (scale : ℝ) (code : String)
  (params : Option (List (String × ℝ)))

include hc hs in
/-- **C148, values**: under any law of positive observations the outcome of the criterion of log-normality (a number or an
exception) has the law of the outcome of the criterion of normality for the logarithms. -/
theorem C148_values (Q : Measure ℝ) [IsProbabilityMeasure Q] (hQ : ∀ᵐ x ∂Q, 0 < x) (n : ℕ) (S : Set (Except PyErr ℝ)) :
    iid n Q {x | (wrappedStatistic scipyNorm cls s scale code params).execute (List.ofFn x) ∈ S} =
      iid n (Q.map Real.log) {x | (cls.statistic scipyNorm code params).execute (List.ofFn x) ∈ S} := by
  have hL : IsProbabilityMeasure (Q.map Real.log) := Measure.isProbabilityMeasure_map Real.measurable_log.aemeasurable
  have hQ' : iid n Q = iid n ((Q.map Real.log).map Real.exp) := by rw [exp_of_logs hQ]
  rw [hQ', ← iid_map _ Real.measurable_exp, (measurableEmbedding_exp n).map_apply]
  congr 1
  ext x
  have := wrappedStatistic_exp scipyNorm_symmetric hc (scale := scale) hs code params (List.ofFn x)
  rw [List.map_ofFn] at this
  show (wrappedStatistic scipyNorm cls s scale code params).execute (List.ofFn (Real.exp ∘ x)) ∈ S ↔ _
  rw [this]
  rfl

theorem logs_of_logNormal (mu sigma : ℝ) :
    (logNormalLaw mu sigma).map Real.log = gaussianReal mu (sigma ^ 2).toNNReal := by
  rw [logNormalLaw, Measure.map_map Real.measurable_log Real.measurable_exp,
    show Real.log ∘ Real.exp = id from funext Real.log_exp, Measure.map_id]

include hc hs in
theorem logNormal_limitLaw {mu sigma : ℝ} {L : Measure ℝ}
    (h : LimitLaw (cls.statistic scipyNorm code params) (gaussianReal mu (sigma ^ 2).toNNReal) L) :
    LimitLaw (wrappedStatistic scipyNorm cls s scale code params) (logNormalLaw mu sigma) L := by
  intro t ht
  refine (h t ht).congr fun n => ?_
  have := C148_values hc hs scale code params _ (logNormal_pos mu sigma) n {o | ∃ d ≤ t, o = .ok d}
  rw [logs_of_logNormal] at this
  exact this.symm

end

section
variable {s : ℝ} (hs : 0 < s) (scale : ℝ) (code : String) (params : Option (List (String × ℝ)))
variable {classes : List GeneratorClass} (hp : classes.Perm generatorClasses) (mu : ℝ) {sigma : ℝ} (hσ : 0 < sigma)

include hs hp hσ in
/-- **C148, limit laws**: for large log-normal samples of any parameters the values of the log-normality criteria follow the
published laws, whatever the parameters of the hypothesis: the standard normal law for the sample skewness and kurtosis, the
chi-square law with two degrees of freedom for Jarque and Bera, D'Agostino and Pearson, Doornik and Hansen and the first of
Bontemps and Meddahi, with four degrees for their second. -/
theorem C148_limit_laws : ∃ G, getAvailableGenerator classes .logNormal (some [("s", sigma), ("mu", mu)]) = .ok G ∧
    (∀ n, G.generate n = .ok (iid n (logNormalLaw mu sigma))) ∧
    (∀ cls, cls = NormStat.skew ∨ cls = NormStat.kurtosis →
      LimitLaw (wrappedStatistic scipyNorm cls s scale code params) (logNormalLaw mu sigma) (gaussianReal 0 1)) ∧
    (∀ cls, cls = NormStat.jarqueBera ∨ cls = NormStat.dap ∨ cls = NormStat.doornikHansen ∨ cls = NormStat.bontempsMeddahi1 →
      LimitLaw (wrappedStatistic scipyNorm cls s scale code params) (logNormalLaw mu sigma) (chiSquareLaw 2)) ∧
    LimitLaw (wrappedStatistic scipyNorm .bontempsMeddahi2 s scale code params) (logNormalLaw mu sigma) (chiSquareLaw 4) := by
  have hv := pow_pos hσ 2
  refine with_logNormal hp mu hσ ⟨?_, ?_, ?_⟩
  · rintro _ (rfl | rfl) <;> refine logNormal_limitLaw (by trivial) hs scale code params ?_
    · exact skew_limitLaw code params mu hv
    · exact kurtosis_limitLaw code params mu hv
  · rintro _ (rfl | rfl | rfl | rfl) <;> refine logNormal_limitLaw (by trivial) hs scale code params ?_
    · exact jarqueBera_limitLaw code params mu hv
    · exact dap_limitLaw code params mu hv
    · exact doornikHansen_limitLaw code params mu hv
    · exact bontempsMeddahi1_limitLaw code params mu hv
  · exact logNormal_limitLaw (by trivial) hs scale code params (bontempsMeddahi2_limitLaw mu hv code params)

include hs hσ in
/-- **C148, the level**: a user who rejects log-normality for values above `-2 log α` is wrong with a probability that tends
to `α`. -/
theorem C148_level {α : ℝ} (h0 : 0 < α) (h1 : α ≤ 1) {cls : NormStat}
    (hc : cls ∈ [NormStat.jarqueBera, .dap, .bontempsMeddahi1, .doornikHansen]) :
    Tendsto (fun n => iid n (logNormalLaw mu sigma)
      {x | ∃ d ≤ -2 * Real.log α, (wrappedStatistic scipyNorm cls s scale code params).execute (List.ofFn x) = .ok d}) atTop
      (𝓝 (ENNReal.ofReal (1 - α))) := by
  refine (C138_level code params mu (pow_pos hσ 2) h0 h1 hc).congr fun n => ?_
  have hw : Wrapped cls := by
    simp only [List.mem_cons, List.not_mem_nil, or_false] at hc
    rcases hc with rfl | rfl | rfl | rfl <;> trivial
  have := C148_values hw hs scale code params _ (logNormal_pos mu sigma) n {o | ∃ d ≤ -2 * Real.log α, o = .ok d}
  rw [logs_of_logNormal] at this
  exact this.symm

end

/-- At the level of five percent, for data of scale `e ^ 3` and a hypothesis of scale one. -/
example : Tendsto (fun n => iid n (logNormalLaw 3 2)
      {x | ∃ d ≤ -2 * Real.log (1 / 20), (wrappedStatistic scipyNorm .jarqueBera 1 1 "JB" none).execute (List.ofFn x) = .ok d})
      atTop (𝓝 (ENNReal.ofReal (1 - 1 / 20))) :=
  C148_level one_pos 1 "JB" none 3 two_pos (by norm_num) (by norm_num) (by simp)

end Pysatl.Props
