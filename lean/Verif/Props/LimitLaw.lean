import Verif.Lemmas.CentralLimit
import Verif.Lemmas.ChiSquare
import Verif.Props.ConsistencyKurtosis

/-! # C138: the law of a criterion's value under the hypothesis, for large samples -/

namespace Pysatl.Props

open Pysatl.Decision Pysatl.Resolver Pysatl.Spec Pysatl.Edf Pysatl.Graph Pysatl.Gen Pysatl.Normal Pysatl.Exponent
open MeasureTheory ProbabilityTheory Filter Topology

/-- The data are independent observations of the law `P`.  As the sample grows, the criterion returns a value of at most
`t` with a probability that tends to the one the law `L` gives to the values of at most `t`, at every `t` to which `L` gives no mass. -/
def LimitLaw (st : Statistic ℝ) (P L : Measure ℝ) : Prop :=
  ∀ t, L {t} = 0 → Tendsto (fun n => iid n P {x | ∃ d ≤ t, st.execute (List.ofFn x) = .ok d}) atTop (𝓝 (L (Set.Iic t)))

theorem limitLaw_of_near {st : Statistic ℝ} {P L : Measure ℝ} [IsProbabilityMeasure P] [IsProbabilityMeasure L]
    (hm : ∀ n, OutcomeMeas fun x : Fin n → ℝ => st.execute (List.ofFn x)) {T W : ℕ → (ℕ → ℝ) → ℝ}
    (hT : ∀ᵐ ω ∂seqLaw P, ∀ᶠ n in atTop, st.execute (List.ofFn (firsts n ω)) = .ok (T n ω)) (h : Near P T W)
    (hW : TendstoInDistribution W atTop (id : ℝ → ℝ) (fun _ => seqLaw P) L) (hWm : ∀ n, Measurable (W n)) :
    LimitLaw st P L := by
  intro t ht
  set V : ℕ → (ℕ → ℝ) → ℝ := fun n ω => outcomeVal (st.execute (List.ofFn (firsts n ω))) with hV
  have hVm : ∀ n, Measurable (V n) := fun n => (measurable_outcomeVal (hm n)).comp (measurable_firsts n)
  have hVN : Near P V W := h.congr <| by
    filter_upwards [hT] with ω hω
    filter_upwards [hω] with n hn
    simp only [hV, hn, outcomeVal]
  have h1 := tendsto_halfLine (hVN.tendsto hVm hW hWm) hVm ht
  -- errors have a vanishing probability
  have h2 : Tendsto (fun n => iid n P {x | ∃ d, st.execute (List.ofFn x) = .ok d}ᶜ) atTop (𝓝 0) :=
    eventually_prob_compl (fun n => measurable_isOk (hm n)) <| by
      filter_upwards [hT] with ω hω
      filter_upwards [hω] with n hn
      exact ⟨_, hn⟩
  have e : ∀ n, seqLaw P {ω | V n ω ≤ t} = iid n P {x | outcomeVal (st.execute (List.ofFn x)) ≤ t} := fun n => by
    rw [← map_firsts, Measure.map_apply (measurable_firsts n)
      (measurableSet_le (measurable_outcomeVal (hm n)) measurable_const)]
    rfl
  simp only [e] at h1
  have hsub : ∀ n, {x : Fin n → ℝ | ∃ d ≤ t, st.execute (List.ofFn x) = .ok d} ⊆
      {x | outcomeVal (st.execute (List.ofFn x)) ≤ t} := by
    rintro n x ⟨d, hd, he⟩
    simp only [Set.mem_ofPred_eq, he, outcomeVal]
    exact hd
  have hsup : ∀ n, {x : Fin n → ℝ | outcomeVal (st.execute (List.ofFn x)) ≤ t} ⊆
      {x : Fin n → ℝ | ∃ d ≤ t, st.execute (List.ofFn x) = .ok d} ∪ {x | ∃ d, st.execute (List.ofFn x) = .ok d}ᶜ := by
    intro n x hx
    by_cases hd : ∃ d, st.execute (List.ofFn x) = .ok d
    · obtain ⟨d, hd⟩ := hd
      simp only [Set.mem_ofPred_eq, hd, outcomeVal] at hx
      exact Or.inl ⟨d, hx, hd⟩
    · exact Or.inr hd
  have h3 : Tendsto (fun n => iid n P {x | outcomeVal (st.execute (List.ofFn x)) ≤ t} -
      iid n P {x | ∃ d, st.execute (List.ofFn x) = .ok d}ᶜ) atTop (𝓝 (L (Set.Iic t))) := by
    have := ENNReal.Tendsto.sub h1 h2 (Or.inr ENNReal.zero_ne_top)
    rwa [tsub_zero] at this
  refine tendsto_of_tendsto_of_tendsto_of_le_of_le h3 h1 (fun n => ?_) fun n => measure_mono (hsub n)
  rw [tsub_le_iff_right]
  exact (measure_mono (hsup n)).trans (measure_union_le _ _)

theorem chiSquareLaw_probability : IsProbabilityMeasure (chiSquareLaw 2) :=
  isProbabilityMeasure_gammaMeasure (by norm_num) (by norm_num)

/-- The sum of two squares close to uncorrelated averages settles at the chi-square law with two degrees of freedom. -/
theorem limitLaw_squares {st : Statistic ℝ} {P : Measure ℝ} [IsProbabilityMeasure P]
    (hm : ∀ n, OutcomeMeas fun x : Fin n → ℝ => st.execute (List.ofFn x)) {T S : ℕ → (ℕ → ℝ) → ℝ}
    (hT : ∀ᵐ ω ∂seqLaw P, ∀ᶠ n in atTop, st.execute (List.ofFn (firsts n ω)) = .ok (T n ω ^ 2 + S n ω ^ 2))
    {f g : ℝ → ℝ} (hf : Measurable f) (hg : Measurable g) (hf2 : MemLp f 2 P) (hg2 : MemLp g 2 P)
    (hf0 : ∫ x, f x ∂P = 0) (hg0 : ∫ x, g x ∂P = 0) (hff : ∫ x, f x ^ 2 ∂P = 1) (hgg : ∫ x, g x ^ 2 ∂P = 1)
    (hfg : ∫ x, f x * g x ∂P = 0) (h1 : Near P T (rootAvg f)) (h2 : Near P S (rootAvg g)) :
    LimitLaw st P (chiSquareLaw 2) := by
  have := chiSquareLaw_probability
  have hft := tight_rootAvg hf hf2 hf0
  have hgt := tight_rootAvg hg hg2 hg0
  have hn := (h1.mul h1 hft hft).add (h2.mul h2 hgt hgt)
  have hc := (clt_pair hf hg hf2 hg2 hf0 hg0 hff hgg hfg).continuous_comp
    (g := fun x : EuclideanSpace ℝ (Fin 2) => x 0 ^ 2 + x 1 ^ 2) (by fun_prop)
  have hm1 := measurable_rootAvg hf
  have hm2 := measurable_rootAvg hg
  refine limitLaw_of_near hm (T := fun n ω => T n ω * T n ω + S n ω * S n ω) ?_ hn ?_
    fun n => ((hm1 n).mul (hm1 n)).add ((hm2 n).mul (hm2 n))
  · filter_upwards [hT] with ω hω
    filter_upwards [hω] with n hn
    rw [hn, sq, sq]
  · refine ⟨fun n => ((hm1 n).mul (hm1 n)).add ((hm2 n).mul (hm2 n)) |>.aemeasurable, aemeasurable_id, ?_⟩
    refine Tendsto.congr (fun n => Subtype.ext ?_) (hc.tendsto.mono_right (le_of_eq (congrArg 𝓝 (Subtype.ext ?_))))
    · show (seqLaw P).map _ = (seqLaw P).map _
      congr 1
      funext ω
      simp [pairAvg, sq]
    · show (stdGaussian (EuclideanSpace ℝ (Fin 2))).map _ = (chiSquareLaw 2).map id
      rw [Measure.map_id, ← sum_squares_law]
      rfl

end Pysatl.Props
