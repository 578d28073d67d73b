import Verif.Props.ConsistencyRefuted
import Verif.Props.Functional

/-! # C136: power of criteria whose values settle as the sample grows -/

namespace Pysatl.Props

open Pysatl.Decision Pysatl.Resolver Pysatl.Spec Pysatl.Edf Pysatl.Graph Pysatl.Gen
open MeasureTheory ProbabilityTheory Filter Topology

/-- The data are independent observations of the law `Q`, the reference values are computed from independent samples of
the law `P` of the same size.  Whatever the number of simulations, the probability that the test rejects tends to zero
as the sample grows, at every level below one (by critical values at every level). -/
def Undetected (st : Statistic ℝ) (Q P : Measure ℝ) : Prop :=
  ∀ B : ℕ, 0 < B → ∀ α : ℝ, 0 ≤ α → α ≤ 1 →
    (α < 1 → Tendsto (fun n => ((iid n Q).prod (Measure.pi fun _ : Fin B => iid n P))
      {ω | TestRejects st α ω.1 ω.2}) atTop (𝓝 0)) ∧
    Tendsto (fun n => ((iid n Q).prod (Measure.pi fun _ : Fin B => iid n P)) {ω | CvRejects st α ω.1 ω.2})
      atTop (𝓝 0)

/-- Nothing is both detected and undetected. -/
theorem Undetected.not_consistent {st : Statistic ℝ} {Q P : Measure ℝ} (h : Undetected st Q P) : ¬ Consistent st Q P :=
  fun hc => by
    have h1 := (hc 1 one_pos 0 le_rfl zero_le_one).2
    have h2 := (h 1 one_pos 0 le_rfl zero_le_one).2
    exact one_ne_zero (tendsto_nhds_unique h1 h2)

/-- An observed value below all simulated values is accepted by a right-tailed criterion. -/
theorem accepts_below {n B : ℕ} (hn : 0 < n) (hB : 0 < B) {st : Statistic ℝ} (ht : st.alternative = .right) {α : ℝ}
    (h0 : 0 ≤ α) (h1 : α ≤ 1) {x : Fin n → ℝ} {y : Fin B → Fin n → ℝ} {d : ℝ} (hd : st.execute (List.ofFn x) = .ok d)
    (hy : ∀ j, ∃ e, st.execute (List.ofFn (y j)) = .ok e ∧ d < e) :
    (α < 1 → ¬ TestRejects st α x y) ∧ ¬ CvRejects st α x y := by
  rw [testRejects_iff hn, cvRejects_iff hn, hd, ht]
  set L := List.ofFn fun j => outcomeVal (st.execute (List.ofFn (y j))) with hL
  have hne : L ≠ [] := by rw [hL, Ne, List.ofFn_eq_nil_iff]; omega
  have hb : ∀ z ∈ L, d < z := by
    intro z hz
    rw [hL, List.mem_ofFn] at hz
    obtain ⟨j, rfl⟩ := hz
    obtain ⟨e, he, hlt⟩ := hy j
    rw [he]
    exact hlt
  have hle : fracLe L d = 0 := by
    rw [fracLe, List.filter_eq_nil_iff.2 fun z hz => by simpa using hb z hz]
    simp
  have hgt : fracGt L d = 1 := by rw [fracGt_eq hne, hle, sub_zero]
  constructor
  · rintro hα ⟨_, _, p, hp, hpa⟩
    simp only [getConcreteFactory, reduceCtorEq, if_false, if_true, Factory.pValue, outcomeVal, rightPValue_eq hne,
      hgt] at hp
    cases hp
    linarith
  · rintro ⟨_, _, cv, f, hcv, hf, hrej⟩
    obtain ⟨cv', hcv', hin⟩ := C21_critical_value_in_range .right L hne α h0 h1
    rw [hcv] at hcv'
    cases hcv'
    rcases cv with c | ⟨l, r⟩
    · simp only [getConcreteFactory, reduceCtorEq, if_false, if_true] at hf
      cases hf
      obtain ⟨z, hz, hcz⟩ := (hin c (by simp [CriticalValue.values])).1
      have : d < c := (hb z hz).trans_le hcz
      have h2 : decide (d ≤ c) = false := hrej
      rw [decide_eq_false_iff_not] at h2
      exact h2 this.le
    · simp only [getConcreteFactory, Factory.criticalValue, reduceCtorEq, if_false, if_true, Bind.bind, Except.bind] at hcv
      split at hcv <;> cases hcv

section
variable {st : Statistic ℝ} {Q P : Measure ℝ} [IsProbabilityMeasure Q] [IsProbabilityMeasure P]

/-- Samples whose value lies above (below) a bound. -/
theorem measurable_above {n : ℕ} (hm : OutcomeMeas fun x : Fin n → ℝ => st.execute (List.ofFn x)) (t : ℝ) :
    MeasurableSet {x : Fin n → ℝ | ∃ d, st.execute (List.ofFn x) = .ok d ∧ t < d} := by
  have e : {x : Fin n → ℝ | ∃ d, st.execute (List.ofFn x) = .ok d ∧ t < d} =
      {x | ∃ d, st.execute (List.ofFn x) = .ok d} ∩ (fun x => outcomeVal (st.execute (List.ofFn x))) ⁻¹' Set.Ioi t := by
    ext x
    simp only [Set.mem_ofPred_eq, Set.mem_inter_iff, Set.mem_preimage, Set.mem_Ioi]
    constructor
    · rintro ⟨d, hd, h⟩
      exact ⟨⟨d, hd⟩, by rw [hd]; exact h⟩
    · rintro ⟨⟨d, hd⟩, h⟩
      rw [hd] at h
      exact ⟨d, hd, h⟩
  rw [e]
  exact (measurable_isOk hm).inter (measurable_outcomeVal hm measurableSet_Ioi)

theorem measurable_below {n : ℕ} (hm : OutcomeMeas fun x : Fin n → ℝ => st.execute (List.ofFn x)) (t : ℝ) :
    MeasurableSet {x : Fin n → ℝ | ∃ d, st.execute (List.ofFn x) = .ok d ∧ d < t} := by
  have e : {x : Fin n → ℝ | ∃ d, st.execute (List.ofFn x) = .ok d ∧ d < t} =
      {x | ∃ d, st.execute (List.ofFn x) = .ok d} ∩ (fun x => outcomeVal (st.execute (List.ofFn x))) ⁻¹' Set.Iio t := by
    ext x
    simp only [Set.mem_ofPred_eq, Set.mem_inter_iff, Set.mem_preimage, Set.mem_Iio]
    constructor
    · rintro ⟨d, hd, h⟩
      exact ⟨⟨d, hd⟩, by rw [hd]; exact h⟩
    · rintro ⟨⟨d, hd⟩, h⟩
      rw [hd] at h
      exact ⟨d, hd, h⟩
  rw [e]
  exact (measurable_isOk hm).inter (measurable_outcomeVal hm measurableSet_Iio)

/-- Values that settle on different sides of thresholds. -/
theorem limit_consistent (hm : ∀ n, OutcomeMeas fun x : Fin n → ℝ => st.execute (List.ofFn x)) {t : ℕ → ℝ}
    (h : (st.alternative ≠ .left ∧
        (∀ᵐ ω ∂seqLaw Q, ∀ᶠ n in atTop, ∃ d, st.execute (List.ofFn (firsts n ω)) = .ok d ∧ t n < d) ∧
        ∀ᵐ ω ∂seqLaw P, ∀ᶠ n in atTop, ∃ d, st.execute (List.ofFn (firsts n ω)) = .ok d ∧ d < t n) ∨
      (st.alternative ≠ .right ∧
        (∀ᵐ ω ∂seqLaw Q, ∀ᶠ n in atTop, ∃ d, st.execute (List.ofFn (firsts n ω)) = .ok d ∧ d < t n) ∧
        ∀ᵐ ω ∂seqLaw P, ∀ᶠ n in atTop, ∃ d, st.execute (List.ofFn (firsts n ω)) = .ok d ∧ t n < d)) :
    Consistent st Q P := by
  rcases h with ⟨ha, hQ, hP⟩ | ⟨ha, hQ, hP⟩
  · refine consistent_of_separated (eventually_prob_compl (fun n => measurable_above (hm n) (t n)) hQ)
      (eventually_prob_compl (fun n => measurable_below (hm n) (t n)) hP) (Or.inl ⟨ha, .of_forall fun n x hx y hy => ?_⟩)
    obtain ⟨d, hd, h1⟩ := hx
    obtain ⟨e, he, h2⟩ := hy
    exact ⟨d, e, hd, he, h2.trans h1⟩
  · refine consistent_of_separated (eventually_prob_compl (fun n => measurable_below (hm n) (t n)) hQ)
      (eventually_prob_compl (fun n => measurable_above (hm n) (t n)) hP) (Or.inr ⟨ha, .of_forall fun n x hx y hy => ?_⟩)
    obtain ⟨d, hd, h1⟩ := hx
    obtain ⟨e, he, h2⟩ := hy
    exact ⟨d, e, hd, he, h1.trans h2⟩

/-- Values that settle on the side on which the test does not look. -/
theorem limit_undetected (hm : ∀ n, OutcomeMeas fun x : Fin n → ℝ => st.execute (List.ofFn x)) {t : ℕ → ℝ}
    (h : (st.alternative = .left ∧
        (∀ᵐ ω ∂seqLaw Q, ∀ᶠ n in atTop, ∃ d, st.execute (List.ofFn (firsts n ω)) = .ok d ∧ t n < d) ∧
        ∀ᵐ ω ∂seqLaw P, ∀ᶠ n in atTop, ∃ d, st.execute (List.ofFn (firsts n ω)) = .ok d ∧ d < t n) ∨
      (st.alternative = .right ∧
        (∀ᵐ ω ∂seqLaw Q, ∀ᶠ n in atTop, ∃ d, st.execute (List.ofFn (firsts n ω)) = .ok d ∧ d < t n) ∧
        ∀ᵐ ω ∂seqLaw P, ∀ᶠ n in atTop, ∃ d, st.execute (List.ofFn (firsts n ω)) = .ok d ∧ t n < d)) :
    Undetected st Q P := by
  intro B hB α h0 h1
  rcases h with ⟨ha, hQ, hP⟩ | ⟨ha, hQ, hP⟩
  · have hA := eventually_prob_compl (fun n => measurable_above (hm n) (t n)) hQ
    have hE := eventually_prob_compl (fun n => measurable_below (hm n) (t n)) hP
    have key : ∀ᶠ n in atTop, ∀ x ∈ {x : Fin n → ℝ | ∃ d, st.execute (List.ofFn x) = .ok d ∧ t n < d},
        ∀ y : Fin B → Fin n → ℝ, (∀ j, y j ∈ {x : Fin n → ℝ | ∃ d, st.execute (List.ofFn x) = .ok d ∧ d < t n}) →
        (α < 1 → ¬ TestRejects st α x y) ∧ ¬ CvRejects st α x y := by
      filter_upwards [eventually_gt_atTop 0] with n hn x hx y hy
      obtain ⟨d, hd, hdt⟩ := hx
      refine accepts_beyond hn hB ha h0 h1 hd fun j => ?_
      obtain ⟨e, he, het⟩ := hy j
      exact ⟨e, he, het.trans hdt⟩
    exact ⟨fun hα => power_to_zero hA hE (key.mono fun n h x hx y hy => (h x hx y hy).1 hα),
      power_to_zero hA hE (key.mono fun n h x hx y hy => (h x hx y hy).2)⟩
  · have hA := eventually_prob_compl (fun n => measurable_below (hm n) (t n)) hQ
    have hE := eventually_prob_compl (fun n => measurable_above (hm n) (t n)) hP
    have key : ∀ᶠ n in atTop, ∀ x ∈ {x : Fin n → ℝ | ∃ d, st.execute (List.ofFn x) = .ok d ∧ d < t n},
        ∀ y : Fin B → Fin n → ℝ, (∀ j, y j ∈ {x : Fin n → ℝ | ∃ d, st.execute (List.ofFn x) = .ok d ∧ t n < d}) →
        (α < 1 → ¬ TestRejects st α x y) ∧ ¬ CvRejects st α x y := by
      filter_upwards [eventually_gt_atTop 0] with n hn x hx y hy
      obtain ⟨d, hd, hdt⟩ := hx
      refine accepts_below hn hB ha h0 h1 hd fun j => ?_
      obtain ⟨e, he, het⟩ := hy j
      exact ⟨e, he, hdt.trans het⟩
    exact ⟨fun hα => power_to_zero hA hE (key.mono fun n h x hx y hy => (h x hx y hy).1 hα),
      power_to_zero hA hE (key.mono fun n h x hx y hy => (h x hx y hy).2)⟩

/-- The functional `T` of the empirical law tends to that of the law of the observations, along almost every sequence. -/
def SettlesAt (T : Measure ℝ → ℝ) (μ : Measure ℝ) [IsProbabilityMeasure μ] : Prop :=
  ∀ᵐ ω ∂seqLaw μ, Tendsto (fun n => T (empiricalLaw (List.ofFn (firsts n ω)))) atTop (𝓝 (T μ))

/-- The criterion is a strictly increasing function of the functional of the empirical law. -/
def GrowsWith (st : Statistic ℝ) (T : Measure ℝ → ℝ) : Prop :=
  ∃ g : ℕ → ℝ → ℝ, ∀ n, 1 < n → StrictMono (g n) ∧
    ∀ x : Fin n → ℝ, (∀ i, 0 < x i) → st.execute (List.ofFn x) = .ok (g n (T (empiricalLaw (List.ofFn x))))

theorem settles_above {T : Measure ℝ → ℝ} {g : ℕ → ℝ → ℝ} (hg : ∀ n, 1 < n → StrictMono (g n) ∧
    ∀ x : Fin n → ℝ, (∀ i, 0 < x i) → st.execute (List.ofFn x) = .ok (g n (T (empiricalLaw (List.ofFn x)))))
    (hpos : ∀ᵐ x ∂Q, 0 < x) (hQ : SettlesAt T Q) {c : ℝ} (hc : c < T Q) :
    ∀ᵐ ω ∂seqLaw Q, ∀ᶠ n in atTop, ∃ d, st.execute (List.ofFn (firsts n ω)) = .ok d ∧ g n c < d := by
  filter_upwards [hQ, seq_ae hpos] with ω hω hp
  filter_upwards [hω.eventually (lt_mem_nhds hc), eventually_gt_atTop 1] with n h hn
  exact ⟨_, (hg n hn).2 _ fun i => hp i, (hg n hn).1 h⟩

theorem settles_below {T : Measure ℝ → ℝ} {g : ℕ → ℝ → ℝ} (hg : ∀ n, 1 < n → StrictMono (g n) ∧
    ∀ x : Fin n → ℝ, (∀ i, 0 < x i) → st.execute (List.ofFn x) = .ok (g n (T (empiricalLaw (List.ofFn x)))))
    (hpos : ∀ᵐ x ∂Q, 0 < x) (hQ : SettlesAt T Q) {c : ℝ} (hc : T Q < c) :
    ∀ᵐ ω ∂seqLaw Q, ∀ᶠ n in atTop, ∃ d, st.execute (List.ofFn (firsts n ω)) = .ok d ∧ d < g n c := by
  filter_upwards [hQ, seq_ae hpos] with ω hω hp
  filter_upwards [hω.eventually (gt_mem_nhds hc), eventually_gt_atTop 1] with n h hn
  exact ⟨_, (hg n hn).2 _ fun i => hp i, (hg n hn).1 h⟩

theorem functional_consistent {T : Measure ℝ → ℝ}
    (hm : ∀ n, OutcomeMeas fun x : Fin n → ℝ => st.execute (List.ofFn x)) (hg : GrowsWith st T)
    (hQ0 : ∀ᵐ x ∂Q, 0 < x) (hP0 : ∀ᵐ x ∂P, 0 < x) (hQ : SettlesAt T Q) (hP : SettlesAt T P)
    (h : (st.alternative ≠ .left ∧ T P < T Q) ∨ (st.alternative ≠ .right ∧ T Q < T P)) : Consistent st Q P := by
  obtain ⟨g, hg⟩ := hg
  rcases h with ⟨ha, h⟩ | ⟨ha, h⟩ <;> obtain ⟨c, h1, h2⟩ := exists_between h
  · exact limit_consistent hm (t := fun n => g n c)
      (Or.inl ⟨ha, settles_above hg hQ0 hQ h2, settles_below hg hP0 hP h1⟩)
  · exact limit_consistent hm (t := fun n => g n c)
      (Or.inr ⟨ha, settles_below hg hQ0 hQ h1, settles_above hg hP0 hP h2⟩)

theorem functional_undetected {T : Measure ℝ → ℝ}
    (hm : ∀ n, OutcomeMeas fun x : Fin n → ℝ => st.execute (List.ofFn x)) (hg : GrowsWith st T)
    (hQ0 : ∀ᵐ x ∂Q, 0 < x) (hP0 : ∀ᵐ x ∂P, 0 < x) (hQ : SettlesAt T Q) (hP : SettlesAt T P)
    (h : (st.alternative = .left ∧ T P < T Q) ∨ (st.alternative = .right ∧ T Q < T P)) : Undetected st Q P := by
  obtain ⟨g, hg⟩ := hg
  rcases h with ⟨ha, h⟩ | ⟨ha, h⟩ <;> obtain ⟨c, h1, h2⟩ := exists_between h
  · exact limit_undetected hm (t := fun n => g n c)
      (Or.inl ⟨ha, settles_above hg hQ0 hQ h2, settles_below hg hP0 hP h1⟩)
  · exact limit_undetected hm (t := fun n => g n c)
      (Or.inr ⟨ha, settles_below hg hQ0 hQ h1, settles_above hg hP0 hP h2⟩)

end

/-! ### Values that settle after a transformation that depends on the sample size -/

/-- Along almost every sequence the values are, from some size on, increasing transformations (the same for all samples of
one size) of quantities that tend to `l`. -/
def ValueSettles (st : Statistic ℝ) (g : ℕ → ℝ → ℝ) (μ : Measure ℝ) (l : ℝ) : Prop :=
  ∀ᵐ ω ∂seqLaw μ, ∃ v : ℕ → ℝ, Tendsto v atTop (𝓝 l) ∧
    ∀ᶠ n in atTop, st.execute (List.ofFn (firsts n ω)) = .ok (g n (v n))

section
variable {st : Statistic ℝ} {Q P : Measure ℝ} [IsProbabilityMeasure Q] [IsProbabilityMeasure P] {g : ℕ → ℝ → ℝ} {a b : ℝ}

theorem ValueSettles.above (hg : ∀ᶠ n in atTop, StrictMono (g n)) (hQ : ValueSettles st g Q a) {c : ℝ} (hc : c < a) :
    ∀ᵐ ω ∂seqLaw Q, ∀ᶠ n in atTop, ∃ d, st.execute (List.ofFn (firsts n ω)) = .ok d ∧ g n c < d := by
  filter_upwards [hQ] with ω ⟨v, hv, he⟩
  filter_upwards [hg, he, hv.eventually (lt_mem_nhds hc)] with n h1 h2 h3
  exact ⟨_, h2, h1 h3⟩

theorem ValueSettles.below (hg : ∀ᶠ n in atTop, StrictMono (g n)) (hQ : ValueSettles st g Q a) {c : ℝ} (hc : a < c) :
    ∀ᵐ ω ∂seqLaw Q, ∀ᶠ n in atTop, ∃ d, st.execute (List.ofFn (firsts n ω)) = .ok d ∧ d < g n c := by
  filter_upwards [hQ] with ω ⟨v, hv, he⟩
  filter_upwards [hg, he, hv.eventually (gt_mem_nhds hc)] with n h1 h2 h3
  exact ⟨_, h2, h1 h3⟩

theorem value_consistent (hm : ∀ n, OutcomeMeas fun x : Fin n → ℝ => st.execute (List.ofFn x))
    (hg : ∀ᶠ n in atTop, StrictMono (g n)) (hQ : ValueSettles st g Q a) (hP : ValueSettles st g P b)
    (h : (st.alternative ≠ .left ∧ b < a) ∨ (st.alternative ≠ .right ∧ a < b)) : Consistent st Q P := by
  rcases h with ⟨ha, h⟩ | ⟨ha, h⟩ <;> obtain ⟨c, h1, h2⟩ := exists_between h
  · exact limit_consistent hm (t := fun n => g n c) (Or.inl ⟨ha, hQ.above hg h2, hP.below hg h1⟩)
  · exact limit_consistent hm (t := fun n => g n c) (Or.inr ⟨ha, hQ.below hg h1, hP.above hg h2⟩)

theorem value_undetected (hm : ∀ n, OutcomeMeas fun x : Fin n → ℝ => st.execute (List.ofFn x))
    (hg : ∀ᶠ n in atTop, StrictMono (g n)) (hQ : ValueSettles st g Q a) (hP : ValueSettles st g P b)
    (h : (st.alternative = .left ∧ b < a) ∨ (st.alternative = .right ∧ a < b)) : Undetected st Q P := by
  rcases h with ⟨ha, h⟩ | ⟨ha, h⟩ <;> obtain ⟨c, h1, h2⟩ := exists_between h
  · exact limit_undetected hm (t := fun n => g n c) (Or.inl ⟨ha, hQ.above hg h2, hP.below hg h1⟩)
  · exact limit_undetected hm (t := fun n => g n c) (Or.inr ⟨ha, hQ.below hg h1, hP.above hg h2⟩)

end

/-! ### Functionals that settle -/

section
variable {μ : Measure ℝ} [IsProbabilityMeasure μ]

theorem integral_firsts (f : ℝ → ℝ) (n : ℕ) (ω : ℕ → ℝ) :
    ∫ x, f x ∂empiricalLaw (List.ofFn (firsts n ω)) = (∑ i ∈ Finset.range n, f (ω i)) / n := by
  rw [integral_empirical, List.length_ofFn, List.map_ofFn, List.sum_ofFn, Finset.sum_range]
  rfl

theorem settles_integral {f : ℝ → ℝ} (hf : Measurable f) (hi : Integrable f μ) : SettlesAt (fun ν => ∫ x, f x ∂ν) μ := by
  filter_upwards [law_of_large_numbers hf hi] with ω h
  refine h.congr fun n => ?_
  rw [integral_firsts]

theorem settles_mean (hi : Integrable (fun x => x) μ) : SettlesAt lawMean μ := settles_integral measurable_id hi

theorem lawMean_pos (hi : Integrable (fun x => x) μ) (hpos : ∀ᵐ x ∂μ, 0 < x) : 0 < lawMean μ := by
  refine (integral_pos_iff_support_of_nonneg_ae (hpos.mono fun x hx => hx.le) hi).2 ?_
  rw [pos_iff_ne_zero]
  intro h0
  have : ∀ᵐ x ∂μ, x = 0 := by
    rw [ae_iff]
    exact h0
  obtain ⟨x, hx, hx'⟩ := (hpos.and this).exists
  exact hx.ne' hx'

theorem settles_laplace (hi : Integrable (fun x => x) μ) (hpos : ∀ᵐ x ∂μ, 0 < x) : SettlesAt laplaceRatio μ := by
  have hm := lawMean_pos hi hpos
  set m := lawMean μ with hmdef
  have hint : Integrable (fun x => Real.exp (-(x / m))) μ := by
    refine Integrable.of_bound (C := 1) (by fun_prop) ?_
    filter_upwards [hpos] with x hx
    rw [Real.norm_of_nonneg (Real.exp_pos _).le]
    exact Real.exp_le_one_iff.2 (neg_nonpos.2 (div_pos hx hm).le)
  filter_upwards [settles_mean hi, settles_integral (by fun_prop) hint, seq_ae hpos] with ω h1 h2 hp
  set M : ℕ → ℝ := fun n => lawMean (empiricalLaw (List.ofFn (firsts n ω))) with hM
  have hdiff : Tendsto (fun n => M n * |1 / M n - 1 / m|) atTop (𝓝 0) := by
    have : Tendsto (fun n => 1 / M n - 1 / m) atTop (𝓝 0) := by
      have h3 := (tendsto_const_nhds (x := (1 : ℝ))).div h1 hm.ne' |>.sub_const (1 / m)
      simpa [← hmdef] using h3
    have := h1.mul this.abs
    simpa using this
  have hclose : Tendsto (fun n => laplaceRatio (empiricalLaw (List.ofFn (firsts n ω))) -
      ∫ x, Real.exp (-(x / m)) ∂empiricalLaw (List.ofFn (firsts n ω))) atTop (𝓝 0) := by
    refine squeeze_zero_norm' ?_ hdiff
    filter_upwards [h1.eventually (lt_mem_nhds hm), eventually_gt_atTop 0] with n hn hn0
    have hn' : (0 : ℝ) < n := by exact_mod_cast hn0
    rw [laplaceRatio, integral_firsts, integral_firsts, ← sub_div, ← Finset.sum_sub_distrib, Real.norm_eq_abs, abs_div,
      abs_of_pos hn', div_le_iff₀ hn']
    have hsum : M n * n = ∑ i ∈ Finset.range n, ω i := by
      simp only [hM, lawMean, integral_firsts]
      field_simp
    change 0 < M n at hn
    calc |∑ i ∈ Finset.range n, (Real.exp (-(ω i / M n)) - Real.exp (-(ω i / m)))|
        ≤ ∑ i ∈ Finset.range n, |Real.exp (-(ω i / M n)) - Real.exp (-(ω i / m))| := Finset.abs_sum_le_sum_abs _ _
      _ ≤ ∑ i ∈ Finset.range n, ω i * |1 / M n - 1 / m| := by
          refine Finset.sum_le_sum fun i _ => ?_
          have lip : ∀ a b : ℝ, 0 ≤ a → a ≤ b → |Real.exp (-a) - Real.exp (-b)| ≤ |a - b| := by
            intro a b ha hab
            rw [abs_of_nonneg (sub_nonneg.2 (Real.exp_le_exp.2 (neg_le_neg hab))), abs_of_nonpos (sub_nonpos.2 hab)]
            have h3 : Real.exp (-b) = Real.exp (-a) * Real.exp (-(b - a)) := by rw [← Real.exp_add]; congr 1; ring
            have h4 := Real.add_one_le_exp (-(b - a))
            have h5 : Real.exp (-a) ≤ 1 := Real.exp_le_one_iff.2 (neg_nonpos.2 ha)
            have h6 := Real.exp_pos (-a)
            rw [h3]
            nlinarith
          have e : ω i * |1 / M n - 1 / m| = |ω i / M n - ω i / m| := by
            rw [← abs_of_pos (hp i), ← abs_mul, abs_of_pos (hp i)]
            congr 1
            ring
          rw [e]
          rcases le_total (ω i / M n) (ω i / m) with h | h
          · exact lip _ _ (div_pos (hp i) hn).le h
          · rw [abs_sub_comm, abs_sub_comm (ω i / M n)]
            exact lip _ _ (div_pos (hp i) hm).le h
      _ = M n * |1 / M n - 1 / m| * n := by rw [← Finset.sum_mul, ← hsum]; ring
  have := hclose.add h2
  simp only [sub_add_cancel, zero_add] at this
  exact this

theorem logRatio_of_pos {ν : Measure ℝ} [IsProbabilityMeasure ν] (hm : 0 < lawMean ν) (hpos : ∀ᵐ x ∂ν, 0 < x)
    (hl : Integrable Real.log ν) : logRatio ν = ∫ x, Real.log x ∂ν - Real.log (lawMean ν) := by
  unfold logRatio
  rw [integral_congr_ae (g := fun x => Real.log x - Real.log (lawMean ν))
    (hpos.mono fun x hx => Real.log_div hx.ne' hm.ne'), integral_sub hl (integrable_const _)]
  simp

theorem settles_log (hi : Integrable (fun x => x) μ) (hl : Integrable Real.log μ) (hpos : ∀ᵐ x ∂μ, 0 < x) :
    SettlesAt logRatio μ := by
  have hm := lawMean_pos hi hpos
  filter_upwards [settles_mean hi, settles_integral Real.measurable_log hl, seq_ae hpos] with ω h1 h2 hp
  rw [logRatio_of_pos hm hpos hl]
  refine (h2.sub (h1.log hm.ne')).congr' ?_
  filter_upwards [h1.eventually (lt_mem_nhds hm), eventually_gt_atTop 0] with n hn hn0
  have hn' : (n : ℝ) ≠ 0 := by exact_mod_cast hn0.ne'
  rw [logRatio, integral_firsts, integral_firsts, Finset.sum_congr rfl fun i _ => Real.log_div (hp i).ne' hn.ne',
    Finset.sum_sub_distrib, Finset.sum_const, Finset.card_range, nsmul_eq_mul, sub_div, mul_div_cancel_left₀ _ hn']

theorem logTilt_of_pos (hi : Integrable (fun x => x) μ) (hpos : ∀ᵐ x ∂μ, 0 < x) (hl : Integrable Real.log μ)
    (hxl : Integrable (fun x => x * Real.log x) μ) :
    logTilt μ = ∫ x, Real.log x ∂μ - (∫ x, x * Real.log x ∂μ) / lawMean μ := by
  have hm := lawMean_pos hi hpos
  unfold logTilt
  have e : ∀ᵐ x ∂μ, Real.log (x / lawMean μ) * (1 - x / lawMean μ) =
      Real.log x - (lawMean μ)⁻¹ * (x * Real.log x) - (Real.log (lawMean μ) -
        Real.log (lawMean μ) * (lawMean μ)⁻¹ * x) := hpos.mono fun x hx => by
    rw [Real.log_div hx.ne' hm.ne']
    field_simp
  rw [integral_congr_ae e, integral_sub (by exact hl.sub (hxl.const_mul _))
      (by exact (integrable_const _).sub (hi.const_mul _)),
    integral_sub hl (hxl.const_mul _), integral_sub (integrable_const _) (hi.const_mul _), integral_const_mul,
    integral_const_mul]
  simp only [integral_const, probReal_univ, one_smul]
  rw [show ∫ x, x ∂μ = lawMean μ from rfl]
  field_simp
  ring

theorem settles_tilt (hi : Integrable (fun x => x) μ) (hl : Integrable Real.log μ)
    (hxl : Integrable (fun x => x * Real.log x) μ) (hpos : ∀ᵐ x ∂μ, 0 < x) : SettlesAt logTilt μ := by
  have hm := lawMean_pos hi hpos
  filter_upwards [settles_mean hi, settles_integral Real.measurable_log hl,
    settles_integral (f := fun x => x * Real.log x) (measurable_id.mul Real.measurable_log) hxl, seq_ae hpos] with ω h1 h2 h3 hp
  rw [logTilt_of_pos hi hpos hl hxl]
  refine (h2.sub (h3.div h1 hm.ne')).congr' ?_
  filter_upwards [h1.eventually (lt_mem_nhds hm), eventually_gt_atTop 0] with n hn hn0
  have hn' : (n : ℝ) ≠ 0 := by exact_mod_cast hn0.ne'
  simp only [Pi.div_apply]
  rw [logTilt, integral_firsts, integral_firsts, integral_firsts]
  set M := lawMean (empiricalLaw (List.ofFn (firsts n ω))) with hM
  have hsum : ∑ i ∈ Finset.range n, ω i = M * n := by
    simp only [hM, lawMean, integral_firsts]
    field_simp
  have e : ∀ i ∈ Finset.range n, Real.log (ω i / M) * (1 - ω i / M) =
      Real.log (ω i) - M⁻¹ * (ω i * Real.log (ω i)) - (Real.log M - Real.log M * M⁻¹ * ω i) := fun i _ => by
    rw [Real.log_div (hp i).ne' hn.ne']
    field_simp
  rw [Finset.sum_congr rfl e, Finset.sum_sub_distrib, Finset.sum_sub_distrib, Finset.sum_sub_distrib, ← Finset.mul_sum,
    ← Finset.mul_sum, hsum, Finset.sum_const, Finset.card_range, nsmul_eq_mul]
  field_simp
  ring

theorem settles_power {p : ℝ} (hi : Integrable (fun x => x) μ) (hip : Integrable (fun x => x ^ p) μ)
    (hpos : ∀ᵐ x ∂μ, 0 < x) : SettlesAt (powerMeanRatio p) μ := by
  have hm := lawMean_pos hi hpos
  have hmp : 0 < ∫ x, x ^ p ∂μ := by
    refine (integral_pos_iff_support_of_nonneg_ae (hpos.mono fun x hx => (Real.rpow_pos_of_pos hx p).le) hip).2 ?_
    rw [pos_iff_ne_zero]
    intro h0
    have : ∀ᵐ x ∂μ, x ^ p = 0 := by
      rw [ae_iff]
      exact h0
    obtain ⟨x, hx, hx'⟩ := (hpos.and this).exists
    exact (Real.rpow_pos_of_pos hx p).ne' hx'
  filter_upwards [settles_mean hi, settles_integral (measurable_id.pow_const p) hip] with ω h1 h2
  exact (h2.rpow_const (Or.inl hmp.ne')).div h1 hm.ne'

theorem settles_pietra (hi : Integrable (fun x => x) μ) (hpos : ∀ᵐ x ∂μ, 0 < x) : SettlesAt pietraIndex μ := by
  have hm := lawMean_pos hi hpos
  have hia : Integrable (fun x => |x - lawMean μ|) μ := (hi.sub (integrable_const _)).abs
  filter_upwards [settles_mean hi, settles_integral (by fun_prop) hia] with ω h1 h2
  have hclose : Tendsto (fun n => (∫ x, |x - lawMean (empiricalLaw (List.ofFn (firsts n ω)))| ∂empiricalLaw
      (List.ofFn (firsts n ω))) - ∫ x, |x - lawMean μ| ∂empiricalLaw (List.ofFn (firsts n ω))) atTop (𝓝 0) := by
    have h3 : Tendsto (fun n => |lawMean μ - lawMean (empiricalLaw (List.ofFn (firsts n ω)))|) atTop (𝓝 0) := by
      have := (h1.const_sub (lawMean μ)).abs
      simpa using this
    refine squeeze_zero_norm' ?_ h3
    filter_upwards [eventually_gt_atTop 0] with n hn0
    have hn' : (0 : ℝ) < n := by exact_mod_cast hn0
    rw [integral_firsts, integral_firsts, ← sub_div, ← Finset.sum_sub_distrib, Real.norm_eq_abs, abs_div,
      abs_of_pos hn', div_le_iff₀ hn']
    refine (Finset.abs_sum_le_sum_abs _ _).trans ((Finset.sum_le_card_nsmul _ _
      |lawMean μ - lawMean (empiricalLaw (List.ofFn (firsts n ω)))| fun i _ => ?_).trans ?_)
    · refine (abs_abs_sub_abs_le_abs_sub _ _).trans (le_of_eq ?_)
      congr 1
      ring
    · rw [Finset.card_range, nsmul_eq_mul, mul_comm]
  have h4 := hclose.add h2
  simp only [sub_add_cancel, zero_add] at h4
  exact h4.div (h1.const_mul 2) (by positivity)

theorem cvSquared_of_moments (hi : Integrable (fun x => x) μ) (h2 : Integrable (fun x => x ^ 2) μ) :
    cvSquared μ = (∫ x, x ^ 2 ∂μ - lawMean μ ^ 2) / lawMean μ ^ 2 := by
  unfold cvSquared
  congr 1
  have e : ∀ x : ℝ, (x - lawMean μ) ^ 2 = x ^ 2 - 2 * lawMean μ * x + lawMean μ ^ 2 := fun x => by ring
  simp only [e]
  rw [integral_add (by exact h2.sub (hi.const_mul _)) (integrable_const _), integral_sub h2 (hi.const_mul _),
    integral_const_mul, integral_const, probReal_univ, one_smul, show ∫ x, x ∂μ = lawMean μ from rfl]
  ring

theorem settles_cv (hi : Integrable (fun x => x) μ) (hi2 : Integrable (fun x => x ^ 2) μ) (hpos : ∀ᵐ x ∂μ, 0 < x) :
    SettlesAt cvSquared μ := by
  have hm := lawMean_pos hi hpos
  filter_upwards [settles_mean hi, settles_integral (by fun_prop) hi2] with ω h1 h2
  rw [cvSquared_of_moments hi hi2]
  refine ((h2.sub (h1.pow 2)).div (h1.pow 2) (by positivity)).congr' ?_
  filter_upwards [eventually_gt_atTop 0] with n hn0
  have hn' : (n : ℝ) ≠ 0 := by exact_mod_cast hn0.ne'
  simp only [Pi.div_apply]
  rw [cvSquared, integral_firsts, integral_firsts]
  congr 1
  set M := lawMean (empiricalLaw (List.ofFn (firsts n ω))) with hM
  have hsum : ∑ i ∈ Finset.range n, ω i = M * n := by
    simp only [hM, lawMean, integral_firsts]
    field_simp
  have e : ∀ i ∈ Finset.range n, (ω i - M) ^ 2 = ω i ^ 2 - 2 * M * ω i + M ^ 2 := fun i _ => by ring
  rw [Finset.sum_congr rfl e, Finset.sum_add_distrib, Finset.sum_sub_distrib, ← Finset.mul_sum, hsum, Finset.sum_const,
    Finset.card_range, nsmul_eq_mul]
  field_simp
  ring

end

end Pysatl.Props
