import Verif.Props.ConsistencyRefuted
import Verif.Props.ConsistencyFitted

/-! # C135: exponential hypotheses with a rate other than one, Kolmogorov-Smirnov -/

namespace Pysatl.Props

open Pysatl.Decision Pysatl.Resolver Pysatl.Spec Pysatl.Edf Pysatl.Graph Pysatl.Gen
open Pysatl.Uniform Pysatl.Weibull Pysatl.Normal Pysatl.Exponent
open MeasureTheory ProbabilityTheory Filter Topology

/-- The map that exchanges the two tails of the exponential law of rate one: `exp(-x)` becomes `1 - exp(-x)`. -/
noncomputable def tailSwap (x : ℝ) : ℝ := if 0 < x then -Real.log (1 - Real.exp (-x)) else x

theorem exp_neg_mem {x : ℝ} (hx : 0 < x) : 0 < 1 - Real.exp (-x) ∧ 1 - Real.exp (-x) < 1 :=
  ⟨by have : Real.exp (-x) < 1 := by rw [← Real.exp_zero]; exact Real.exp_lt_exp.2 (by linarith)
      linarith, by have := Real.exp_pos (-x); linarith⟩

theorem tailSwap_pos {x : ℝ} (hx : 0 < x) : 0 < tailSwap x := by
  obtain ⟨h0, h1⟩ := exp_neg_mem hx
  rw [tailSwap, if_pos hx]
  have := Real.log_neg h0 h1
  linarith

theorem exp_neg_tailSwap {x : ℝ} (hx : 0 < x) : Real.exp (-tailSwap x) = 1 - Real.exp (-x) := by
  rw [tailSwap, if_pos hx, neg_neg, Real.exp_log (exp_neg_mem hx).1]

theorem tailSwap_tailSwap (x : ℝ) : tailSwap (tailSwap x) = x := by
  by_cases hx : 0 < x
  · have h := tailSwap_pos hx
    have e := exp_neg_tailSwap h
    rw [exp_neg_tailSwap hx, sub_sub_cancel] at e
    have := Real.exp_injective e
    linarith
  · simp [tailSwap, hx]

theorem measurable_tailSwap : Measurable tailSwap := by
  unfold tailSwap
  refine Measurable.ite measurableSet_Ioi ?_ measurable_id
  fun_prop

/-- `tailSwap` on all observations of a sample. -/
noncomputable def sampleSwap (n : ℕ) : (Fin n → ℝ) ≃ᵐ (Fin n → ℝ) where
  toFun x i := tailSwap (x i)
  invFun x i := tailSwap (x i)
  left_inv _ := funext fun _ => tailSwap_tailSwap _
  right_inv _ := funext fun _ => tailSwap_tailSwap _
  measurable_toFun := measurable_pi_lambda _ fun i => measurable_tailSwap.comp (measurable_pi_apply i)
  measurable_invFun := measurable_pi_lambda _ fun i => measurable_tailSwap.comp (measurable_pi_apply i)

theorem exponCdf_tailSwap {x : ℝ} (hx : 0 < x) : exponCdf 1 (tailSwap x) = 1 - exponCdf 1 x := by
  rw [exponCdf, exponCdf, if_neg (not_le.2 (tailSwap_pos hx)), if_neg (not_le.2 hx), one_mul, one_mul, exp_neg_tailSwap hx]

theorem ks_tailSwap {xs : List ℝ} (hx : ∀ x ∈ xs, 0 < x) :
    ksOf .twoTailed (exponCdf 1) (xs.map tailSwap) = ksOf .twoTailed (exponCdf 1) xs := by
  have hmono : Monotone (exponCdf 1) := by
    have : (cdf (expMeasure 1) : ℝ → ℝ) = exponCdf 1 := funext (cdf_exp one_pos)
    rw [← this]
    exact (cdf (expMeasure 1)).mono
  have e : (sort (xs.map tailSwap)).map (exponCdf 1) = comirror ((sort xs).map (exponCdf 1)) := by
    rw [← sort_monotone hmono, ← sort_monotone hmono, comirror,
      ← sort_antitone (f := fun v => 1 - v) (fun x y h => by linarith), List.map_map, List.map_map]
    congr 1
    exact List.map_congr_left fun x h => exponCdf_tailSwap (hx x h)
  unfold ksOf
  rw [e, ks_comirror]
  rfl

theorem tailSwap_law {r : ℝ} (hr : 0 < r) (hr1 : r ≠ 1) : (expMeasure r).map tailSwap ≠ expMeasure r := by
  intro h
  have hpr : IsProbabilityMeasure (expMeasure r) := isProbabilityMeasure_expMeasure hr
  have hl : (0 : ℝ) < Real.log 2 := Real.log_pos (by norm_num)
  have hfix : ∀ x, 0 < x → (Real.log 2 < tailSwap x ↔ x < Real.log 2) := by
    intro x hx
    rw [← neg_lt_neg_iff, ← Real.exp_lt_exp, exp_neg_tailSwap hx, Real.exp_neg (Real.log 2), Real.exp_log (by norm_num)]
    rw [← neg_lt_neg_iff (a := Real.log 2), ← Real.exp_lt_exp (x := -Real.log 2), Real.exp_neg (Real.log 2),
      Real.exp_log (by norm_num)]
    constructor <;> intro _ <;> linarith
  have e1 : expMeasure r (Set.Ioi (Real.log 2)) = expMeasure r (Set.Iio (Real.log 2)) := by
    conv_lhs => rw [← h]
    rw [Measure.map_apply measurable_tailSwap measurableSet_Ioi]
    refine measure_congr ?_
    filter_upwards [exp_pos hr] with x hx
    exact propext (hfix x hx)
  have hna : expMeasure r {Real.log 2} = 0 := withDensity_absolutelyContinuous _ _ (measure_singleton _)
  have e2 : expMeasure r (Set.Iio (Real.log 2)) = expMeasure r (Set.Iic (Real.log 2)) := by
    refine le_antisymm (measure_mono Set.Iio_subset_Iic_self) ?_
    rw [← Set.Iio_union_right]
    refine (measure_union_le _ _).trans ?_
    rw [hna, add_zero]
  have e3 : (expMeasure r).real (Set.Ioi (Real.log 2)) = (expMeasure r).real (Set.Iic (Real.log 2)) := by
    rw [Measure.real, Measure.real, e1, e2]
  rw [← Set.compl_Iic, probReal_compl_eq_one_sub measurableSet_Iic, ← cdf_eq_real, cdf_exp hr, exponCdf,
    if_neg (not_le.2 hl)] at e3
  have e4 : Real.exp (-(r * Real.log 2)) = Real.exp (-Real.log 2) := by
    rw [Real.exp_neg (Real.log 2), Real.exp_log (by norm_num)]
    linarith
  have e5 := Real.exp_injective e4
  exact hr1 (mul_right_cancel₀ hl.ne' (by linarith))

/-- **C135, refuted for exponential hypotheses with a rate other than one**: Kolmogorov-Smirnov compares the sample with the
exponential law of rate one whatever the hypothesis.  For every rate `r ≠ 1` there is a law, other than the exponential law of
rate `r`, that is not detected: however large the sample, the test rejects it no more often than its level allows. -/
theorem C135_refuted_exponential {r : ℝ} (hr : 0 < r) (hr1 : r ≠ 1) (code : String)
    (params : Option (List (String × ℝ))) (classes : List GeneratorClass) (hp : classes.Perm generatorClasses) :
    ∃ G Q, (Gen.Family.exponential r).simulator classes = .ok G ∧
      (∀ n, G.generate n = .ok (iid n (expMeasure r))) ∧
      IsProbabilityMeasure Q ∧ (∀ᵐ x ∂Q, 0 < x) ∧ Q ≠ expMeasure r ∧
      (∀ n, 0 < n → ∀ B, 0 < B → ∀ α,
        ((iid n Q).prod (Measure.pi fun _ : Fin B => iid n (expMeasure r)))
          {ω | TestRejects ((ExpStat.ks .twoTailed).statistic code params) α ω.1 ω.2} ≤
          (rankBound (ExpStat.ks .twoTailed).alternative α B : ENNReal) / (B + 1 : ℕ)) ∧
      ¬ Consistent ((ExpStat.ks .twoTailed).statistic code params) Q (expMeasure r) := by
  have hpr : IsProbabilityMeasure (expMeasure r) := isProbabilityMeasure_expMeasure hr
  have hprQ : IsProbabilityMeasure ((expMeasure r).map tailSwap) :=
    Measure.isProbabilityMeasure_map measurable_tailSwap.aemeasurable
  obtain ⟨G, hG, hgen⟩ := simulates_all (f := .exponential r) fun n => C111_exponential classes hp r hr n
  have key : ∀ n, 0 < n → ∀ B, 0 < B → ∀ α,
        ((iid n ((expMeasure r).map tailSwap)).prod (Measure.pi fun _ : Fin B => iid n (expMeasure r)))
          {ω | TestRejects ((ExpStat.ks .twoTailed).statistic code params) α ω.1 ω.2} ≤
          (rankBound (ExpStat.ks .twoTailed).alternative α B : ENNReal) / (B + 1 : ℕ) := by
    intro n hn B hB α
    obtain ⟨G', M, hG', hM, h⟩ := C125_level_exponential hr (s := .ks .twoTailed) (.inl ⟨_, rfl⟩) code params classes hp hn hB α
    rw [hG] at hG'
    cases hG'
    rw [hgen] at hM
    cases hM
    refine le_trans (le_of_eq ?_) h
    have hme : MeasurableEmbedding (sampleSwap n) := (sampleSwap n).measurableEmbedding
    have e2 : (iid n ((expMeasure r).map tailSwap)).prod (Measure.pi fun _ : Fin B => iid n (expMeasure r)) =
        ((iid n (expMeasure r)).prod (Measure.pi fun _ : Fin B => iid n (expMeasure r))).map
          (Prod.map (sampleSwap n) id) := by
      rw [← Measure.map_prod_map _ _ hme.measurable measurable_id, Measure.map_id, ← iid_map _ measurable_tailSwap]
      rfl
    rw [e2, (hme.prodMap MeasurableEmbedding.id).map_apply]
    refine measure_congr ?_
    have hpos : ∀ᵐ ω ∂((iid n (expMeasure r)).prod (Measure.pi fun _ : Fin B => iid n (expMeasure r))), ∀ i, 0 < ω.1 i :=
      Measure.quasiMeasurePreserving_fst.ae (iid_ae (exp_pos hr))
    filter_upwards [hpos] with ω hω
    refine propext ?_
    show TestRejects _ α (fun i => tailSwap (ω.1 i)) ω.2 ↔ TestRejects _ α ω.1 ω.2
    have hval : ((ExpStat.ks .twoTailed).statistic code params).execute (List.ofFn fun i => tailSwap (ω.1 i)) =
        ((ExpStat.ks .twoTailed).statistic code params).execute (List.ofFn ω.1) := by
      have := ks_tailSwap (xs := List.ofFn ω.1) (by
        intro x hx
        obtain ⟨i, rfl⟩ := (List.mem_ofFn' _ _).1 hx
        exact hω i)
      rw [List.map_ofFn] at this
      exact this
    rw [testRejects_iff hn, testRejects_iff hn, hval]
  refine ⟨G, _, hG, hgen, hprQ, ?_, tailSwap_law hr hr1, key,
    not_consistent (m := 1) fun n hn => key n hn 99 (by norm_num) _⟩
  rw [ae_map_iff measurable_tailSwap.aemeasurable measurableSet_Ioi]
  filter_upwards [exp_pos hr] with x hx using tailSwap_pos hx

example : ∃ G Q, (Gen.Family.exponential 2).simulator generatorClasses = .ok G ∧ Q ≠ expMeasure 2 ∧
    ¬ Consistent ((ExpStat.ks .twoTailed).statistic "KS" none) Q (expMeasure 2) := by
  obtain ⟨G, Q, h1, _, _, _, h2, _, h3⟩ := C135_refuted_exponential (r := 2) (by norm_num) (by norm_num) "KS" none
    generatorClasses (List.Perm.refl _)
  exact ⟨G, Q, h1, h2, h3⟩

end Pysatl.Props
