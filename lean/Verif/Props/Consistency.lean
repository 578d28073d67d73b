import Verif.Lemmas.Sequences
import Verif.Props.CalibrationSimple

/-! # C135: the power of a test tends to one -/

namespace Pysatl.Props

open Pysatl.Decision Pysatl.Resolver Pysatl.Spec Pysatl.Edf Pysatl.Graph Pysatl.Gen
open MeasureTheory ProbabilityTheory Filter Topology

/-- The data are independent observations of the law `Q`, the reference values are computed from independent samples of
the law `P` of the same size.  Whatever the number of simulations and the level, the probability that the test rejects
tends to one as the sample grows, by p-values and by critical values. -/
def Consistent (st : Statistic ℝ) (Q P : Measure ℝ) : Prop :=
  ∀ B : ℕ, 0 < B → ∀ α : ℝ, 0 ≤ α → α ≤ 1 →
    Tendsto (fun n => ((iid n Q).prod (Measure.pi fun _ : Fin B => iid n P)) {ω | TestRejects st α ω.1 ω.2})
      atTop (𝓝 1) ∧
    Tendsto (fun n => ((iid n Q).prod (Measure.pi fun _ : Fin B => iid n P)) {ω | CvRejects st α ω.1 ω.2})
      atTop (𝓝 1)

/-- An observed value beyond all simulated values, on a side on which the test looks, is rejected. -/
theorem rejects_beyond {n B : ℕ} (hn : 0 < n) (hB : 0 < B) {st : Statistic ℝ} {α : ℝ} (h0 : 0 ≤ α) (h1 : α ≤ 1)
    {x : Fin n → ℝ} {y : Fin B → Fin n → ℝ} {d : ℝ} (hd : st.execute (List.ofFn x) = .ok d)
    (hy : ∀ j, ∃ e, st.execute (List.ofFn (y j)) = .ok e)
    (h : (st.alternative ≠ .left ∧ ∀ j e, st.execute (List.ofFn (y j)) = .ok e → e < d) ∨
      (st.alternative ≠ .right ∧ ∀ j e, st.execute (List.ofFn (y j)) = .ok e → d < e)) :
    TestRejects st α x y ∧ CvRejects st α x y := by
  rw [testRejects_iff hn, cvRejects_iff hn, hd]
  set L := List.ofFn fun j => outcomeVal (st.execute (List.ofFn (y j))) with hL
  have hne : L ≠ [] := by
    rw [hL, Ne, List.ofFn_eq_nil_iff]; omega
  have hlen : (0 : ℝ) < L.length := by exact_mod_cast List.length_pos_iff.2 hne
  obtain ⟨cv, hcv, hin⟩ := C21_critical_value_in_range st.alternative L hne α h0 h1
  have hmem : ∀ z ∈ L, ∃ j, st.execute (List.ofFn (y j)) = .ok z := by
    intro z hz
    rw [hL, List.mem_ofFn] at hz
    obtain ⟨j, rfl⟩ := hz
    obtain ⟨e, he⟩ := hy j
    exact ⟨j, by rw [he]; rfl⟩
  rcases h with ⟨ha, h⟩ | ⟨ha, h⟩
  · have hb : ∀ z ∈ L, z < d := fun z hz => by
      obtain ⟨j, hj⟩ := hmem z hz
      exact h j z hj
    have hle : fracLe L d = 1 := by
      rw [fracLe, List.filter_eq_self.2 fun z hz => by simpa using (hb z hz).le, div_self hlen.ne']
    have hgt : fracGt L d = 0 := by rw [fracGt_eq hne, hle, sub_self]
    have hc : ∀ c ∈ CriticalValue.values cv, c < d := fun c hc => by
      obtain ⟨z, hz, hcz⟩ := (hin c hc).2
      exact hcz.trans_lt (hb z hz)
    refine ⟨⟨⟨d, rfl⟩, hy, ?_⟩, ⟨d, rfl⟩, hy, ?_⟩
    · rcases hal : st.alternative with _ | _ | _
      · exact ⟨0, by simp only [getConcreteFactory, reduceCtorEq, if_false, if_true, Factory.pValue, outcomeVal,
          rightPValue_eq hne, hgt], h0⟩
      · exact absurd hal ha
      · exact ⟨0, by simp only [getConcreteFactory, reduceCtorEq, if_false, Factory.pValue, outcomeVal,
          twoSidedPValue_eq hne, hgt, hle]; norm_num, h0⟩
    · rcases hal : st.alternative with _ | _ | _ <;> rw [hal] at hcv
      · rcases cv with c | ⟨l, r⟩
        · refine ⟨_, .right c, hcv, rfl, ?_⟩
          have := hc c (by simp [CriticalValue.values])
          exact decide_eq_false (not_le.2 this)
        · simp only [getConcreteFactory, Factory.criticalValue, reduceCtorEq, if_false, if_true, Bind.bind, Except.bind] at hcv
          split at hcv <;> cases hcv
      · exact absurd hal ha
      · rcases cv with c | ⟨l, r⟩
        · simp only [getConcreteFactory, Factory.criticalValue, reduceCtorEq, if_false, Bind.bind, Except.bind] at hcv
          split at hcv <;> cases hcv
        · refine ⟨_, .twoSided l r, hcv, rfl, ?_⟩
          have := hc r (by simp [CriticalValue.values])
          exact Bool.and_eq_false_iff.2 (Or.inr (decide_eq_false (not_le.2 this)))
  · have hb : ∀ z ∈ L, d < z := fun z hz => by
      obtain ⟨j, hj⟩ := hmem z hz
      exact h j z hj
    have hle : fracLe L d = 0 := by
      rw [fracLe, List.filter_eq_nil_iff.2 fun z hz => by simpa using hb z hz]
      simp
    have hc : ∀ c ∈ CriticalValue.values cv, d < c := fun c hc => by
      obtain ⟨z, hz, hcz⟩ := (hin c hc).1
      exact (hb z hz).trans_le hcz
    refine ⟨⟨⟨d, rfl⟩, hy, ?_⟩, ⟨d, rfl⟩, hy, ?_⟩
    · rcases hal : st.alternative with _ | _ | _
      · exact absurd hal ha
      · exact ⟨0, by simp only [getConcreteFactory, reduceCtorEq, if_false, if_true, Factory.pValue, outcomeVal,
          leftPValue_eq hne, hle], h0⟩
      · exact ⟨0, by simp only [getConcreteFactory, reduceCtorEq, if_false, Factory.pValue, outcomeVal,
          twoSidedPValue_eq hne, hle, fracGt_eq hne]; norm_num, h0⟩
    · rcases hal : st.alternative with _ | _ | _ <;> rw [hal] at hcv
      · exact absurd hal ha
      · rcases cv with c | ⟨l, r⟩
        · refine ⟨_, .left c, hcv, rfl, ?_⟩
          have := hc c (by simp [CriticalValue.values])
          exact decide_eq_false (not_le.2 this)
        · simp only [getConcreteFactory, Factory.criticalValue, reduceCtorEq, if_false, if_true, Bind.bind, Except.bind] at hcv
          split at hcv <;> cases hcv
      · rcases cv with c | ⟨l, r⟩
        · simp only [getConcreteFactory, Factory.criticalValue, reduceCtorEq, if_false, Bind.bind, Except.bind] at hcv
          split at hcv <;> cases hcv
        · refine ⟨_, .twoSided l r, hcv, rfl, ?_⟩
          have := hc l (by simp [CriticalValue.values])
          exact Bool.and_eq_false_iff.2 (Or.inl (decide_eq_false (not_le.2 this)))

/-- Events whose complements become improbable, on which the test rejects. -/
theorem power_to_one {Q P : Measure ℝ} [IsProbabilityMeasure Q] [IsProbabilityMeasure P] {B : ℕ}
    {A E : ∀ n, Set (Fin n → ℝ)} (hA : Tendsto (fun n => iid n Q (A n)ᶜ) atTop (𝓝 0))
    (hE : Tendsto (fun n => iid n P (E n)ᶜ) atTop (𝓝 0)) {S : ∀ n, Set ((Fin n → ℝ) × (Fin B → Fin n → ℝ))}
    (hS : ∀ᶠ n in atTop, ∀ x ∈ A n, ∀ y : Fin B → Fin n → ℝ, (∀ j, y j ∈ E n) → (x, y) ∈ S n) :
    Tendsto (fun n => ((iid n Q).prod (Measure.pi fun _ : Fin B => iid n P)) (S n)) atTop (𝓝 1) := by
  have hQ : ∀ n, IsProbabilityMeasure (iid n Q) := fun n => by unfold iid; infer_instance
  have hP : ∀ n, IsProbabilityMeasure (iid n P) := fun n => by unfold iid; infer_instance
  have hbad : Tendsto (fun n => iid n Q (A n)ᶜ + B * iid n P (E n)ᶜ) atTop (𝓝 0) := by
    have := hA.add (ENNReal.Tendsto.const_mul hE (Or.inr (ENNReal.natCast_ne_top B)))
    simpa using this
  have hlow : Tendsto (fun n => 1 - (iid n Q (A n)ᶜ + B * iid n P (E n)ᶜ)) atTop (𝓝 1) := by
    have := ENNReal.Tendsto.sub (tendsto_const_nhds (x := (1 : ENNReal))) hbad (Or.inl ENNReal.one_ne_top)
    simpa using this
  refine tendsto_of_tendsto_of_tendsto_of_le_of_le' hlow tendsto_const_nhds ?_ (.of_forall fun n => prob_le_one)
  filter_upwards [hS] with n hS
  set M := (iid n Q).prod (Measure.pi fun _ : Fin B => iid n P) with hM
  rw [tsub_le_iff_right]
  have h1 : M (Prod.fst ⁻¹' (A n)ᶜ) ≤ iid n Q (A n)ᶜ := by
    have hmp := measurePreserving_fst (μ := iid n Q) (ν := Measure.pi fun _ : Fin B => iid n P)
    calc M (Prod.fst ⁻¹' (A n)ᶜ) ≤ M.map Prod.fst (A n)ᶜ := Measure.le_map_apply hmp.measurable.aemeasurable _
      _ = iid n Q (A n)ᶜ := by rw [hmp.map_eq]
  have h2 : ∀ j : Fin B, M ((fun ω => ω.2 j) ⁻¹' (E n)ᶜ) ≤ iid n P (E n)ᶜ := fun j => by
    have hmp := (measurePreserving_eval (fun _ : Fin B => iid n P) j).comp
      (measurePreserving_snd (μ := iid n Q) (ν := Measure.pi fun _ : Fin B => iid n P))
    calc M ((fun ω => ω.2 j) ⁻¹' (E n)ᶜ) ≤ M.map (fun ω => ω.2 j) (E n)ᶜ :=
          Measure.le_map_apply hmp.measurable.aemeasurable _
      _ = iid n P (E n)ᶜ := congrArg (fun m : Measure (Fin n → ℝ) => m (E n)ᶜ) hmp.map_eq
  have hcover : (Set.univ : Set ((Fin n → ℝ) × (Fin B → Fin n → ℝ))) ⊆
      S n ∪ (Prod.fst ⁻¹' (A n)ᶜ ∪ ⋃ j, (fun ω => ω.2 j) ⁻¹' (E n)ᶜ) := by
    rintro ⟨x, y⟩ -
    by_cases hx : x ∈ A n
    · by_cases hy : ∀ j, y j ∈ E n
      · exact Or.inl (hS x hx y hy)
      · obtain ⟨j, hj⟩ := not_forall.1 hy
        exact Or.inr (Or.inr (Set.mem_iUnion.2 ⟨j, hj⟩))
    · exact Or.inr (Or.inl hx)
  calc (1 : ENNReal) = M Set.univ := by rw [measure_univ]
    _ ≤ M (S n ∪ (Prod.fst ⁻¹' (A n)ᶜ ∪ ⋃ j, (fun ω => ω.2 j) ⁻¹' (E n)ᶜ)) := measure_mono hcover
    _ ≤ M (S n) + (M (Prod.fst ⁻¹' (A n)ᶜ) + M (⋃ j, (fun ω => ω.2 j) ⁻¹' (E n)ᶜ)) :=
        (measure_union_le _ _).trans (add_le_add le_rfl (measure_union_le _ _))
    _ ≤ M (S n) + (iid n Q (A n)ᶜ + B * iid n P (E n)ᶜ) := by
        refine add_le_add le_rfl (add_le_add h1 ?_)
        refine (measure_iUnion_le _).trans ?_
        rw [tsum_fintype]
        refine (Finset.sum_le_sum fun j _ => h2 j).trans ?_
        simp

/-- The values on the data and the simulated values are separated with probability tending to one, on a side on which the
test looks. -/
theorem consistent_of_separated {st : Statistic ℝ} {Q P : Measure ℝ} [IsProbabilityMeasure Q] [IsProbabilityMeasure P]
    {A E : ∀ n, Set (Fin n → ℝ)} (hA : Tendsto (fun n => iid n Q (A n)ᶜ) atTop (𝓝 0))
    (hE : Tendsto (fun n => iid n P (E n)ᶜ) atTop (𝓝 0))
    (h : (st.alternative ≠ .left ∧ ∀ᶠ n in atTop, ∀ x ∈ A n, ∀ y ∈ E n, ∃ d e, st.execute (List.ofFn x) = .ok d ∧
        st.execute (List.ofFn y) = .ok e ∧ e < d) ∨
      (st.alternative ≠ .right ∧ ∀ᶠ n in atTop, ∀ x ∈ A n, ∀ y ∈ E n, ∃ d e, st.execute (List.ofFn x) = .ok d ∧
        st.execute (List.ofFn y) = .ok e ∧ d < e)) :
    Consistent st Q P := by
  intro B hB α h0 h1
  have key : ∀ᶠ n in atTop, ∀ x ∈ A n, ∀ y : Fin B → Fin n → ℝ, (∀ j, y j ∈ E n) →
      TestRejects st α x y ∧ CvRejects st α x y := by
    rcases h with ⟨ha, h⟩ | ⟨ha, h⟩
    · filter_upwards [h, eventually_gt_atTop 0] with n h hn x hx y hy
      obtain ⟨d, _, hd, _⟩ := h x hx (y ⟨0, hB⟩) (hy _)
      refine rejects_beyond hn hB h0 h1 hd (fun j => ?_) (Or.inl ⟨ha, fun j e he => ?_⟩)
      · obtain ⟨_, e, _, he, _⟩ := h x hx (y j) (hy j)
        exact ⟨e, he⟩
      · obtain ⟨d', e', hd', he', hlt⟩ := h x hx (y j) (hy j)
        rw [hd] at hd'; rw [he] at he'
        cases hd'; cases he'
        exact hlt
    · filter_upwards [h, eventually_gt_atTop 0] with n h hn x hx y hy
      obtain ⟨d, _, hd, _⟩ := h x hx (y ⟨0, hB⟩) (hy _)
      refine rejects_beyond hn hB h0 h1 hd (fun j => ?_) (Or.inr ⟨ha, fun j e he => ?_⟩)
      · obtain ⟨_, e, _, he, _⟩ := h x hx (y j) (hy j)
        exact ⟨e, he⟩
      · obtain ⟨d', e', hd', he', hlt⟩ := h x hx (y j) (hy j)
        rw [hd] at hd'; rw [he] at he'
        cases hd'; cases he'
        exact hlt
  exact ⟨power_to_one hA hE (key.mono fun n h x hx y hy => (h x hx y hy).1),
    power_to_one hA hE (key.mono fun n h x hx y hy => (h x hx y hy).2)⟩

end Pysatl.Props
