import Verif.Props.ConsistencyCounts

/-! # C136: Rossberg -/

namespace Pysatl.Props

open Pysatl.Decision Pysatl.Resolver Pysatl.Spec Pysatl.Edf Pysatl.Graph Pysatl.Gen Pysatl.Exponent
open MeasureTheory ProbabilityTheory Filter Topology

theorem firstGap_eq (a b c : ℝ) : a + b + c - 2 * min (min a b) c - max (max a b) c = firstGap a b c := by
  unfold firstGap
  rcases le_total a b with h1 | h1 <;> rcases le_total b c with h2 | h2 <;> rcases le_total a c with h3 | h3 <;>
    simp only [h1, h2, h3, min_eq_left, min_eq_right, max_eq_left, max_eq_right] <;> linarith

theorem firstGap_le {a b c w : ℝ} : w ≤ firstGap a b c ↔ a + w ≤ min b c ∨ b + w ≤ min a c ∨ c + w ≤ min a b := by
  unfold firstGap
  rcases le_total a b with h1 | h1 <;> rcases le_total b c with h2 | h2 <;> rcases le_total a c with h3 | h3 <;>
    simp only [h1, h2, h3, min_eq_left, min_eq_right, max_eq_left, max_eq_right, le_min_iff] <;>
    constructor <;> intro h <;> first
      | (rcases h with h | h | h <;> linarith)
      | (first | (left; linarith) | (right; left; linarith) | (right; right; linarith))

/-! ### Counting -/

theorem six_orders (i j k : ℕ) (v : ℝ) : (if i ≠ j ∧ i ≠ k ∧ j ≠ k then v else 0) =
    (if i < j ∧ j < k then v else 0) + (if i < k ∧ k < j then v else 0) + (if j < i ∧ i < k then v else 0) +
    (if j < k ∧ k < i then v else 0) + (if k < i ∧ i < j then v else 0) + (if k < j ∧ j < i then v else 0) := by
  split_ifs <;> first | (exfalso; omega) | ring

section
variable {n : ℕ} {f : Fin n → Fin n → Fin n → ℝ}

theorem swap12 (T : Fin n → Fin n → Fin n → ℝ) : ∑ i, ∑ j, ∑ k, T i j k = ∑ i, ∑ j, ∑ k, T j i k := Finset.sum_comm

theorem swap23 (T : Fin n → Fin n → Fin n → ℝ) : ∑ i, ∑ j, ∑ k, T i j k = ∑ i, ∑ j, ∑ k, T i k j :=
  Finset.sum_congr rfl fun _ _ => Finset.sum_comm

theorem six_count (h0 : ∀ i j k, 0 ≤ f i j k) (h1 : ∀ i j k, f i j k ≤ 1) (s12 : ∀ i j k, f i j k = f j i k)
    (s23 : ∀ i j k, f i j k = f i k j) :
    6 * ∑ i, ∑ j, ∑ k, (if i < j ∧ j < k then f i j k else 0) ≤ ∑ i, ∑ j, ∑ k, f i j k ∧
    ∑ i, ∑ j, ∑ k, f i j k ≤ 6 * ∑ i, ∑ j, ∑ k, (if i < j ∧ j < k then f i j k else 0) + 3 * (n : ℝ) ^ 2 := by
  set A := ∑ i, ∑ j, ∑ k, (if i < j ∧ j < k then f i j k else 0) with hA
  have a2 : ∑ i, ∑ j, ∑ k, (if i < k ∧ k < j then f i j k else 0) = A := by
    rw [hA, swap23]; simp only [← s23]
  have a3 : ∑ i, ∑ j, ∑ k, (if j < i ∧ i < k then f i j k else 0) = A := by
    rw [hA, swap12]; simp only [← s12]
  have a4 : ∑ i, ∑ j, ∑ k, (if j < k ∧ k < i then f i j k else 0) = A := by
    rw [← a2, swap12]; simp only [← s12]
  have a5 : ∑ i, ∑ j, ∑ k, (if k < i ∧ i < j then f i j k else 0) = A := by
    rw [← a3, swap23]; simp only [← s23]
  have a6 : ∑ i, ∑ j, ∑ k, (if k < j ∧ j < i then f i j k else 0) = A := by
    rw [← a4, swap23]; simp only [← s23]
  have e : ∑ i, ∑ j, ∑ k, (if i ≠ j ∧ i ≠ k ∧ j ≠ k then f i j k else 0) = 6 * A := by
    have : ∀ i j k : Fin n, (if i ≠ j ∧ i ≠ k ∧ j ≠ k then f i j k else 0) =
        (if i < j ∧ j < k then f i j k else 0) + (if i < k ∧ k < j then f i j k else 0) +
        (if j < i ∧ i < k then f i j k else 0) + (if j < k ∧ k < i then f i j k else 0) +
        (if k < i ∧ i < j then f i j k else 0) + (if k < j ∧ j < i then f i j k else 0) := fun i j k => by
      have := six_orders i j k (f i j k)
      simpa only [ne_eq, Fin.val_inj, Fin.val_fin_lt] using this
    simp only [this, Finset.sum_add_distrib]
    rw [a2, a3, a4, a5, a6]
    ring
  rw [← e]
  constructor
  · refine Finset.sum_le_sum fun i _ => Finset.sum_le_sum fun j _ => Finset.sum_le_sum fun k _ => ?_
    split_ifs
    · exact le_rfl
    · exact h0 i j k
  · have h3 : 3 * (n : ℝ) ^ 2 = ∑ i : Fin n, ∑ j : Fin n, ∑ k : Fin n,
        ((if i = j then (1 : ℝ) else 0) + (if i = k then (1 : ℝ) else 0) + (if j = k then (1 : ℝ) else 0)) := by
      simp [Finset.sum_add_distrib]
      ring
    rw [h3, ← Finset.sum_add_distrib]
    refine Finset.sum_le_sum fun i _ => ?_
    rw [← Finset.sum_add_distrib]
    refine Finset.sum_le_sum fun j _ => ?_
    rw [← Finset.sum_add_distrib]
    refine Finset.sum_le_sum fun k _ => ?_
    have b0 := h0 i j k
    have b1 := h1 i j k
    split_ifs <;> first | linarith | (exfalso; tauto)

theorem two_count {g : Fin n → Fin n → ℝ} (h0 : ∀ i j, 0 ≤ g i j) (h1 : ∀ i j, g i j ≤ 1) (s : ∀ i j, g i j = g j i) :
    2 * ∑ i, ∑ j, (if i < j then g i j else 0) ≤ ∑ i, ∑ j, g i j ∧
    ∑ i, ∑ j, g i j ≤ 2 * ∑ i, ∑ j, (if i < j then g i j else 0) + 1 * (n : ℝ) ^ 1 := by
  have a : ∑ i, ∑ j, (if j < i then g i j else 0) = ∑ i, ∑ j, (if i < j then g i j else 0) := by
    rw [Finset.sum_comm]; simp only [← s]
  have e : ∑ i, ∑ j, g i j = ∑ i, ∑ j, (if i < j then g i j else 0) + ∑ i, ∑ j, (if j < i then g i j else 0) +
      ∑ i, ∑ j, (if i = j then g i j else 0) := by
    simp only [← Finset.sum_add_distrib]
    refine Finset.sum_congr rfl fun i _ => Finset.sum_congr rfl fun j _ => ?_
    rcases lt_trichotomy i j with h | h | h
    · simp [h, h.ne, h.not_gt]
    · simp [h]
    · simp [h, h.ne', h.not_gt]
  have d0 : 0 ≤ ∑ i, ∑ j, (if i = j then g i j else 0) :=
    Finset.sum_nonneg fun i _ => Finset.sum_nonneg fun j _ => by split_ifs; exacts [h0 i j, le_rfl]
  have d1 : ∑ i, ∑ j, (if i = j then g i j else 0) ≤ n := by
    simp only [Finset.sum_ite_eq, Finset.mem_univ, if_true]
    refine (Finset.sum_le_sum fun i _ => h1 i i).trans ?_
    simp
  rw [e, a]
  constructor <;> linarith

end

theorem sum_above (n i : ℕ) (G : ℕ → ℕ) : ∑ j ∈ Finset.Ico (i + 1) n, G j = ∑ j ∈ Finset.range n, if i < j then G j else 0 := by
  rw [← Finset.sum_filter]
  refine Finset.sum_congr ?_ fun _ _ => rfl
  ext j
  simp only [Finset.mem_Ico, Finset.mem_filter, Finset.mem_range]
  omega

theorem sum_above' {n : ℕ} (i : ℕ) {G : ℕ → ℕ} (hG : G (n - 1) = 0) :
    ∑ j ∈ Finset.Ico (i + 1) (n - 1), G j = ∑ j ∈ Finset.range n, if i < j then G j else 0 := by
  rw [← sum_above]
  refine Finset.sum_subset (fun j hj => ?_) fun j hj hj' => ?_
  · simp only [Finset.mem_Ico] at hj ⊢; omega
  · simp only [Finset.mem_Ico] at hj hj'
    obtain rfl : j = n - 1 := by omega
    exact hG

theorem rsH_eq {n : ℕ} (x : Fin n → ℝ) (m : ℝ) : (rsH (List.ofFn x) m : ℝ) =
    ∑ i : Fin n, ∑ j : Fin n, ∑ k : Fin n, if i < j ∧ j < k then (if firstGap (x i) (x j) (x k) < m then (1 : ℝ) else 0) else 0 := by
  have e : rsH (List.ofFn x) m = ∑ i ∈ Finset.range n, ∑ j ∈ Finset.range n, ∑ k ∈ Finset.range n,
      if i < j ∧ j < k then (if rsCond (at_ (List.ofFn x) i) (at_ (List.ofFn x) j) (at_ (List.ofFn x) k) m then 1 else 0) else 0 := by
    have inner : ∀ i, ∑ j ∈ Finset.Ico (i + 1) (n - 1), ∑ k ∈ Finset.Ico (j + 1) n,
        (if rsCond (at_ (List.ofFn x) i) (at_ (List.ofFn x) j) (at_ (List.ofFn x) k) m then 1 else 0) =
        ∑ j ∈ Finset.range n, ∑ k ∈ Finset.range n,
          if i < j ∧ j < k then (if rsCond (at_ (List.ofFn x) i) (at_ (List.ofFn x) j) (at_ (List.ofFn x) k) m then 1 else 0) else 0 := by
      intro i
      rw [sum_above' (n := n) i (by rw [Finset.Ico_eq_empty (by omega), Finset.sum_empty])]
      refine Finset.sum_congr rfl fun j _ => ?_
      split_ifs with h
      · rw [sum_above]
        exact Finset.sum_congr rfl fun k _ => by simp only [h, true_and]
      · simp [h]
    simp only [rsH, List.length_ofFn, inner]
    refine Finset.sum_subset (fun i hi => ?_) fun i hi hi' => ?_
    · simp only [Finset.mem_range] at hi ⊢; omega
    · simp only [Finset.mem_range] at hi hi'
      refine Finset.sum_eq_zero fun j hj => Finset.sum_eq_zero fun k hk => if_neg ?_
      simp only [Finset.mem_range] at hj hk
      omega
  rw [e]
  simp only [Finset.sum_range, at_ofFn, Nat.cast_sum, Nat.cast_ite, Nat.cast_one, Nat.cast_zero, Fin.val_fin_lt]
  refine Finset.sum_congr rfl fun i _ => Finset.sum_congr rfl fun j _ => Finset.sum_congr rfl fun k _ => ?_
  simp only [rsCond, firstGap_eq]

theorem rsG_eq {n : ℕ} (x : Fin n → ℝ) (m : ℝ) : (rsG (List.ofFn x) m : ℝ) =
    ∑ i : Fin n, ∑ j : Fin n, if i < j then (if min (x i) (x j) < m then (1 : ℝ) else 0) else 0 := by
  have e : rsG (List.ofFn x) m = ∑ i ∈ Finset.range n, ∑ j ∈ Finset.range n,
      if i < j then (if min (at_ (List.ofFn x) i) (at_ (List.ofFn x) j) < m then 1 else 0) else 0 := by
    simp only [rsG, List.length_ofFn, sum_above]
    refine Finset.sum_subset (fun i hi => ?_) fun i hi hi' => ?_
    · simp only [Finset.mem_range] at hi ⊢; omega
    · simp only [Finset.mem_range] at hi hi'
      refine Finset.sum_eq_zero fun j hj => if_neg ?_
      simp only [Finset.mem_range] at hj
      omega
  rw [e]
  simp only [Finset.sum_range, at_ofFn, Nat.cast_sum, Nat.cast_ite, Nat.cast_one, Nat.cast_zero, Fin.val_fin_lt]

theorem gap_measurable : Measurable fun p : (ℝ × ℝ) × ℝ => firstGap p.1.1 p.1.2 p.2 := by unfold firstGap; fun_prop

theorem gap_continuous : Continuous fun p : (ℝ × ℝ) × ℝ => firstGap p.1.1 p.1.2 p.2 := by unfold firstGap; fun_prop

theorem gap_set : MeasurableSet {q : ((ℝ × ℝ) × ℝ) × ℝ | firstGap q.1.1.1 q.1.1.2 q.1.2 < q.2} :=
  measurableSet_lt (gap_measurable.comp measurable_fst) measurable_snd

theorem gap_perm (a b c : ℝ) : firstGap a b c = firstGap b a c ∧ firstGap a b c = firstGap a c b := by
  simp only [← firstGap_eq]
  refine ⟨by rw [min_comm a b, max_comm a b, add_comm a b], ?_⟩
  rw [min_assoc, min_comm b c, ← min_assoc, max_assoc, max_comm b c, ← max_assoc, add_right_comm]

section
variable {μ : Measure ℝ} [IsProbabilityMeasure μ]

/-- The proportion of the ordered quadruples of observations in a set with a null boundary. -/
theorem quadruples_settle {E : Set (((ℝ × ℝ) × ℝ) × ℝ)} (h0 : ((μ.prod μ).prod μ).prod μ (frontier E) = 0) :
    ∀ᵐ ω ∂seqLaw μ, Tendsto (fun n => ((((empiricalLaw (List.ofFn (firsts n ω))).prod
      (empiricalLaw (List.ofFn (firsts n ω)))).prod (empiricalLaw (List.ofFn (firsts n ω)))).prod
      (empiricalLaw (List.ofFn (firsts n ω)))).real E) atTop (𝓝 ((((μ.prod μ).prod μ).prod μ).real E)) := by
  filter_upwards [empirical_weakly (μ := μ)] with ω h
  have h2 := (ProbabilityMeasure.continuous_prod.tendsto _).comp (h.prodMk_nhds h)
  have h2' := (ProbabilityMeasure.continuous_prod.tendsto _).comp (h2.prodMk_nhds h)
  have h2'' := (ProbabilityMeasure.continuous_prod.tendsto _).comp (h2'.prodMk_nhds h)
  have h3 := ProbabilityMeasure.tendsto_measure_of_null_frontier_of_tendsto' h2'' (E := E) h0
  have h4 := (ENNReal.tendsto_toReal (measure_ne_top _ _)).comp h3
  refine h4.congr' ?_
  filter_upwards [eventually_gt_atTop 0] with n hn
  simp only [Function.comp, ProbabilityMeasure.toMeasure_prod, empiricalProb_coe hn]
  rfl

end

open Classical in
theorem prod4_empirical {n : ℕ} (hn : 0 < n) (x : Fin n → ℝ) {E : Set (((ℝ × ℝ) × ℝ) × ℝ)} (hE : MeasurableSet E) :
    ((((empiricalLaw (List.ofFn x)).prod (empiricalLaw (List.ofFn x))).prod (empiricalLaw (List.ofFn x))).prod
      (empiricalLaw (List.ofFn x))).real E =
      (∑ m, ∑ k, ∑ i, ∑ j, if (((x i, x j), x k), x m) ∈ E then (1 : ℝ) else 0) / (n : ℝ) ^ 4 := by
  have hne : List.ofFn x ≠ [] := by simpa using hn.ne'
  have := empirical_probability hne
  have e : ∀ f : ℝ → ℝ, ∫ y, f y ∂empiricalLaw (List.ofFn x) = (∑ i, f (x i)) / n := fun f => by
    rw [integral_empirical, List.length_ofFn, List.map_ofFn, List.sum_ofFn]
    rfl
  rw [real_prod_symm hE, e]
  have e2 : ∀ z : ℝ, (((empiricalLaw (List.ofFn x)).prod (empiricalLaw (List.ofFn x))).prod (empiricalLaw (List.ofFn x))).real
      {p | (p, z) ∈ E} = (∑ k, ∑ i, ∑ j, if (((x i, x j), x k), z) ∈ E then (1 : ℝ) else 0) / (n : ℝ) ^ 3 := fun z =>
    prod3_empirical hn x ((by fun_prop : Measurable fun p : (ℝ × ℝ) × ℝ => (p, z)) hE)
  simp only [e2]
  rw [← Finset.sum_div, div_div]
  ring

theorem falling {n : ℕ} (hn : 3 ≤ n) : (6 * ((n - 3).factorial : ℝ) / n.factorial = 6 / (n * (n - 1) * (n - 2))) ∧
    (2 * ((n - 2).factorial : ℝ) / n.factorial = 2 / (n * (n - 1))) := by
  obtain ⟨k, rfl⟩ : ∃ k, n = k + 3 := ⟨n - 3, by omega⟩
  have h : (k.factorial : ℝ) ≠ 0 := by exact_mod_cast k.factorial_ne_zero
  rw [show k + 3 - 3 = k by omega, show k + 3 - 2 = k + 1 by omega]
  simp only [Nat.factorial_succ]
  push_cast
  have h1 : (k : ℝ) + 1 ≠ 0 := by positivity
  have h2 : (k : ℝ) + 1 + 1 ≠ 0 := by positivity
  have h3 : (k : ℝ) + 1 + 1 + 1 ≠ 0 := by positivity
  have e1 : (k : ℝ) + 3 - 1 = k + 1 + 1 := by ring
  have e2 : (k : ℝ) + 3 - 2 = k + 1 := by ring
  have e3 : (k : ℝ) + 3 = k + 1 + 1 + 1 := by ring
  have e4 : (k : ℝ) + 2 + 1 = k + 1 + 1 + 1 := by ring
  rw [e1, e2, e3, e4]
  constructor <;> field_simp

section
variable (code : String) (params : Option (List (String × ℝ))) {Q : Measure ℝ} [IsProbabilityMeasure Q] [NullSingletonClass Q]

theorem rossberg_settles : ValueSettles (ExpStat.rossberg.statistic code params) (fun _ x => x) Q
    (gapProb Q - ((Q.prod Q).prod Q).real {q | min q.1.1 q.1.2 < q.2}) := by
  have hF : MeasurableSet {q : (ℝ × ℝ) × ℝ | min q.1.1 q.1.2 < q.2} := measurableSet_lt (by fun_prop) (by fun_prop)
  have h1 : ((Q.prod Q).prod Q).prod Q (frontier {q : ((ℝ × ℝ) × ℝ) × ℝ | firstGap q.1.1.1 q.1.1.2 q.1.2 < q.2}) = 0 := by
    refine measure_mono_null (frontier_lt_subset_eq (gap_continuous.comp continuous_fst) continuous_snd) ?_
    exact null_graph (h := fun p : (ℝ × ℝ) × ℝ => firstGap p.1.1 p.1.2 p.2) gap_measurable
  have h2 : (Q.prod Q).prod Q (frontier {q : (ℝ × ℝ) × ℝ | min q.1.1 q.1.2 < q.2}) = 0 := by
    refine measure_mono_null (frontier_lt_subset_eq (by fun_prop) (by fun_prop)) ?_
    exact null_graph (h := fun p : ℝ × ℝ => min p.1 p.2) (by fun_prop)
  classical
  filter_upwards [quadruples_settle h1, triples_settle h2] with ω a b
  have la : Tendsto (fun n => (∑ m, 6 * (rsH (List.ofFn (firsts n ω)) (firsts n ω m) : ℝ)) / (n * (n * (n - 1) * (n - 2)))) atTop
      (𝓝 (gapProb Q)) := by
    refine count_limit (k := 3) (r := 3) (V := fun n => ∑ m, ∑ k, ∑ i, ∑ j,
      if firstGap (firsts n ω i) (firsts n ω j) (firsts n ω k) < firsts n ω m then (1 : ℝ) else 0) ?_ ?_ ?_ ?_
    · refine a.congr' ?_
      filter_upwards [eventually_gt_atTop 0] with n hn
      rw [prod4_empirical hn _ gap_set]
      rfl
    · have c : ContinuousAt (fun u : ℝ => (1 - u) * (1 - 2 * u)) 0 := by fun_prop
      have := (c.tendsto.comp tendsto_inv_atTop_nhds_zero_nat)
      rw [sub_zero, mul_zero, sub_zero, mul_one] at this
      refine this.congr' ?_
      filter_upwards [eventually_gt_atTop 0] with n hn
      have h1 : (n : ℝ) ≠ 0 := by exact_mod_cast hn.ne'
      simp only [Function.comp]
      field_simp
      ring
    · refine .of_forall fun n => Finset.sum_le_sum fun m _ => ?_
      rw [rsH_eq]
      refine (six_count (f := fun i j k => if firstGap (firsts n ω i) (firsts n ω j) (firsts n ω k) < firsts n ω m then (1 : ℝ) else 0)
        ?_ ?_ ?_ ?_).1.trans_eq ?_
      · intro i j k; split_ifs <;> norm_num
      · intro i j k; split_ifs <;> norm_num
      · intro i j k; rw [(gap_perm _ _ _).1]
      · intro i j k; rw [(gap_perm _ _ _).2]
      · rw [swap23, swap12]
    · refine .of_forall fun n => ?_
      have e : (3 : ℝ) * (n : ℝ) ^ 3 = ∑ _m : Fin n, 3 * (n : ℝ) ^ 2 := by simp; ring
      rw [e, ← Finset.sum_add_distrib]
      refine Finset.sum_le_sum fun m _ => ?_
      rw [rsH_eq]
      refine le_trans (le_of_eq ?_) (six_count (f := fun i j k => if firstGap (firsts n ω i) (firsts n ω j) (firsts n ω k) < firsts n ω m then (1 : ℝ) else 0)
        ?_ ?_ ?_ ?_).2
      · rw [swap12, swap23]
      · intro i j k; split_ifs <;> norm_num
      · intro i j k; split_ifs <;> norm_num
      · intro i j k; rw [(gap_perm _ _ _).1]
      · intro i j k; rw [(gap_perm _ _ _).2]
  have lb : Tendsto (fun n => (∑ m, 2 * (rsG (List.ofFn (firsts n ω)) (firsts n ω m) : ℝ)) / (n * (n * (n - 1)))) atTop
      (𝓝 (((Q.prod Q).prod Q).real {q | min q.1.1 q.1.2 < q.2})) := by
    refine count_limit (k := 2) (r := 1) (V := fun n => ∑ m, ∑ i, ∑ j,
      if min (firsts n ω i) (firsts n ω j) < firsts n ω m then (1 : ℝ) else 0) ?_ ?_ ?_ ?_
    · refine b.congr' ?_
      filter_upwards [eventually_gt_atTop 0] with n hn
      rw [prod3_empirical hn _ hF]
      rfl
    · have c : ContinuousAt (fun u : ℝ => 1 - u) 0 := by fun_prop
      have := (c.tendsto.comp tendsto_inv_atTop_nhds_zero_nat)
      rw [sub_zero] at this
      refine this.congr' ?_
      filter_upwards [eventually_gt_atTop 0] with n hn
      have h1 : (n : ℝ) ≠ 0 := by exact_mod_cast hn.ne'
      simp only [Function.comp]
      field_simp
      ring
    · refine .of_forall fun n => Finset.sum_le_sum fun m _ => ?_
      rw [rsG_eq]
      refine (two_count (g := fun i j => if min (firsts n ω i) (firsts n ω j) < firsts n ω m then (1 : ℝ) else 0) ?_ ?_ ?_).1
      · intro i j; split_ifs <;> norm_num
      · intro i j; split_ifs <;> norm_num
      · intro i j; rw [min_comm]
    · refine .of_forall fun n => ?_
      have e : (1 : ℝ) * (n : ℝ) ^ 2 = ∑ _m : Fin n, 1 * (n : ℝ) ^ 1 := by simp; ring
      rw [e, ← Finset.sum_add_distrib]
      refine Finset.sum_le_sum fun m _ => ?_
      rw [rsG_eq]
      refine (two_count (g := fun i j => if min (firsts n ω i) (firsts n ω j) < firsts n ω m then (1 : ℝ) else 0) ?_ ?_ ?_).2
      · intro i j; split_ifs <;> norm_num
      · intro i j; split_ifs <;> norm_num
      · intro i j; rw [min_comm]
  refine ⟨_, la.sub lb, ?_⟩
  filter_upwards [eventually_ge_atTop 3] with n hn
  show ExpStat.rossberg.value (List.ofFn (firsts n ω)) = _
  simp only [ExpStat.value, Exponent.rossberg, List.length_ofFn, if_neg (show ¬ n = 0 by omega), if_neg (show ¬ n < 3 by omega)]
  rw [(falling hn).1, (falling hn).2]
  simp only [Finset.sum_range, at_ofFn, ← Finset.mul_sum]
  congr 1
  have h0 : (n : ℝ) ≠ 0 := by exact_mod_cast (by omega : n ≠ 0)
  have h1 : (3 : ℝ) ≤ n := by exact_mod_cast hn
  have h2 : (n : ℝ) - 1 ≠ 0 := by linarith
  have h3 : (n : ℝ) - 2 ≠ 0 := by linarith
  generalize (∑ m : Fin n, (rsH (List.ofFn (firsts n ω)) (firsts n ω m) : ℝ)) = X
  generalize (∑ m : Fin n, (rsG (List.ofFn (firsts n ω)) (firsts n ω m) : ℝ)) = Y
  field_simp

/-! ### Tails -/

theorem square_integrable {α : Type} [MeasurableSpace α] {ν : Measure α} [IsFiniteMeasure ν] {h : α → ℝ} (hh : Measurable h) :
    Integrable (fun a => tail Q (h a) ^ 2) ν := by
  refine Integrable.of_bound (C := 1) ((tail_measurable.comp hh).pow_const 2).aestronglyMeasurable (ae_of_all _ fun a => ?_)
  rw [Real.norm_of_nonneg (sq_nonneg _)]
  exact pow_le_one₀ (tail_nonneg _) (tail_le_one _)

theorem tail_square_mean : ∫ x, tail Q x ^ 2 ∂Q = 1 / 3 := by
  have := tail_power (Q := Q) (c := 2) (by norm_num)
  simp only [Real.rpow_two] at this
  rw [this]
  norm_num

omit [IsProbabilityMeasure Q] in
theorem tail_Ici (z : ℝ) : Q.real (Set.Ici z) = tail Q z := measureReal_congr Ioi_ae_eq_Ici.symm

theorem least_prob : ((Q.prod Q).prod Q).real {q | min q.1.1 q.1.2 < q.2} = 2 / 3 := by
  rw [real_prod_symm (measurableSet_lt (by fun_prop) (by fun_prop))]
  have e : ∀ z, (Q.prod Q).real {p | (p, z) ∈ {q : (ℝ × ℝ) × ℝ | min q.1.1 q.1.2 < q.2}} = 1 - tail Q z ^ 2 := fun z => by
    have h1 : {p : ℝ × ℝ | (p, z) ∈ {q : (ℝ × ℝ) × ℝ | min q.1.1 q.1.2 < q.2}} = (Set.Ici z ×ˢ Set.Ici z)ᶜ := by
      ext p
      simp only [Set.mem_ofPred_eq, Set.mem_compl_iff, Set.mem_prod, Set.mem_Ici, ← le_min_iff, not_le]
    rw [h1, probReal_compl_eq_one_sub (measurableSet_Ici.prod measurableSet_Ici), measureReal_prod_prod, tail_Ici, sq]
  simp only [e]
  rw [integral_sub (integrable_const _) (square_integrable (h := fun x => x) measurable_id), tail_square_mean]
  norm_num

theorem gap_tail (hpos : ∀ᵐ x ∂Q, 0 < x) : gapProb Q = 1 - 3 * ∫ p, tail Q (p.1 + p.2) ^ 2 ∂Q.prod Q := by
  set S : Set (((ℝ × ℝ) × ℝ) × ℝ) := {q | q.1.2 + q.2 ≤ min q.1.1.1 q.1.1.2} with hS
  have hSm : MeasurableSet S := measurableSet_le (by fun_prop) (by fun_prop)
  have e0 : (((Q.prod Q).prod Q).prod Q).real S = ∫ p, tail Q (p.1 + p.2) ^ 2 ∂Q.prod Q := by
    rw [real_prod_symm hSm, integral_prod_symm _ (square_integrable (by fun_prop))]
    refine integral_congr_ae (.of_forall fun w => ?_)
    have hm : MeasurableSet {p : (ℝ × ℝ) × ℝ | (p, w) ∈ S} := (by fun_prop : Measurable fun p : (ℝ × ℝ) × ℝ => (p, w)) hSm
    show ((Q.prod Q).prod Q).real {p | (p, w) ∈ S} = _
    rw [real_prod_symm hm]
    refine integral_congr_ae (.of_forall fun c => ?_)
    have h1 : {p : ℝ × ℝ | (p, c) ∈ {p : (ℝ × ℝ) × ℝ | (p, w) ∈ S}} = Set.Ici (c + w) ×ˢ Set.Ici (c + w) := by
      ext p
      simp only [hS, Set.mem_ofPred_eq, Set.mem_prod, Set.mem_Ici, ← le_min_iff]
    show (Q.prod Q).real _ = _
    rw [h1, measureReal_prod_prod, tail_Ici, ← sq]
  have f1 : MeasurePreserving (fun q : (ℝ × ℝ) × ℝ => ((q.1.2, q.2), q.1.1)) ((Q.prod Q).prod Q) ((Q.prod Q).prod Q) :=
    (Measure.measurePreserving_swap (μ := Q) (ν := Q.prod Q)).comp (measurePreserving_prodAssoc Q Q Q)
  have f2 : MeasurePreserving (fun q : (ℝ × ℝ) × ℝ => ((q.1.1, q.2), q.1.2)) ((Q.prod Q).prod Q) ((Q.prod Q).prod Q) :=
    f1.comp ((Measure.measurePreserving_swap (μ := Q) (ν := Q)).prod (MeasurePreserving.id Q))
  have g1 := f1.prod (MeasurePreserving.id Q)
  have g2 := f2.prod (MeasurePreserving.id Q)
  set A := (Prod.map (fun q : (ℝ × ℝ) × ℝ => ((q.1.2, q.2), q.1.1)) (id : ℝ → ℝ)) ⁻¹' S with hA
  set B := (Prod.map (fun q : (ℝ × ℝ) × ℝ => ((q.1.1, q.2), q.1.2)) (id : ℝ → ℝ)) ⁻¹' S with hB
  have hAm : MeasurableSet A := g1.measurable hSm
  have hBm : MeasurableSet B := g2.measurable hSm
  have eA : (((Q.prod Q).prod Q).prod Q).real A = (((Q.prod Q).prod Q).prod Q).real S := by
    rw [measureReal_def, g1.measure_preimage hSm.nullMeasurableSet]; rfl
  have eB : (((Q.prod Q).prod Q).prod Q).real B = (((Q.prod Q).prod Q).prod Q).real S := by
    rw [measureReal_def, g2.measure_preimage hSm.nullMeasurableSet]; rfl
  have hz : ∀ᵐ q ∂((Q.prod Q).prod Q).prod Q, 0 < q.2 := Measure.quasiMeasurePreserving_snd.ae hpos
  have hAB : AEDisjoint (((Q.prod Q).prod Q).prod Q) A B := by
    refine measure_mono_null ?_ (ae_iff.1 hz)
    rintro q ⟨h1 : q.1.1.1 + q.2 ≤ min q.1.1.2 q.1.2, h2 : q.1.1.2 + q.2 ≤ min q.1.1.1 q.1.2⟩
    show ¬ 0 < q.2
    have := (le_min_iff.1 h1).1
    have := (le_min_iff.1 h2).1
    linarith
  have hABS : AEDisjoint (((Q.prod Q).prod Q).prod Q) (A ∪ B) S := by
    refine measure_mono_null ?_ (ae_iff.1 hz)
    rintro q ⟨h1, h2 : q.1.2 + q.2 ≤ min q.1.1.1 q.1.1.2⟩
    show ¬ 0 < q.2
    have k1 := (le_min_iff.1 h2).1
    have k2 := (le_min_iff.1 h2).2
    rcases h1 with h1 | h1
    · have h1' : q.1.1.1 + q.2 ≤ min q.1.1.2 q.1.2 := h1
      have := (le_min_iff.1 h1').2
      linarith
    · have h1' : q.1.1.2 + q.2 ≤ min q.1.1.1 q.1.2 := h1
      have := (le_min_iff.1 h1').2
      linarith
  have eU : gapProb Q = (((Q.prod Q).prod Q).prod Q).real ((A ∪ B) ∪ S)ᶜ := by
    unfold gapProb
    refine congrArg _ ?_
    ext q
    show firstGap q.1.1.1 q.1.1.2 q.1.2 < q.2 ↔ ¬ ((q.1.1.1 + q.2 ≤ min q.1.1.2 q.1.2 ∨ q.1.1.2 + q.2 ≤ min q.1.1.1 q.1.2) ∨
      q.1.2 + q.2 ≤ min q.1.1.1 q.1.1.2)
    rw [or_assoc, ← firstGap_le, not_le]
  rw [eU, probReal_compl_eq_one_sub ((hAm.union hBm).union hSm), measureReal_union₀' (hAm.union hBm).nullMeasurableSet hABS,
    measureReal_union₀' hAm.nullMeasurableSet hAB, eA, eB, e0]
  ring

theorem square_product : ∫ p, tail Q p.1 ^ 2 * tail Q p.2 ^ 2 ∂Q.prod Q = 1 / 9 := by
  rw [integral_prod_mul (fun x => tail Q x ^ 2) (fun x => tail Q x ^ 2), tail_square_mean]
  norm_num

theorem square_product_integrable : Integrable (fun p : ℝ × ℝ => tail Q p.1 ^ 2 * tail Q p.2 ^ 2) (Q.prod Q) :=
  (square_integrable (h := fun x => x) measurable_id).mul_prod (square_integrable (h := fun x => x) measurable_id)

theorem gap_better (hpos : ∀ᵐ x ∂Q, 0 < x) (h : NewBetter Q) : 2 / 3 < gapProb Q := by
  have : ∫ p, tail Q (p.1 + p.2) ^ 2 ∂Q.prod Q < 1 / 9 := by
    rw [← square_product (Q := Q)]
    refine lt_integral (square_integrable (by fun_prop)) square_product_integrable ?_
    filter_upwards [pair_ae hpos] with p hp
    rw [← mul_pow]
    exact pow_lt_pow_left₀ (h _ _ hp.1.1 hp.2.1 hp.1.2 hp.2.2) (tail_nonneg _) two_ne_zero
  rw [gap_tail hpos]
  linarith

theorem gap_worse (hpos : ∀ᵐ x ∂Q, 0 < x) (h : NewWorse Q) : gapProb Q < 2 / 3 := by
  have : 1 / 9 < ∫ p, tail Q (p.1 + p.2) ^ 2 ∂Q.prod Q := by
    rw [← square_product (Q := Q)]
    refine lt_integral square_product_integrable (square_integrable (by fun_prop)) ?_
    filter_upwards [pair_ae hpos] with p hp
    rw [← mul_pow]
    exact pow_lt_pow_left₀ (h _ _ hp.1.1 hp.2.1 hp.1.2 hp.2.2) (mul_nonneg (tail_nonneg _) (tail_nonneg _)) two_ne_zero
  rw [gap_tail hpos]
  linarith

theorem gap_exponential {r : ℝ} (hr : 0 < r) : gapProb (expMeasure r) = 2 / 3 := by
  have hpr := isProbabilityMeasure_expMeasure hr
  have ht : ∀ x, 0 < x → tail (expMeasure r) x = Real.exp (-(r * x)) := fun x hx => by
    rw [tail_eq, cdf_expMeasure_eq hr, if_pos hx.le]
    ring
  have : ∫ p, tail (expMeasure r) (p.1 + p.2) ^ 2 ∂(expMeasure r).prod (expMeasure r) = 1 / 9 := by
    rw [← square_product (Q := expMeasure r)]
    refine integral_congr_ae ?_
    filter_upwards [pair_ae (Expon.ae_pos hr)] with p hp
    rw [ht _ hp.1.1, ht _ hp.2.1, ht _ (add_pos hp.1.1 hp.2.1), ← mul_pow, ← Real.exp_add]
    congr 2
    ring
  rw [gap_tail (Expon.ae_pos hr), this]
  norm_num

end

section
variable (code : String) (params : Option (List (String × ℝ))) (classes : List GeneratorClass)
  (hp : classes.Perm generatorClasses)
include hp

/-- **C136, Rossberg**: the probability that the time between the first and the second of three failures is shorter than another
life time, compared with its value 2/3 for exponential observations.  Missing: the second half is the failure of consistency; see
`C136_refuted_rossberg`. -/
theorem C136_rossberg_partial {r : ℝ} (hr : 0 < r) :
    ∃ G, (Gen.Family.exponential r).simulator classes = .ok G ∧ (∀ n, G.generate n = .ok (iid n (expMeasure r))) ∧
    ∀ Q : Measure ℝ, IsProbabilityMeasure Q → (∀ c, Q {c} = 0) →
      (2 / 3 < gapProb Q → Consistent (ExpStat.rossberg.statistic code params) Q (expMeasure r)) ∧
      (gapProb Q < 2 / 3 → Undetected (ExpStat.rossberg.statistic code params) Q (expMeasure r)) := by
  have hpr := isProbabilityMeasure_expMeasure hr
  obtain ⟨G, hG, hgen⟩ := simulates_all (f := .exponential r) fun n => C111_exponential classes hp r hr n
  refine ⟨G, hG, hgen, fun Q _ h0 => ?_⟩
  have : NullSingletonClass Q := ⟨h0⟩
  have hP := rossberg_settles code params (Q := expMeasure r)
  have hQ := rossberg_settles code params (Q := Q)
  rw [gap_exponential hr, least_prob] at hP
  rw [least_prob] at hQ
  exact ⟨fun h => value_consistent (exponential_meas _ code params) (.of_forall fun _ => strictMono_id)
      hQ hP (Or.inl ⟨(fun h => by cases h), by linarith⟩),
    fun h => value_undetected (exponential_meas _ code params) (.of_forall fun _ => strictMono_id)
      hQ hP (Or.inr ⟨rfl, by linarith⟩)⟩

/-- **C136, Rossberg, refuted**: the criterion detects every law of positive numbers without atoms for which new is better than
used, and with a probability that tends to zero every such law for which new is worse than used. -/
theorem C136_refuted_rossberg {r : ℝ} (hr : 0 < r) {Q : Measure ℝ} [IsProbabilityMeasure Q]
    (h0 : ∀ c, Q {c} = 0) (hpos : ∀ᵐ x ∂Q, 0 < x) :
    (NewBetter Q → Consistent (ExpStat.rossberg.statistic code params) Q (expMeasure r)) ∧
    (NewWorse Q → Undetected (ExpStat.rossberg.statistic code params) Q (expMeasure r)) := by
  obtain ⟨_, _, _, h⟩ := C136_rossberg_partial code params classes hp hr
  have : NullSingletonClass Q := ⟨h0⟩
  have h1 := h Q ‹_› h0
  exact ⟨fun hw => h1.1 (gap_better hpos hw), fun hw => h1.2 (gap_worse hpos hw)⟩

end

/-- Uniform observations are found, Weibull observations with shape 1/2 are not. -/
example : Consistent (ExpStat.rossberg.statistic "" none) (uniformLaw 0 1) (expMeasure 2) ∧
    Undetected (ExpStat.rossberg.statistic "" none) (weibullLaw 1 (1 / 2)) (expMeasure 2) := by
  have hpr := (cdf_uniformLaw (zero_lt_one (α := ℝ))).1
  have hk : (0 : ℝ) < 1 / 2 := by norm_num
  have hpr' := (weibull_prob hk).1
  exact ⟨(C136_refuted_rossberg "" none _ (.refl _) two_pos (fun c => measure_singleton (μ := unitLaw) c) (uniform_pos one_pos)).1
      (uniform_better one_pos),
    (C136_refuted_rossberg "" none _ (.refl _) two_pos (fun c => measure_singleton c) (weibull_pos hk)).2
      (weibull_worse hk (by norm_num))⟩

end Pysatl.Props
