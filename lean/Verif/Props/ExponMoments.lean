import Verif.Props.ExponentMeaning
import Verif.Props.NullMoments
import Verif.Lemmas.Expon
import Verif.Spec.ExponSample

/-! # C107: expectations of exponentiality statistics under the hypothesis -/

namespace Pysatl.Props

open Pysatl.Decision Pysatl.Graph Pysatl.Edf Pysatl.Exponent Pysatl.Spec Pysatl.Expon
open MeasureTheory ProbabilityTheory

variable {Ω : Type} [MeasurableSpace Ω] {P : Measure Ω} {n : ℕ} {r : ℝ} {X : Fin n → Ω → ℝ}

/-- Two different observations. -/
theorem pair_prob (h : ExponentialSample P r X) {S : Set (ℝ × ℝ)} (hS : MeasurableSet S) {i j : Fin n}
    (hij : i ≠ j) : P.real {ω | (X i ω, X j ω) ∈ S} = ((expMeasure r).prod (expMeasure r)).real S := by
  have := h.probability
  have hind := (indepFun_iff_map_prod_eq_prod_map_map (h.measurable i).aemeasurable
    (h.measurable j).aemeasurable).1 (h.indep.indepFun hij)
  rw [h.law, h.law] at hind
  rw [← hind, map_measureReal_apply ((h.measurable i).prodMk (h.measurable j)) hS]
  rfl

/-- Three different observations. -/
theorem triple_prob (h : ExponentialSample P r X) {S : Set ((ℝ × ℝ) × ℝ)} (hS : MeasurableSet S)
    {i j k : Fin n} (hij : i ≠ j) (hik : i ≠ k) (hjk : j ≠ k) :
    P.real {ω | ((X i ω, X j ω), X k ω) ∈ S} =
      (((expMeasure r).prod (expMeasure r)).prod (expMeasure r)).real S := by
  have := h.probability
  have h1 := (indepFun_iff_map_prod_eq_prod_map_map (h.measurable i).aemeasurable
    (h.measurable j).aemeasurable).1 (h.indep.indepFun hij)
  have h2 := (indepFun_iff_map_prod_eq_prod_map_map ((h.measurable i).prodMk (h.measurable j)).aemeasurable
    (h.measurable k).aemeasurable).1 (h.indep.indepFun_prodMk h.measurable i j k hik hjk)
  rw [h1, h.law, h.law, h.law] at h2
  rw [← h2, map_measureReal_apply (((h.measurable i).prodMk (h.measurable j)).prodMk (h.measurable k)) hS]
  rfl

theorem real_prod_symm {α β : Type} [MeasurableSpace α] [MeasurableSpace β] {μ : Measure α} {ν : Measure β}
    [IsProbabilityMeasure μ] [IsProbabilityMeasure ν] {S : Set (α × β)} (hS : MeasurableSet S) :
    (μ.prod ν).real S = ∫ y, μ.real {x | (x, y) ∈ S} ∂ν := by
  rw [Measure.real, Measure.prod_apply_symm hS]
  refine (integral_toReal ?_ (ae_of_all _ fun y => measure_lt_top _ _)).symm
  exact (measurable_measure_prodMk_right hS).aemeasurable

theorem real_prod {α β : Type} [MeasurableSpace α] [MeasurableSpace β] {μ : Measure α} {ν : Measure β}
    [IsProbabilityMeasure μ] [IsProbabilityMeasure ν] {S : Set (α × β)} (hS : MeasurableSet S) :
    (μ.prod ν).real S = ∫ x, ν.real {y | (x, y) ∈ S} ∂μ := by
  rw [Measure.real, Measure.prod_apply hS]
  refine (integral_toReal ?_ (ae_of_all _ fun y => measure_lt_top _ _)).symm
  exact (measurable_measure_prodMk_left hS).aemeasurable

section probabilities

variable (hr : 0 < r)
include hr

/-- `P(b Y < X) = 1 / (1 + b)`. -/
theorem prob_mul_lt {b : ℝ} (hb : 0 ≤ b) :
    ((expMeasure r).prod (expMeasure r)).real {p | b * p.2 < p.1} = 1 / (1 + b) := by
  have := isProbabilityMeasure_expMeasure hr
  have hS : MeasurableSet {p : ℝ × ℝ | b * p.2 < p.1} :=
    measurableSet_lt (by fun_prop) (by fun_prop)
  rw [real_prod_symm hS]
  have e : ∀ᵐ y ∂expMeasure r, (expMeasure r).real {x | (x, y) ∈ {p : ℝ × ℝ | b * p.2 < p.1}} =
      Real.exp (-(r * b * y)) := by
    filter_upwards [ae_pos hr] with y hy
    rw [mul_assoc]
    exact real_Ioi hr (mul_nonneg hb hy.le)
  rw [integral_congr_ae e, integral_laplace hr (by positivity)]
  field_simp

/-- `P(X + Y < Z) = P(X + Y ≤ Z) = 1 / 4`. -/
theorem prob_add_lt :
    (((expMeasure r).prod (expMeasure r)).prod (expMeasure r)).real {q | q.1.1 + q.1.2 < q.2} = 1 / 4 ∧
    (((expMeasure r).prod (expMeasure r)).prod (expMeasure r)).real {q | q.1.1 + q.1.2 ≤ q.2} = 1 / 4 := by
  have := isProbabilityMeasure_expMeasure hr
  have hpos : ∀ᵐ p ∂(expMeasure r).prod (expMeasure r), 0 ≤ p.1 + p.2 := by
    have h1 : ∀ᵐ p ∂(expMeasure r).prod (expMeasure r), 0 < p.1 :=
      Measure.quasiMeasurePreserving_fst.ae (ae_pos hr)
    have h2 : ∀ᵐ p ∂(expMeasure r).prod (expMeasure r), 0 < p.2 :=
      Measure.quasiMeasurePreserving_snd.ae (ae_pos hr)
    filter_upwards [h1, h2] with p h1 h2 using (add_pos h1 h2).le
  have key : ∫ p, Real.exp (-(r * (p.1 + p.2))) ∂(expMeasure r).prod (expMeasure r) = 1 / 4 := by
    have e : ∀ p : ℝ × ℝ, Real.exp (-(r * (p.1 + p.2))) = Real.exp (-(r * p.1)) * Real.exp (-(r * p.2)) :=
      fun p => by rw [← Real.exp_add]; congr 1; ring
    simp only [e]
    rw [integral_prod_mul (fun x => Real.exp (-(r * x))) (fun x => Real.exp (-(r * x))),
      integral_laplace hr hr.le]
    field_simp
    norm_num
  constructor
  · rw [real_prod (measurableSet_lt (by fun_prop) (by fun_prop)), ← key]
    refine integral_congr_ae ?_
    filter_upwards [hpos] with p hp
    exact real_Ioi hr hp
  · rw [real_prod (measurableSet_le (by fun_prop) (by fun_prop)), ← key]
    refine integral_congr_ae ?_
    filter_upwards [hpos] with p hp
    exact real_Ici hr hp

/-- `P(2 min(X, Y) < Z) = 1 / 2`. -/
theorem prob_min_lt :
    (((expMeasure r).prod (expMeasure r)).prod (expMeasure r)).real {q | 2 * min q.1.1 q.1.2 < q.2} = 1 / 2 := by
  have := isProbabilityMeasure_expMeasure hr
  have hS : MeasurableSet {q : (ℝ × ℝ) × ℝ | 2 * min q.1.1 q.1.2 < q.2} :=
    measurableSet_lt (by fun_prop) (by fun_prop)
  have hc : (((expMeasure r).prod (expMeasure r)).prod (expMeasure r)).real
      {q | 2 * min q.1.1 q.1.2 < q.2}ᶜ = 1 / 2 := by
    rw [real_prod_symm hS.compl]
    have e : ∀ᵐ z ∂expMeasure r, ((expMeasure r).prod (expMeasure r)).real
        {p | (p, z) ∈ {q : (ℝ × ℝ) × ℝ | 2 * min q.1.1 q.1.2 < q.2}ᶜ} = Real.exp (-(r * z)) := by
      filter_upwards [ae_pos hr] with z hz
      have : {p : ℝ × ℝ | (p, z) ∈ {q : (ℝ × ℝ) × ℝ | 2 * min q.1.1 q.1.2 < q.2}ᶜ} =
          Set.Ici (z / 2) ×ˢ Set.Ici (z / 2) := by
        ext p
        simp only [Set.mem_compl_iff, Set.mem_ofPred_eq, not_lt, Set.mem_prod, Set.mem_Ici]
        rw [div_le_iff₀ two_pos, div_le_iff₀ two_pos, mul_comm p.1, mul_comm p.2, mul_min_of_nonneg _ _ two_pos.le,
          le_min_iff]
      rw [this, measureReal_prod_prod, real_Ici hr (by positivity), ← Real.exp_add]
      congr 1; ring
    rw [integral_congr_ae e, integral_laplace hr hr.le]
    field_simp
    norm_num
  rw [probReal_compl_eq_one_sub hS] at hc
  linarith

end probabilities

/-! ### Sums over pairs and triples that depend on the pattern of equal indices -/

theorem sum_one_special {f : Fin n → ℝ} {c : ℝ} (i : Fin n) (h : ∀ j, j ≠ i → f j = c) :
    ∑ j, f j = f i + (n - 1) * c := by
  rw [← Finset.add_sum_erase _ _ (Finset.mem_univ i),
    Finset.sum_congr rfl fun j hj => h j (Finset.ne_of_mem_erase hj), Finset.sum_const,
    Finset.card_erase_of_mem (Finset.mem_univ i), Finset.card_univ, Fintype.card_fin, nsmul_eq_mul,
    Nat.cast_sub (by have := i.2; omega)]
  simp

theorem sum_two_special {f : Fin n → ℝ} {c : ℝ} {i k : Fin n} (hik : i ≠ k)
    (h : ∀ j, j ≠ i → j ≠ k → f j = c) : ∑ j, f j = f i + f k + (n - 2) * c := by
  rw [← Finset.add_sum_erase _ _ (Finset.mem_univ i),
    ← Finset.add_sum_erase _ _ (Finset.mem_erase.2 ⟨hik.symm, Finset.mem_univ k⟩),
    Finset.sum_congr rfl fun j hj => h j (Finset.ne_of_mem_erase (Finset.mem_of_mem_erase hj))
      (Finset.ne_of_mem_erase hj), Finset.sum_const,
    Finset.card_erase_of_mem (Finset.mem_erase.2 ⟨hik.symm, Finset.mem_univ k⟩),
    Finset.card_erase_of_mem (Finset.mem_univ i), Finset.card_univ, Fintype.card_fin, nsmul_eq_mul]
  have : 2 ≤ n := by have := i.2; have := k.2; have : (i : ℕ) ≠ k := fun h => hik (Fin.ext h); omega
  rw [Nat.sub_sub, Nat.cast_sub this]
  push_cast
  ring

theorem sum_pairs {F : Fin n → Fin n → ℝ} {a b : ℝ} (ha : ∀ i, F i i = a)
    (hb : ∀ i k, i ≠ k → F i k = b) : ∑ i, ∑ k, F i k = n * a + n * (n - 1) * b := by
  have : ∀ i, ∑ k, F i k = a + (n - 1) * b := fun i => by
    rw [sum_one_special i fun k hk => hb i k hk.symm, ha]
  rw [Finset.sum_congr rfl fun i _ => this i]
  simp
  ring

theorem sum_triples {F : Fin n → Fin n → Fin n → ℝ} {a b c d e : ℝ} (ha : ∀ i, F i i i = a)
    (hb : ∀ k i, k ≠ i → F k i i = b) (hc : ∀ i j, i ≠ j → F i i j = c) (hd : ∀ i j, i ≠ j → F j i j = d)
    (he : ∀ k i j, k ≠ i → k ≠ j → i ≠ j → F k i j = e) :
    ∑ k, ∑ i, ∑ j, F k i j = n * a + n * (n - 1) * (b + c + d) + n * (n - 1) * (n - 2) * e := by
  have : ∀ k, ∑ i, ∑ j, F k i j = (a + (n - 1) * c) + (n - 1) * (d + b + (n - 2) * e) := fun k => by
    rw [sum_one_special (c := d + b + (n - 2) * e) k fun i hi => ?_,
      sum_one_special (c := c) k fun j hj => hc k j hj.symm, ha]
    rw [sum_two_special hi.symm fun j hj1 hj2 => he k i j hi.symm hj1.symm hj2.symm, hd i k hi, hb k i hi.symm]
  rw [Finset.sum_congr rfl fun i _ => this i]
  simp
  ring

/-! ### Counting statistics -/

theorem at_observed (X : Fin n → Ω → ℝ) (ω : Ω) (i : Fin n) : at_ (observed X ω) i = X i ω := by
  simp [at_, observed, List.getD_eq_getElem?_getD]

theorem length_observed (X : Fin n → Ω → ℝ) (ω : Ω) : (observed X ω).length = n := by simp [observed]

open Classical in
theorem indicator_prob [IsProbabilityMeasure P] {A : Set Ω} (hA : MeasurableSet A) :
    Integrable (fun ω => if ω ∈ A then (1 : ℝ) else 0) P ∧
    ∫ ω, (if ω ∈ A then (1 : ℝ) else 0) ∂P = P.real A := by
  have e : (fun ω => if ω ∈ A then (1 : ℝ) else 0) = A.indicator 1 := by
    funext ω; simp [Set.indicator_apply]
  rw [e]
  exact ⟨(integrable_const (1 : ℝ)).indicator hA, integral_indicator_one hA⟩

open Classical in
theorem count_pairs [IsProbabilityMeasure P] {A : Fin n → Fin n → Set Ω} (hA : ∀ i k, MeasurableSet (A i k)) :
    Integrable (fun ω => ∑ i, ∑ k, if ω ∈ A i k then (1 : ℝ) else 0) P ∧
    ∫ ω, ∑ i, ∑ k, (if ω ∈ A i k then (1 : ℝ) else 0) ∂P = ∑ i, ∑ k, P.real (A i k) := by
  have h := fun i k => indicator_prob (P := P) (hA i k)
  refine ⟨integrable_finsetSum _ fun i _ => integrable_finsetSum _ fun k _ => (h i k).1, ?_⟩
  rw [integral_finsetSum _ fun i _ => integrable_finsetSum _ fun k _ => (h i k).1]
  refine Finset.sum_congr rfl fun i _ => ?_
  rw [integral_finsetSum _ fun k _ => (h i k).1]
  exact Finset.sum_congr rfl fun k _ => (h i k).2

open Classical in
theorem count_triples [IsProbabilityMeasure P] {A : Fin n → Fin n → Fin n → Set Ω}
    (hA : ∀ i j k, MeasurableSet (A i j k)) :
    Integrable (fun ω => ∑ i, ∑ j, ∑ k, if ω ∈ A i j k then (1 : ℝ) else 0) P ∧
    ∫ ω, ∑ i, ∑ j, ∑ k, (if ω ∈ A i j k then (1 : ℝ) else 0) ∂P = ∑ i, ∑ j, ∑ k, P.real (A i j k) := by
  have h := fun i => count_pairs (P := P) (hA i)
  refine ⟨integrable_finsetSum _ fun i _ => (h i).1, ?_⟩
  rw [integral_finsetSum _ fun i _ => (h i).1]
  exact Finset.sum_congr rfl fun i _ => (h i).2

/-- **C107**, Deshpande. -/
theorem C107_deshpande (h : ExponentialSample P r X) (hn : 2 ≤ n) {b : ℝ} (hb : 0 ≤ b) :
    HasExpectation P (fun ω => ExpStat.value (.deshpande b) (observed X ω)) (1 / (1 + b)) := by
  classical
  have := h.probability
  have hm := h.measurable
  obtain ⟨A, hAd⟩ : ∃ A : Fin n → Fin n → Set Ω, ∀ i k, A i k = {ω | i ≠ k ∧ b * X k ω < X i ω} :=
    ⟨_, fun _ _ => rfl⟩
  have hA : ∀ i k, MeasurableSet (A i k) := fun i k => by
    by_cases hik : i = k
    · simp [hAd, hik]
    · simpa [hAd, hik] using measurableSet_lt ((hm k).const_mul b) (hm i)
  have hc := count_pairs (P := P) hA
  refine ⟨fun ω => (∑ i, ∑ k, if ω ∈ A i k then (1 : ℝ) else 0) / (n * (n - 1)), ae_of_all _ fun ω => ?_,
    hc.1.div_const _, ?_⟩
  · simp only [ExpStat.value, Exponent.deshpande, length_observed, if_neg (show ¬ n ≤ 1 by omega)]
    congr 2
    simp only [desCount, length_observed, Finset.sum_range, at_observed, Nat.cast_sum, Nat.cast_ite,
      Nat.cast_one, Nat.cast_zero, ne_eq, Fin.val_inj]
    exact Finset.sum_congr rfl fun i _ => Finset.sum_congr rfl fun k _ => if_congr (by rw [hAd]; rfl) rfl rfl
  · rw [integral_div, hc.2, sum_pairs (a := 0) (b := 1 / (1 + b))]
    · have : (2 : ℝ) ≤ n := by exact_mod_cast hn
      have h1 : (n : ℝ) - 1 ≠ 0 := by linarith
      have h0 : (n : ℝ) ≠ 0 := by linarith
      field_simp
      ring
    · intro i; simp [hAd]
    · intro i k hik
      rw [← prob_mul_lt h.rate hb, ← pair_prob h (measurableSet_lt (by fun_prop) (by fun_prop)) hik]
      simp [hAd, hik]

/-- **C107**, Hollander and Proschan. -/
theorem C107_hollanderProschan (h : ExponentialSample P r X) (hn : 3 ≤ n) :
    HasExpectation P (fun ω => ExpStat.value .hollanderProschan (observed X ω)) (1 / 4) := by
  classical
  have := h.probability
  have hm := h.measurable
  obtain ⟨A, hAd⟩ : ∃ A : Fin n → Fin n → Fin n → Set Ω, ∀ i j k, A i j k =
      {ω | (i ≠ j ∧ i ≠ k ∧ j < k) ∧ X j ω + X k ω < X i ω} := ⟨_, fun _ _ _ => rfl⟩
  have hA : ∀ i j k, MeasurableSet (A i j k) := fun i j k => by
    by_cases hik : i ≠ j ∧ i ≠ k ∧ j < k
    · simpa [hAd, hik] using measurableSet_lt ((hm j).add (hm k)) (hm i)
    · simp [hAd, hik]
  have hc := count_triples (P := P) hA
  refine ⟨fun ω => 2 / (n * (n - 1) * (n - 2)) * ∑ i, ∑ j, ∑ k, if ω ∈ A i j k then (1 : ℝ) else 0,
    ae_of_all _ fun ω => ?_, hc.1.const_mul _, ?_⟩
  · simp only [ExpStat.value, Exponent.hollanderProschan, length_observed, if_neg (show ¬ n ≤ 2 by omega)]
    congr 2
    simp only [hpCount, length_observed, Finset.sum_range, at_observed, Nat.cast_sum, Nat.cast_ite,
      Nat.cast_one, Nat.cast_zero, ne_eq, Fin.val_inj, Fin.val_fin_lt]
    refine Finset.sum_congr rfl fun i _ => Finset.sum_congr rfl fun j _ => Finset.sum_congr rfl fun k _ =>
      if_congr ?_ rfl rfl
    simp only [hAd, Set.mem_ofPred_eq, and_assoc, ne_eq]
  · rw [integral_const_mul, hc.2]
    have key : ∀ i j k, i ≠ j → i ≠ k → j ≠ k → P.real {ω | X j ω + X k ω < X i ω} = 1 / 4 := by
      intro i j k h1 h2 h3
      rw [← (prob_add_lt h.rate).1,
        ← triple_prob h (measurableSet_lt (by fun_prop) (by fun_prop)) h3 h1.symm h2.symm]
      rfl
    have hP : ∀ i j k, P.real (A i j k) = if i ≠ j ∧ i ≠ k ∧ j < k then 1 / 4 else 0 := by
      intro i j k
      split_ifs with hc
      · rw [← key i j k hc.1 hc.2.1 hc.2.2.ne]
        simp only [hAd, hc, ne_eq, not_false_eq_true, and_self, true_and]
      · simp [hAd, hc]
    have hsum : 2 * ∑ i : Fin n, ∑ j, ∑ k, P.real (A i j k) = n * (n - 1) * (n - 2) * (1 / 4) := by
      have e : ∀ i : Fin n, 2 * ∑ j, ∑ k, P.real (A i j k) =
          ∑ j, ∑ k, (P.real (A i j k) + P.real (A i k j)) := fun i => by
        rw [two_mul]
        conv_lhs => rw [Finset.sum_comm, ← Finset.sum_comm (f := fun j k => P.real (A i j k))]
        simp only [Finset.sum_add_distrib]
        congr 1
        exact Finset.sum_comm
      rw [Finset.mul_sum, Finset.sum_congr rfl fun i _ => e i,
        sum_triples (a := 0) (b := 0) (c := 0) (d := 0) (e := 1 / 4)]
      · ring
      · intro i; simp [hP]
      · intro k i _; simp [hP]
      · intro i j _; simp [hP]
      · intro i j _; simp [hP]
      · intro i j k h1 h2 h3
        rcases lt_or_gt_of_ne h3 with h4 | h4
        · simp [hP, h1, h2, h4, h4.le]
        · simp [hP, h1, h2, h4, h4.le]
    have : (3 : ℝ) ≤ n := by exact_mod_cast hn
    have h2 : (n : ℝ) - 2 ≠ 0 := by linarith
    have h1 : (n : ℝ) - 1 ≠ 0 := by linarith
    have h0 : (n : ℝ) ≠ 0 := by linarith
    generalize ∑ i : Fin n, ∑ j, ∑ k, P.real (A i j k) = s at hsum
    rw [div_mul_eq_mul_div, hsum]
    field_simp

theorem sample_pos (h : ExponentialSample P r X) (i : Fin n) : ∀ᵐ ω ∂P, 0 < X i ω := by
  have := ae_pos h.rate
  rw [← h.law i] at this
  exact ae_of_ae_map (h.measurable i).aemeasurable this

/-- **C107**, Ahsanullah: the expectation is not zero, but tends to zero. -/
theorem C107_ahsanullah (h : ExponentialSample P r X) (hn : 1 ≤ n) :
    HasExpectation P (fun ω => ExpStat.value .ahsanullah (observed X ω))
      ((4 * n - 1) / (3 * (n : ℝ) ^ 2)) := by
  classical
  have := h.probability
  have hm := h.measurable
  let A : Fin n → Fin n → Fin n → Set Ω := fun k i j => {ω | |X i ω - X j ω| < X k ω}
  let B : Fin n → Fin n → Fin n → Set Ω := fun k i j => {ω | 2 * min (X i ω) (X j ω) < X k ω}
  have hA : ∀ i j k, MeasurableSet (A i j k) := fun i j k => measurableSet_lt (by fun_prop) (by fun_prop)
  have hB : ∀ i j k, MeasurableSet (B i j k) := fun i j k => measurableSet_lt (by fun_prop) (by fun_prop)
  have hcA := count_triples (P := P) hA
  have hcB := count_triples (P := P) hB
  refine ⟨fun ω => ((∑ k, ∑ i, ∑ j, if ω ∈ A k i j then (1 : ℝ) else 0) -
    ∑ k, ∑ i, ∑ j, if ω ∈ B k i j then (1 : ℝ) else 0) / (n : ℝ) ^ 3, ae_of_all _ fun ω => ?_,
    (hcA.1.sub hcB.1).div_const _, ?_⟩
  · simp only [ExpStat.value, Exponent.ahsanullah, length_observed, if_neg (show ¬ n = 0 by omega)]
    congr 2
    simp only [ahsH, ahsG, length_observed, Finset.sum_range, at_observed, Nat.cast_sum, Nat.cast_ite,
      Nat.cast_one, Nat.cast_zero]
    rfl
  · rw [integral_div, integral_sub hcA.1 hcB.1, hcA.2, hcB.2]
    have mul_prob : ∀ {b : ℝ} (_ : 0 ≤ b) {i k : Fin n} (_ : i ≠ k),
        P.real {ω | b * X k ω < X i ω} = 1 / (1 + b) := fun {b} hb {i k} hik => by
      rw [← prob_mul_lt h.rate hb, ← pair_prob h (measurableSet_lt (by fun_prop) (by fun_prop)) hik]
      rfl
    have ae_eq : ∀ {S T : Set Ω}, (∀ᵐ ω ∂P, ω ∈ S ↔ ω ∈ T) → P.real S = P.real T := fun {S T} hST => by
      rw [Measure.real, Measure.real, measure_congr (Filter.eventuallyEq_set.2 hST)]
    have half : ∀ {i j : Fin n}, i ≠ j → P.real {ω | |X i ω - X j ω| < X i ω} = 2 / 3 := fun {i j} hij => by
      rw [ae_eq (T := {ω | 1 / 2 * X j ω < X i ω}), mul_prob (by norm_num) hij]
      · norm_num
      · filter_upwards [sample_pos h i, sample_pos h j] with ω h1 h2
        simp only [abs_lt]
        constructor
        · intro h; linarith [h.1]
        · intro h; constructor <;> linarith
    rw [sum_triples (a := 1) (b := 1) (c := 2 / 3) (d := 2 / 3) (e := 1 / 2) (F := fun k i j => P.real (A k i j)),
      sum_triples (a := 0) (b := 1 / 3) (c := 1 / 3) (d := 1 / 3) (e := 1 / 2) (F := fun k i j => P.real (B k i j))]
    · have : (1 : ℝ) ≤ n := by exact_mod_cast hn
      have h0 : (n : ℝ) ≠ 0 := by linarith
      field_simp
      ring
    · intro i
      rw [ae_eq (T := ∅), measureReal_empty]
      filter_upwards [sample_pos h i] with ω h1
      simp only [B, Set.mem_ofPred_eq, min_self, Set.mem_empty_iff_false, iff_false, not_lt]
      linarith
    · intro k i hki
      simp only [B, min_self]
      rw [mul_prob (by norm_num) hki]; norm_num
    · intro i j hij
      rw [ae_eq (T := {ω | 2 * X j ω < X i ω}), mul_prob (by norm_num) hij]
      · norm_num
      · filter_upwards [sample_pos h i] with ω h1
        simp only [B, Set.mem_ofPred_eq, mul_min_of_nonneg _ _ (zero_le_two (α := ℝ)), min_lt_iff]
        constructor
        · rintro (h | h)
          · linarith
          · exact h
        · exact Or.inr
    · intro i j hij
      rw [ae_eq (T := {ω | 2 * X i ω < X j ω}), mul_prob (by norm_num) hij.symm]
      · norm_num
      · filter_upwards [sample_pos h j] with ω h1
        simp only [B, Set.mem_ofPred_eq, mul_min_of_nonneg _ _ (zero_le_two (α := ℝ)), min_lt_iff]
        constructor
        · rintro (h | h)
          · exact h
          · linarith
        · exact Or.inl
    · intro k i j hki hkj hij
      rw [← prob_min_lt h.rate,
        ← triple_prob h (measurableSet_lt (by fun_prop) (by fun_prop)) hij hki.symm hkj.symm]
      rfl
    · intro i
      rw [ae_eq (T := Set.univ), probReal_univ]
      filter_upwards [sample_pos h i] with ω h1
      simpa [A] using h1
    · intro k i _
      rw [ae_eq (T := Set.univ), probReal_univ]
      filter_upwards [sample_pos h k] with ω h1
      simpa [A] using h1
    · intro i j hij
      exact half hij
    · intro i j hij
      simp only [A, abs_sub_comm (X i _)]
      exact half hij.symm
    · intro k i j hki hkj hij
      have hadd : ∀ {i j k : Fin n}, i ≠ j → i ≠ k → j ≠ k → P.real {ω | X i ω + X j ω ≤ X k ω} = 1 / 4 := by
        intro i j k h1 h2 h3
        rw [← (prob_add_lt h.rate).2,
          ← triple_prob h (measurableSet_le (by fun_prop) (by fun_prop)) h1 h2 h3]
        rfl
      have hcomp : P.real (A k i j)ᶜ = 1 / 4 + 1 / 4 := by
        have e1 := hadd hkj hki hij.symm
        have e2 := hadd hki hkj hij
        rw [← e1]
        nth_rewrite 2 [e1]
        rw [← e2, ae_eq (T := {ω | X k ω + X j ω ≤ X i ω} ∪
          {ω | X k ω + X i ω ≤ X j ω} \ {ω | X k ω + X j ω ≤ X i ω}), measureReal_union]
        · congr 1
          refine ae_eq ?_
          filter_upwards [sample_pos h k] with ω h1
          simp only [Set.mem_sdiff, Set.mem_ofPred_eq, not_le, and_iff_left_iff_imp]
          intro h2; linarith
        · exact Set.disjoint_sdiff_right
        · exact (measurableSet_le (by fun_prop) (by fun_prop)).diff (measurableSet_le (by fun_prop) (by fun_prop))
        · refine ae_of_all _ fun ω => ?_
          rw [Set.union_sdiff_self]
          simp only [A, Set.mem_compl_iff, Set.mem_ofPred_eq, not_lt, Set.mem_union, le_abs]
          constructor
          · rintro (h | h)
            · left; linarith
            · right; linarith
          · rintro (h | h)
            · left; linarith
            · right; linarith
      rw [probReal_compl_eq_one_sub (hA k i j)] at hcomp
      linarith

/-- The hypothesis is met, for every rate and every sample size. -/
theorem exponentialSample_pi (n : ℕ) {r : ℝ} (hr : 0 < r) :
    ExponentialSample (Measure.pi fun _ : Fin n => expMeasure r) r (fun i ω => ω i) := by
  have := isProbabilityMeasure_expMeasure hr
  exact ⟨inferInstance, hr, fun i => measurable_pi_apply i,
    iIndepFun_pi (X := fun _ x => x) fun _ => aemeasurable_id,
    fun i => (measurePreserving_eval (fun _ : Fin n => expMeasure r) i).map_eq⟩

example : HasExpectation (Measure.pi fun _ : Fin 5 => expMeasure 2)
    (fun ω => ExpStat.value .ahsanullah (observed (fun (i : Fin 5) ω => ω i) ω)) (19 / 75) := by
  have := C107_ahsanullah (exponentialSample_pi 5 (by norm_num : (0 : ℝ) < 2)) (by norm_num)
  norm_num at this
  exact this

end Pysatl.Props
