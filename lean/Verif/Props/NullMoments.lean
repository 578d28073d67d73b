import Verif.Props.NullLaw
import Verif.Props.UniformMoments

/-! # C87: expectations of statistics of the transformed sample under the hypothesis -/

namespace Pysatl.Props

open Pysatl.Decision Pysatl.Graph Pysatl.Edf Pysatl.Exponent Pysatl.Normal Pysatl.Uniform
open Pysatl.Spec
open MeasureTheory ProbabilityTheory

/-! ### Double sums -/

/-- The sum of the maxima of all pairs of a sorted list. -/
theorem sum_max_sorted : ∀ {l : List ℝ}, l.Pairwise (· ≤ ·) →
    (l.map fun x => (l.map fun y => max x y).sum).sum =
      (l.mapIdx fun i x => (2 * ((i : ℝ) + 1) - 1) * x).sum
  | [], _ => rfl
  | x :: l, h => by
    have ih := sum_max_sorted (List.pairwise_cons.1 h).2
    have hx := (List.pairwise_cons.1 h).1
    have e1 : (l.map fun y => max x y).sum = l.sum := by
      congr 1
      conv_rhs => rw [← List.map_id l]
      exact List.map_congr_left fun y hy => max_eq_right (hx y hy)
    have e2 : (l.map fun z => ((x :: l).map fun y => max z y).sum) =
        l.map fun z => z + (l.map fun y => max z y).sum :=
      List.map_congr_left fun z hz => by
        rw [List.map_cons, List.sum_cons, max_eq_left (hx z hz)]
    have e3 : ∀ (l : List ℝ) (k : ℝ), (l.mapIdx fun i z => (2 * ((i : ℝ) + k + 1) - 1) * z).sum =
        2 * k * l.sum + (l.mapIdx fun i z => (2 * ((i : ℝ) + 1) - 1) * z).sum := by
      intro l k
      rw [sum_mapIdx, sum_mapIdx, sum_eq_fin, Finset.mul_sum, ← Finset.sum_add_distrib]
      exact Finset.sum_congr rfl fun i _ => by ring
    rw [List.map_cons, List.sum_cons, List.map_cons, List.sum_cons, max_self, e1, e2, List.sum_map_add,
      ih, List.mapIdx_cons, List.sum_cons, List.map_id']
    have := e3 l 1
    push_cast
    rw [this]
    ring

theorem sum_max_sort (l : List ℝ) :
    ((sort l).mapIdx fun i x => (2 * ((i : ℝ) + 1) - 1) * x).sum =
      (l.map fun x => (l.map fun y => max x y).sum).sum := by
  rw [← sum_max_sorted (sort_pairwise l)]
  have hp := sort_perm l
  rw [(hp.map _).sum_eq]
  congr 1
  exact List.map_congr_left fun x _ => (hp.map _).sum_eq

theorem sum_ofFn_pairs {n : ℕ} (v : Fin n → ℝ) (g : ℝ → ℝ → ℝ) :
    ((List.ofFn v).map fun x => ((List.ofFn v).map fun y => g x y).sum).sum = ∑ i, ∑ j, g (v i) (v j) := by
  simp only [List.map_ofFn, List.sum_ofFn, Function.comp_def]

variable {Ω : Type} [MeasurableSpace Ω] {P : Measure Ω} {F : ℝ → ℝ} {n : ℕ} {X : Fin n → Ω → ℝ}
  {μ : Measure ℝ}

/-- The expectation of a sum over all pairs of independent observations with one law. -/
theorem pair_expectation [IsProbabilityMeasure P] [IsProbabilityMeasure μ] (hi : iIndepFun X P)
    (hm : ∀ i, AEMeasurable (X i) P)
    (hl : ∀ i, P.map (X i) = μ) {g : ℝ → ℝ → ℝ}
    (h2 : Integrable (fun p : ℝ × ℝ => g p.1 p.2) (μ.prod μ)) (h1 : Integrable (fun x => g x x) μ) :
    Integrable (fun ω => ∑ i, ∑ j, g (X i ω) (X j ω)) P ∧
    ∫ ω, ∑ i, ∑ j, g (X i ω) (X j ω) ∂P =
      n * ∫ x, g x x ∂μ + n * (n - 1) * ∫ p, g p.1 p.2 ∂(μ.prod μ) := by
  have key : ∀ i j, Integrable (fun ω => g (X i ω) (X j ω)) P ∧
      ∫ ω, g (X i ω) (X j ω) ∂P = if i = j then ∫ x, g x x ∂μ else ∫ p, g p.1 p.2 ∂(μ.prod μ) := by
    intro i j
    split
    · rename_i hij
      subst j
      rw [← hl i] at h1 ⊢
      exact ⟨h1.comp_aemeasurable (hm i), (integral_map (hm i) h1.1).symm⟩
    · rename_i hij
      have hind := (indepFun_iff_map_prod_eq_prod_map_map (hm i) (hm j)).1 (hi.indepFun hij)
      rw [hl, hl] at hind
      rw [← hind] at h2 ⊢
      exact ⟨h2.comp_aemeasurable ((hm i).prodMk (hm j)),
        (integral_map ((hm i).prodMk (hm j)) h2.1).symm⟩
  refine ⟨integrable_finsetSum _ fun i _ => integrable_finsetSum _ fun j _ => (key i j).1, ?_⟩
  rw [integral_finsetSum _ fun i _ => integrable_finsetSum _ fun j _ => (key i j).1]
  have : ∀ i : Fin n, ∫ ω, ∑ j, g (X i ω) (X j ω) ∂P =
      ∫ x, g x x ∂μ + (n - 1) * ∫ p, g p.1 p.2 ∂(μ.prod μ) := fun i => by
    rw [integral_finsetSum _ fun j _ => (key i j).1]
    simp only [(key i _).2]
    rw [Finset.sum_ite, Finset.sum_const, Finset.sum_const]
    have c1 : (Finset.univ.filter fun j => i = j).card = 1 := by
      rw [Finset.card_eq_one]; exact ⟨i, by ext j; simp [eq_comm]⟩
    have c2 : (Finset.univ.filter fun j => ¬ i = j).card = n - 1 := by
      have := Finset.card_filter_add_card_filter_not (s := (Finset.univ : Finset (Fin n))) (fun j => i = j)
      rw [c1] at this
      simp at this
      omega
    have hn : 1 ≤ n := by have := i.2; omega
    rw [c1, c2, one_smul, nsmul_eq_mul, Nat.cast_sub hn, Nat.cast_one]
  simp only [this, Finset.sum_const, Finset.card_univ, Fintype.card_fin, nsmul_eq_mul]
  ring

/-! ### Integrals over the unit square -/

theorem integral_unitLaw (f : ℝ → ℝ) : ∫ x, f x ∂unitLaw = ∫ x in (0 : ℝ)..1, f x := by
  rw [unitLaw_eq, integral_Icc_eq_integral_Ioc, ← intervalIntegral.integral_of_le zero_le_one]

theorem integrable_unitLaw {f : ℝ → ℝ} (h : Continuous f) : Integrable f unitLaw := by
  rw [unitLaw_eq]
  exact h.continuousOn.integrableOn_Icc

theorem unitLaw_prod : unitLaw.prod unitLaw = volume.restrict (Set.Icc (0 : ℝ) 1 ×ˢ Set.Icc (0 : ℝ) 1) := by
  rw [unitLaw_eq, Measure.prod_restrict, Measure.volume_eq_prod]

theorem integrable_square {g : ℝ → ℝ → ℝ} (h : Continuous fun p : ℝ × ℝ => g p.1 p.2) :
    Integrable (fun p : ℝ × ℝ => g p.1 p.2) (unitLaw.prod unitLaw) := by
  rw [unitLaw_prod]
  exact h.continuousOn.integrableOn_compact (isCompact_Icc.prod isCompact_Icc)

theorem integral_square {g : ℝ → ℝ → ℝ} (h : Integrable (fun p : ℝ × ℝ => g p.1 p.2) (unitLaw.prod unitLaw)) :
    ∫ p, g p.1 p.2 ∂(unitLaw.prod unitLaw) = ∫ x in (0 : ℝ)..1, ∫ y in (0 : ℝ)..1, g x y := by
  rw [integral_prod _ h, integral_unitLaw]
  simp only [integral_unitLaw]

theorem integral_max {x : ℝ} (h0 : 0 ≤ x) (h1 : x ≤ 1) : ∫ y in (0 : ℝ)..1, max x y = (1 + x ^ 2) / 2 := by
  have hc : Continuous fun y : ℝ => max x y := by fun_prop
  rw [← intervalIntegral.integral_add_adjacent_intervals (hc.intervalIntegrable 0 x)
    (hc.intervalIntegrable x 1)]
  have e1 : ∫ y in (0 : ℝ)..x, max x y = ∫ y in (0 : ℝ)..x, x :=
    intervalIntegral.integral_congr fun y hy => by
      rw [Set.uIcc_of_le h0] at hy; exact max_eq_left hy.2
  have e2 : ∫ y in x..1, max x y = ∫ y in x..1, y :=
    intervalIntegral.integral_congr fun y hy => by
      rw [Set.uIcc_of_le h1] at hy; exact max_eq_right hy.1
  rw [e1, e2, intervalIntegral.integral_const, integral_id]
  simp only [sub_zero, smul_eq_mul]
  ring

theorem integral_max_max : ∫ p : ℝ × ℝ, max p.1 p.2 ∂(unitLaw.prod unitLaw) = 2 / 3 := by
  rw [integral_square (g := max) (integrable_square (by fun_prop))]
  have : ∫ x in (0 : ℝ)..1, ∫ y in (0 : ℝ)..1, max x y = ∫ x in (0 : ℝ)..1, (1 + x ^ 2) / 2 :=
    intervalIntegral.integral_congr fun x hx => by
      rw [Set.uIcc_of_le zero_le_one] at hx; exact integral_max hx.1 hx.2
  rw [this, intervalIntegral.integral_div, intervalIntegral.integral_add (by simp) (by simp)]
  simp
  norm_num

/-! ### Cramer-von Mises and Watson -/

theorem sum_sq_odd (n : ℕ) (hn : (0 : ℝ) < n) :
    ∑ i : Fin n, ((2 * (((i : ℕ) : ℝ) + 1) - 1) / (2 * (n : ℝ))) ^ 2 = (n : ℝ) / 3 - 1 / (12 * (n : ℝ)) := by
  have key : ∀ m : ℕ, ∑ i ∈ Finset.range m, (2 * ((i : ℝ) + 1) - 1) ^ 2 = m * (4 * (m : ℝ) ^ 2 - 1) / 3 := by
    intro m
    induction m with
    | zero => simp
    | succ m ih => rw [Finset.sum_range_succ, ih]; push_cast; ring
  simp only [div_pow]
  rw [← Finset.sum_div, Fin.sum_univ_eq_sum_range (fun i => (2 * ((i : ℝ) + 1) - 1) ^ 2) n, key]
  field_simp
  ring

/-- The statistic as a sum over all pairs. -/
theorem cvm_pairs {v : Fin n → ℝ} (hn : 0 < n) :
    Edf.cvm (sort (List.ofFn v)) =
      (∑ i, ∑ j, (1 / 3 - max (v i) (v j) + (v i) ^ 2 / 2 + (v j) ^ 2 / 2)) * (n : ℝ)⁻¹ := by
  have hn' : (0 : ℝ) < n := by exact_mod_cast hn
  have hl : (sort (List.ofFn v)).length = n := by rw [(sort_perm _).length_eq, List.length_ofFn]
  have hs := sum_max_sort (List.ofFn v)
  rw [sum_ofFn_pairs v max] at hs
  have hq : ((sort (List.ofFn v)).map fun x => x ^ 2).sum = ∑ i, v i ^ 2 := by
    rw [((sort_perm _).map _).sum_eq, List.map_ofFn, List.sum_ofFn]; rfl
  have e : Edf.cvm (sort (List.ofFn v)) = n / 3 - (∑ i, ∑ j, max (v i) (v j)) * (n : ℝ)⁻¹ + ∑ i, v i ^ 2 := by
    rw [← hs, ← hq]
    generalize sort (List.ofFn v) = s at hl
    subst hl
    unfold Edf.cvm
    rw [sum_mapIdx, sum_mapIdx, sum_eq_fin (s.map _)]
    have hq2 : ∑ i : Fin (s.map fun x => x ^ 2).length, (s.map fun x => x ^ 2)[i] =
        ∑ i : Fin s.length, s[i] ^ 2 := by
      refine Fintype.sum_equiv (finCongr (by simp)) _ _ fun i => by simp
    rw [hq2, Finset.sum_mul]
    have h3 : ∀ i : Fin s.length,
        ((2 * (((i : ℕ) : ℝ) + 1) - 1) / (2 * s.length) - s[i]) ^ 2 =
        ((2 * (((i : ℕ) : ℝ) + 1) - 1) / (2 * s.length)) ^ 2 -
          (2 * (((i : ℕ) : ℝ) + 1) - 1) * s[i] * (s.length : ℝ)⁻¹ + s[i] ^ 2 := fun i => by
      field_simp
      ring
    rw [Finset.sum_congr rfl fun i _ => h3 i, Finset.sum_add_distrib, Finset.sum_sub_distrib,
      sum_sq_odd _ hn']
    ring
  rw [e]
  simp only [Finset.sum_add_distrib, Finset.sum_sub_distrib, Finset.sum_const, Finset.card_univ,
    Fintype.card_fin, nsmul_eq_mul, ← Finset.mul_sum, ← Finset.sum_div]
  field_simp
  ring

theorem kernel_moments :
    (∫ x, ((1 : ℝ) / 3 - max x x + x ^ 2 / 2 + x ^ 2 / 2) ∂unitLaw = 1 / 6) ∧
    (∫ p : ℝ × ℝ, (1 / 3 - max p.1 p.2 + p.1 ^ 2 / 2 + p.2 ^ 2 / 2) ∂(unitLaw.prod unitLaw) = 0) := by
  constructor
  · simp only [max_self]
    rw [integral_unitLaw]
    have : ∀ x : ℝ, (1 : ℝ) / 3 - x + x ^ 2 / 2 + x ^ 2 / 2 = 1 / 3 - x + x ^ 2 := fun x => by ring
    simp only [this]
    rw [intervalIntegral.integral_add (by apply Continuous.intervalIntegrable; fun_prop) (by simp),
      intervalIntegral.integral_sub (by simp) (by apply Continuous.intervalIntegrable; fun_prop)]
    simp
    norm_num
  · have h1 : Integrable (fun p : ℝ × ℝ => max p.1 p.2) (unitLaw.prod unitLaw) :=
      integrable_square (g := max) (by fun_prop)
    have h2 : Integrable (fun p : ℝ × ℝ => p.1 ^ 2 / 2) (unitLaw.prod unitLaw) :=
      integrable_square (g := fun x _ => x ^ 2 / 2) (by fun_prop)
    have h3 : Integrable (fun p : ℝ × ℝ => p.2 ^ 2 / 2) (unitLaw.prod unitLaw) :=
      integrable_square (g := fun _ x => x ^ 2 / 2) (by fun_prop)
    have h0 : Integrable (fun _ : ℝ × ℝ => (1 : ℝ) / 3) (unitLaw.prod unitLaw) := integrable_const _
    have h01 : Integrable (fun p : ℝ × ℝ => 1 / 3 - max p.1 p.2) (unitLaw.prod unitLaw) := h0.sub h1
    have h012 : Integrable (fun p : ℝ × ℝ => 1 / 3 - max p.1 p.2 + p.1 ^ 2 / 2) (unitLaw.prod unitLaw) :=
      h01.add h2
    rw [integral_add h012 h3, integral_add h01 h2, integral_sub h0 h1,
      integral_max_max, integral_square (g := fun x _ => x ^ 2 / 2) h2,
      integral_square (g := fun _ x => x ^ 2 / 2) h3]
    simp
    norm_num

theorem _root_.Pysatl.Spec.UniformSample.cvm_expectation {V : Fin n → Ω → ℝ} (h : UniformSample P 0 1 V)
    (hn : 0 < n) :
    Integrable (fun ω => Edf.cvm (sort (List.ofFn fun i => V i ω))) P ∧
    ∫ ω, Edf.cvm (sort (List.ofFn fun i => V i ω)) ∂P = 1 / 6 := by
  have hn' : (0 : ℝ) < n := by exact_mod_cast hn
  have := h.isProbability zero_lt_one ⟨0, hn⟩
  simp only [fun ω => cvm_pairs (v := fun i => V i ω) hn]
  obtain ⟨h1, h2⟩ := pair_expectation (g := fun x y => 1 / 3 - max x y + x ^ 2 / 2 + y ^ 2 / 2)
    h.indep (fun i => h.aemeasurable zero_lt_one i) (μ := unitLaw) h.law
    (integrable_square (g := fun x y => 1 / 3 - max x y + x ^ 2 / 2 + y ^ 2 / 2) (by fun_prop))
    (integrable_unitLaw (by fun_prop))
  refine ⟨h1.mul_const _, ?_⟩
  rw [integral_mul_const, h2, kernel_moments.1, kernel_moments.2]
  field_simp
  ring

/-- **C87**, Cramer-von Mises: for independent observations with the continuous distribution function
`F` the expectation of the statistic is `1/6`, whatever `F` and the size of the sample. -/
theorem C87_cvm (h : ContinuousSample P F X) (hn : 0 < n) :
    HasExpectation P (fun ω => EdfStat.value F (observed X ω) .cvm) (1 / 6) := by
  refine ⟨fun ω => cvmOf F (observed X ω), .of_forall fun ω => rfl, ?_⟩
  simp only [cvmOf, h.sorted]
  exact h.uniform.cvm_expectation hn

theorem watson_pairs {v : Fin n → ℝ} (hn : 0 < n) :
    watsonBeta (sort (List.ofFn v)) = Edf.cvm (sort (List.ofFn v)) -
      (∑ i, ∑ j, (v i - 1 / 2) * (v j - 1 / 2)) * (n : ℝ)⁻¹ := by
  have hn' : (0 : ℝ) < n := by exact_mod_cast hn
  unfold watsonBeta
  rw [(sort_perm _).length_eq, mean_perm (sort_perm _), List.length_ofFn, mean, List.sum_ofFn, List.length_ofFn]
  simp only [← Finset.mul_sum, ← Finset.sum_mul, Finset.sum_sub_distrib, Finset.sum_const,
    Finset.card_univ, Fintype.card_fin, nsmul_eq_mul]
  generalize ∑ i, v i = t
  field_simp

/-- **C87**, Watson: the expectation of the statistic of the beta, gamma, Student and Weibull families is
`1/12`. -/
theorem C87_watson (h : ContinuousSample P F X) (hn : 0 < n) :
    HasExpectation P (fun ω => EdfStat.value F (observed X ω) .watson) (1 / 12) := by
  have hn' : (0 : ℝ) < n := by exact_mod_cast hn
  have := h.probability
  refine ⟨fun ω => watsonBeta ((sort (observed X ω)).map F), .of_forall fun ω => rfl, ?_⟩
  simp only [h.sorted, fun ω => watson_pairs (v := fun i => F (X i ω)) hn]
  have hu := h.uniform
  obtain ⟨c1, c2⟩ := hu.cvm_expectation hn
  obtain ⟨h1, h2⟩ := pair_expectation (g := fun x y => (x - 1 / 2) * (y - 1 / 2))
    hu.indep (fun i => hu.aemeasurable zero_lt_one i) (μ := unitLaw) hu.law
    (integrable_square (g := fun x y => (x - 1 / 2) * (y - 1 / 2)) (by fun_prop))
    (integrable_unitLaw (by fun_prop))
  refine ⟨c1.sub (h1.mul_const _), ?_⟩
  rw [integral_sub c1 (h1.mul_const _), integral_mul_const, c2, h2]
  have e0 : ∫ x in (0 : ℝ)..1, (x - 1 / 2) = 0 := by
    rw [intervalIntegral.integral_sub (by apply Continuous.intervalIntegrable; fun_prop) (by simp)]
    simp
  have e1 : ∫ x, (x - 1 / 2) * (x - 1 / 2) ∂unitLaw = 1 / 12 := by
    rw [integral_unitLaw]
    have : ∀ x : ℝ, (x - 1 / 2) * (x - 1 / 2) = x ^ 2 - x + 1 / 4 := fun x => by ring
    simp only [this]
    rw [intervalIntegral.integral_add (by apply Continuous.intervalIntegrable; fun_prop) (by simp),
      intervalIntegral.integral_sub (by simp) (by apply Continuous.intervalIntegrable; fun_prop)]
    simp
    norm_num
  have e2 : ∫ p : ℝ × ℝ, (p.1 - 1 / 2) * (p.2 - 1 / 2) ∂(unitLaw.prod unitLaw) = 0 := by
    rw [integral_square (g := fun x y => (x - 1 / 2) * (y - 1 / 2))
      (integrable_square (g := fun x y => (x - 1 / 2) * (y - 1 / 2)) (by fun_prop))]
    simp only [intervalIntegral.integral_const_mul, e0, mul_zero]
    simp
  rw [e1, e2]
  field_simp
  ring

/-! ### Anderson-Darling -/

theorem sum_max_map {s : List ℝ} {n : ℕ} {v : Fin n → ℝ} (hp : s.Perm (List.ofFn v)) {φ : ℝ → ℝ}
    (hs : (s.map φ).Pairwise (· ≤ ·)) :
    ((s.map φ).mapIdx fun i x => (2 * ((i : ℝ) + 1) - 1) * x).sum = ∑ i, ∑ j, max (φ (v i)) (φ (v j)) := by
  rw [← sum_max_sorted hs, ← sum_ofFn_pairs (fun i => φ (v i)) max]
  have hp' : (s.map φ).Perm (List.ofFn fun i => φ (v i)) := by
    have := hp.map φ
    rwa [List.map_ofFn] at this
  rw [(hp'.map _).sum_eq]
  congr 1
  exact List.map_congr_left fun x _ => (hp'.map _).sum_eq

theorem ad_pairs {v : Fin n → ℝ} (h01 : ∀ i, 0 < v i ∧ v i < 1) :
    Edf.ad ((sort (List.ofFn v)).map Real.log) ((sort (List.ofFn v)).map fun x => Real.log (1 - x)) =
      -n - (∑ i, ∑ j, (max (Real.log (v i)) (Real.log (v j)) +
        max (Real.log (1 - v i)) (Real.log (1 - v j)))) * (n : ℝ)⁻¹ := by
  have hp := sort_perm (List.ofFn v)
  have hs := sort_pairwise (List.ofFn v)
  have hmem : ∀ x ∈ sort (List.ofFn v), 0 < x ∧ x < 1 := fun x hx => by
    obtain ⟨i, rfl⟩ := (List.mem_ofFn' _ _).1 (hp.mem_iff.1 hx)
    exact h01 i
  have hl : (sort (List.ofFn v)).length = n := by rw [hp.length_eq, List.length_ofFn]
  generalize sort (List.ofFn v) = s at hp hs hmem hl
  have s1 : (s.map Real.log).Pairwise (· ≤ ·) := by
    rw [List.pairwise_map]
    exact hs.imp_of_mem fun {a b} ha _ hab => Real.log_le_log (hmem a ha).1 hab
  have s2 : (s.reverse.map fun x => Real.log (1 - x)).Pairwise (· ≤ ·) := by
    rw [List.pairwise_map, List.pairwise_reverse]
    exact hs.imp_of_mem fun {a b} _ hb hab =>
      Real.log_le_log (by linarith [(hmem b hb).2]) (by linarith)
  have e1 := sum_max_map hp s1
  have e2 := sum_max_map ((List.reverse_perm s).trans hp) s2
  unfold Edf.ad
  rw [mapIdx_zip_add (fun i : ℕ => (2 * ((i : ℝ) + 1) - 1) / ((s.map Real.log).length : ℝ)),
    ← List.map_reverse, List.length_map, hl]
  simp only [Finset.sum_add_distrib]
  rw [← e1, ← e2]
  have : ((List.zipWith (· + ·) (s.map Real.log) (s.reverse.map fun x => Real.log (1 - x))).mapIdx
      fun i x => (2 * ((i : ℝ) + 1) - 1) / (n : ℝ) * x) =
      List.zipWith (fun x y => (x + y) * (n : ℝ)⁻¹)
        ((s.map Real.log).mapIdx fun i x => (2 * ((i : ℝ) + 1) - 1) * x)
        ((s.reverse.map fun x => Real.log (1 - x)).mapIdx fun i x => (2 * ((i : ℝ) + 1) - 1) * x) :=
    List.ext_getElem (by simp) fun i h1 h2 => by
      simp only [List.getElem_mapIdx, List.getElem_zipWith]
      ring
  rw [this]
  have key : ∀ (l l' : List ℝ) (c : ℝ), l.length = l'.length →
      (List.zipWith (fun x y => (x + y) * c) l l').sum = (l.sum + l'.sum) * c := by
    intro l
    induction l with
    | nil => intro l' c h; rw [List.length_eq_zero_iff.1 h.symm]; simp
    | cons x l ih =>
      intro l' c h
      cases l' with
      | nil => simp at h
      | cons y l' =>
        rw [List.zipWith_cons_cons, List.sum_cons, ih l' c (by simpa using h), List.sum_cons, List.sum_cons]
        ring
  rw [key _ _ _ (by simp)]

theorem integral_max_log {x : ℝ} (h0 : 0 < x) (h1 : x ≤ 1) :
    ∫ y in (0 : ℝ)..1, max (Real.log x) (Real.log y) = x - 1 := by
  have e1 : ∀ y ∈ Set.uIoc 0 x, max (Real.log x) (Real.log y) = Real.log x := fun y hy => by
    rw [Set.uIoc_of_le h0.le] at hy
    exact max_eq_left (Real.log_le_log hy.1 hy.2)
  have e2 : ∀ y ∈ Set.uIcc x 1, max (Real.log x) (Real.log y) = Real.log y := fun y hy => by
    rw [Set.uIcc_of_le h1] at hy
    exact max_eq_right (Real.log_le_log h0 hy.1)
  have i1 : IntervalIntegrable (fun y => max (Real.log x) (Real.log y)) volume 0 x :=
    (intervalIntegrable_const (c := Real.log x)).congr fun y hy => (e1 y hy).symm
  have i2 : IntervalIntegrable (fun y => max (Real.log x) (Real.log y)) volume x 1 :=
    (intervalIntegral.intervalIntegrable_log').congr fun y hy => (e2 y (Set.uIoc_subset_uIcc hy)).symm
  rw [← intervalIntegral.integral_add_adjacent_intervals i1 i2,
    intervalIntegral.integral_congr_ae (.of_forall e1), intervalIntegral.integral_congr e2,
    intervalIntegral.integral_const, integral_log]
  simp
  ring

theorem integrable_log : Integrable Real.log unitLaw := by
  rw [unitLaw_eq]
  have := (intervalIntegral.intervalIntegrable_log' (a := 0) (b := 1)).1
  rwa [← integrableOn_Icc_iff_integrableOn_Ioc] at this

theorem integral_log_unit : ∫ x, Real.log x ∂unitLaw = -1 := by
  rw [integral_unitLaw, integral_log]; simp

theorem integrable_max_log :
    Integrable (fun p : ℝ × ℝ => max (Real.log p.1) (Real.log p.2)) (unitLaw.prod unitLaw) := by
  have h1 : Integrable (fun p : ℝ × ℝ => Real.log p.1) (unitLaw.prod unitLaw) := integrable_log.comp_fst _
  have h2 : Integrable (fun p : ℝ × ℝ => Real.log p.2) (unitLaw.prod unitLaw) := integrable_log.comp_snd _
  exact h1.sup h2

theorem integral_max_log_log :
    ∫ p : ℝ × ℝ, max (Real.log p.1) (Real.log p.2) ∂(unitLaw.prod unitLaw) = -1 / 2 := by
  rw [integral_square (g := fun x y => max (Real.log x) (Real.log y)) integrable_max_log]
  have : ∫ x in (0 : ℝ)..1, ∫ y in (0 : ℝ)..1, max (Real.log x) (Real.log y) =
      ∫ x in (0 : ℝ)..1, (x - 1) :=
    intervalIntegral.integral_congr_ae (.of_forall fun x hx => by
      rw [Set.uIoc_of_le zero_le_one] at hx; exact integral_max_log hx.1 hx.2)
  rw [this, intervalIntegral.integral_sub (by apply Continuous.intervalIntegrable; fun_prop) (by simp)]
  simp
  norm_num

theorem unitLaw_reflect : unitLaw.map (fun x => 1 - x) = unitLaw := by
  have h := (Measure.measurePreserving_sub_left (volume : Measure ℝ) 1).restrict_preimage
    (measurableSet_Icc (a := (0 : ℝ)) (b := 1))
  have e : (fun x : ℝ => 1 - x) ⁻¹' Set.Icc 0 1 = Set.Icc 0 1 := by
    ext x; simp [and_comm]
  rw [e] at h
  rw [unitLaw_eq]
  exact h.map_eq

theorem _root_.Pysatl.Spec.UniformSample.reflect {V : Fin n → Ω → ℝ} (h : UniformSample P 0 1 V) :
    UniformSample P 0 1 fun i ω => 1 - V i ω := by
  have hm : Measurable fun x : ℝ => 1 - x := measurable_const.sub measurable_id
  refine ⟨h.indep.comp (fun _ x => 1 - x) fun _ => hm, fun i => ?_⟩
  have : P.map ((fun x : ℝ => 1 - x) ∘ V i) = unitLaw := by
    rw [← AEMeasurable.map_map_of_aemeasurable hm.aemeasurable (h.aemeasurable zero_lt_one i),
      show P.map (V i) = unitLaw from h.law i, unitLaw_reflect]
  exact this

theorem _root_.Pysatl.Spec.UniformSample.interior {V : Fin n → Ω → ℝ} (h : UniformSample P 0 1 V) :
    ∀ᵐ ω ∂P, ∀ i, 0 < V i ω ∧ V i ω < 1 := by
  refine ae_all_iff.2 fun i => ?_
  have : ∀ᵐ x ∂(P.map (V i)), 0 < x ∧ x < 1 := by
    rw [show P.map (V i) = unitLaw from h.law i, unitLaw_eq, ← Measure.restrict_congr_set Ioo_ae_eq_Icc]
    exact ae_restrict_mem measurableSet_Ioo
  exact ae_of_ae_map (h.aemeasurable zero_lt_one i) this

theorem _root_.Pysatl.Spec.UniformSample.log_expectation {V : Fin n → Ω → ℝ} (h : UniformSample P 0 1 V)
    (hn : 0 < n) :
    Integrable (fun ω => ∑ i, ∑ j, max (Real.log (V i ω)) (Real.log (V j ω))) P ∧
    ∫ ω, ∑ i, ∑ j, max (Real.log (V i ω)) (Real.log (V j ω)) ∂P = -(n * (n + 1) / 2) := by
  have := h.isProbability zero_lt_one ⟨0, hn⟩
  obtain ⟨h1, h2⟩ := pair_expectation (g := fun x y => max (Real.log x) (Real.log y))
    h.indep (fun i => h.aemeasurable zero_lt_one i) (μ := unitLaw) h.law integrable_max_log
    (by simpa using integrable_log)
  refine ⟨h1, ?_⟩
  rw [h2, integral_max_log_log]
  simp only [max_self, integral_log_unit]
  ring

theorem _root_.Pysatl.Spec.UniformSample.ad_expectation {V : Fin n → Ω → ℝ} (h : UniformSample P 0 1 V)
    (hn : 0 < n) :
    Integrable (fun ω => Edf.ad ((sort (List.ofFn fun i => V i ω)).map Real.log)
      ((sort (List.ofFn fun i => V i ω)).map fun x => Real.log (1 - x))) P ∧
    ∫ ω, Edf.ad ((sort (List.ofFn fun i => V i ω)).map Real.log)
      ((sort (List.ofFn fun i => V i ω)).map fun x => Real.log (1 - x)) ∂P = 1 := by
  have hn' : (0 : ℝ) < n := by exact_mod_cast hn
  have := h.isProbability zero_lt_one ⟨0, hn⟩
  have hae := h.interior.mono fun ω hω => ad_pairs (v := fun i => V i ω) hω
  obtain ⟨a1, a2⟩ := h.log_expectation hn
  obtain ⟨b1, b2⟩ := h.reflect.log_expectation hn
  have c1 : Integrable (fun ω => ∑ i, ∑ j, (max (Real.log (V i ω)) (Real.log (V j ω)) +
        max (Real.log (1 - V i ω)) (Real.log (1 - V j ω)))) P := by
    simp only [Finset.sum_add_distrib]
    exact a1.add b1
  have c2 : ∫ ω, ∑ i, ∑ j, (max (Real.log (V i ω)) (Real.log (V j ω)) +
        max (Real.log (1 - V i ω)) (Real.log (1 - V j ω))) ∂P = -(n * (n + 1)) := by
    simp only [Finset.sum_add_distrib]
    rw [integral_add a1 b1, a2, b2]; ring
  have c3 : Integrable (fun _ : Ω => -(n : ℝ)) P := integrable_const _
  refine ⟨(c3.sub (c1.mul_const _)).congr (hae.mono fun ω hω => hω.symm), ?_⟩
  rw [integral_congr_ae hae, integral_sub c3 (c1.mul_const _), integral_mul_const, c2]
  simp
  field_simp
  ring

/-- **C87**, Anderson-Darling: the expectation of the statistic is `1`. -/
theorem C87_ad (h : ContinuousSample P F X) (hn : 0 < n) :
    HasExpectation P (fun ω => EdfStat.value F (observed X ω) .ad) 1 := by
  refine ⟨fun ω => adOf (fun x => Real.log (F x)) (fun x => Real.log (1 - F x)) (observed X ω),
    .of_forall fun ω => rfl, ?_⟩
  have e : ∀ ω, adOf (fun x => Real.log (F x)) (fun x => Real.log (1 - F x)) (observed X ω) =
      Edf.ad ((sort (List.ofFn fun i => F (X i ω))).map Real.log)
        ((sort (List.ofFn fun i => F (X i ω))).map fun x => Real.log (1 - x)) := fun ω => by
    rw [← h.sorted, List.map_map, List.map_map]; rfl
  simp only [e]
  exact h.uniform.ad_expectation hn

/-! ### The uniform family -/

variable {a b : ℝ}

theorem _root_.Pysatl.Spec.UniformSample.unit (h : UniformSample P a b X) (hab : a < b) :
    UniformSample P 0 1 fun i ω => unit a b (X i ω) := by
  have hm : Measurable (Props.unit a b) := (unit_continuous a b).measurable
  refine ⟨h.indep.comp (fun _ => Props.unit a b) fun _ => hm, fun i => ?_⟩
  have hX := h.aemeasurable hab i
  have := h.isProbability hab i
  have hmu : AEMeasurable (fun ω => Props.unit a b (X i ω)) P := hm.comp_aemeasurable hX
  have hpm : IsProbabilityMeasure (P.map fun ω => Props.unit a b (X i ω)) :=
    Measure.isProbabilityMeasure_map hmu
  change P.map (fun ω => Props.unit a b (X i ω)) = unitLaw
  refine Measure.ext fun s hs => ?_
  rw [← ENNReal.toReal_eq_toReal_iff' (measure_ne_top _ _) (measure_ne_top _ _)]
  change (P.map _).real s = unitLaw.real s
  have hind : Measurable (s.indicator fun _ => (1 : ℝ)) := measurable_const.indicator hs
  have := integral_uniform (h.law i) hab hind
  rw [← integral_unitLaw, ← integral_map hmu hind.aestronglyMeasurable, integral_indicator_const _ hs,
    integral_indicator_const _ hs] at this
  simpa using this

theorem uniformCdf_eq (hab : a < b) {x : ℝ} (h : x ∈ Set.Icc a b) : uniformCdf a b x = unit a b x := by
  have : b - a ≠ 0 := (sub_pos.2 hab).ne'
  unfold uniformCdf Props.unit
  split_ifs with h1 h2
  · rw [le_antisymm h1 h.1]; simp
  · rw [le_antisymm h.2 h2]; field_simp
  · rfl

theorem unit_mono (hab : a < b) : Monotone (unit a b) := fun x y h => by
  unfold Props.unit
  exact div_le_div_of_nonneg_right (by linarith) (sub_pos.2 hab).le

theorem sort_observed (hab : a < b) {ω : Ω} (h : ∀ i, X i ω ∈ Set.Icc a b) :
    (sort (observed X ω)).map (uniformCdf a b) = sort (List.ofFn fun i => unit a b (X i ω)) := by
  have e : (sort (observed X ω)).map (uniformCdf a b) = (sort (observed X ω)).map (unit a b) :=
    List.map_congr_left fun x hx => by
      obtain ⟨i, rfl⟩ := (List.mem_ofFn' _ _).1 ((sort_perm _).mem_iff.1 hx)
      exact uniformCdf_eq hab (h i)
  rw [e]
  refine List.Perm.eq_of_pairwise (le := (· ≤ ·)) (fun _ _ _ _ => le_antisymm)
    (map_sorted (unit_mono hab) _) (sort_pairwise _) ?_
  refine ((sort_perm _).map _).trans ?_
  rw [observed, List.map_ofFn]
  exact (sort_perm _).symm

theorem _root_.Pysatl.Spec.UniformSample.mem (h : UniformSample P a b X) (hab : a < b) :
    ∀ᵐ ω ∂P, ∀ i, X i ω ∈ Set.Icc a b := ae_all_iff.2 fun i => uniform_mem (h.law i) hab

/-- **C87**, Cramer-von Mises for the uniform family. -/
theorem C87_uniform_cvm (h : UniformSample P a b X) (hab : a < b) (hn : 0 < n) :
    HasExpectation P (fun ω => UniStat.value .cvm a b (observed X ω)) (1 / 6) := by
  refine ⟨fun ω => Edf.cvm (sort (List.ofFn fun i => unit a b (X i ω))), ?_, (h.unit hab).cvm_expectation hn⟩
  filter_upwards [observed_valid h hab, h.mem hab] with ω hω hmem
  simp only [UniStat.value, hω, bind, Except.bind, sort_observed hab hmem]
  rfl

/-- **C87**, Anderson-Darling for the uniform family. -/
theorem C87_uniform_ad (h : UniformSample P a b X) (hab : a < b) (hn : 0 < n) :
    HasExpectation P (fun ω => UniStat.value .andersonDarling a b (observed X ω)) 1 := by
  refine ⟨fun ω => Edf.ad ((sort (List.ofFn fun i => unit a b (X i ω))).map Real.log)
      ((sort (List.ofFn fun i => unit a b (X i ω))).map fun x => Real.log (1 - x)), ?_,
    (h.unit hab).ad_expectation hn⟩
  filter_upwards [observed_valid h hab, h.mem hab] with ω hω hmem
  simp only [UniStat.value, hω, bind, Except.bind, ← sort_observed hab hmem, List.map_map]
  rfl

/-! ### Stein -/

theorem pairSum_double {g : ℝ → ℝ → ℝ} (hg : ∀ x y, g x y = g y x) : ∀ l : List ℝ,
    (l.map fun x => (l.map fun y => g x y).sum).sum = 2 * pairSum g l + (l.map fun x => g x x).sum
  | [] => by simp [pairSum]
  | x :: l => by
    have ih := pairSum_double hg l
    have e : (l.map fun z => ((x :: l).map fun y => g z y).sum) =
        l.map fun z => g x z + (l.map fun y => g z y).sum :=
      List.map_congr_left fun z _ => by rw [List.map_cons, List.sum_cons, hg z x]
    rw [List.map_cons, List.sum_cons, List.map_cons, List.sum_cons, e, List.sum_map_add, ih, pairSum,
      List.map_cons, List.sum_cons]
    ring

theorem steinU_pairs {v : Fin n → ℝ} (hn : 1 < n) :
    steinU (List.ofFn v) =
      (∑ i, ∑ j, steinKernel (v i) (v j) - ∑ i, steinKernel (v i) (v i)) * ((n : ℝ) * (n - 1))⁻¹ := by
  have h1 := pairSum_double steinKernel_comm (List.ofFn v)
  rw [sum_ofFn_pairs v steinKernel, List.map_ofFn, List.sum_ofFn] at h1
  simp only [Function.comp_def] at h1
  unfold steinU
  simp only [List.length_ofFn, hn, if_true, pairs_sum]
  rw [h1, div_eq_mul_inv]
  ring

theorem steinKernel_continuous : Continuous fun p : ℝ × ℝ => steinKernel p.1 p.2 := by
  unfold steinKernel; fun_prop

theorem steinKernel_mean : ∫ p : ℝ × ℝ, steinKernel p.1 p.2 ∂(unitLaw.prod unitLaw) = 0 := by
  have h1 : Integrable (fun p : ℝ × ℝ => 1 / 3 - max p.1 p.2 + p.1 ^ 2 / 2 + p.2 ^ 2 / 2)
      (unitLaw.prod unitLaw) :=
    integrable_square (g := fun x y => 1 / 3 - max x y + x ^ 2 / 2 + y ^ 2 / 2) (by fun_prop)
  have h2 : Integrable (fun p : ℝ × ℝ => 2 * max p.1 p.2) (unitLaw.prod unitLaw) :=
    integrable_square (g := fun x y => 2 * max x y) (by fun_prop)
  have h3 : Integrable (fun p : ℝ × ℝ => 1 / 3 + p.1 + p.2) (unitLaw.prod unitLaw) :=
    integrable_square (g := fun x y => 1 / 3 + x + y) (by fun_prop)
  have e : ∀ p : ℝ × ℝ, steinKernel p.1 p.2 =
      1 / 3 - max p.1 p.2 + p.1 ^ 2 / 2 + p.2 ^ 2 / 2 + 2 * max p.1 p.2 - (1 / 3 + p.1 + p.2) := fun p => by
    unfold steinKernel; ring
  simp only [e]
  have h12 : Integrable (fun p : ℝ × ℝ => 1 / 3 - max p.1 p.2 + p.1 ^ 2 / 2 + p.2 ^ 2 / 2 + 2 * max p.1 p.2)
      (unitLaw.prod unitLaw) := h1.add h2
  rw [integral_sub h12 h3, integral_add h1 h2, kernel_moments.2, integral_const_mul, integral_max_max,
    integral_square (g := fun x y => 1 / 3 + x + y) h3]
  have : ∀ x : ℝ, ∫ y in (0 : ℝ)..1, (1 / 3 + x + y) = 5 / 6 + x := fun x => by
    rw [intervalIntegral.integral_add (by simp) (by apply Continuous.intervalIntegrable; fun_prop)]
    simp; ring
  simp only [this]
  rw [intervalIntegral.integral_add (by simp) (by apply Continuous.intervalIntegrable; fun_prop)]
  simp
  norm_num

/-- **C87**, Stein: the expectation of the statistic is `0`. -/
theorem C87_stein (h : UniformSample P a b X) (hab : a < b) (hn : 1 < n) :
    HasExpectation P (fun ω => UniStat.value .stein a b (observed X ω)) 0 := by
  have hn' : (1 : ℝ) < n := by exact_mod_cast hn
  have := h.isProbability hab ⟨0, by omega⟩
  have hu := h.unit hab
  refine ⟨fun ω => steinU (standard a b (observed X ω)), ?_, ?_⟩
  · refine (observed_valid h hab).mono fun ω hω => ?_
    simp only [UniStat.value, hω, bind, Except.bind]; rfl
  · simp only [standard_observed, fun ω => steinU_pairs (v := fun i => Props.unit a b (X i ω)) hn]
    obtain ⟨h1, h2⟩ := pair_expectation (g := steinKernel)
      hu.indep (fun i => hu.aemeasurable zero_lt_one i) (μ := unitLaw) hu.law
      (integrable_square steinKernel_continuous)
      (integrable_unitLaw (by unfold steinKernel; fun_prop))
    have hd : ∀ i, Integrable (fun ω => steinKernel (Props.unit a b (X i ω)) (Props.unit a b (X i ω))) P :=
      fun i => integrable_uniform (h.law i) hab (f := fun x => steinKernel x x)
        (by unfold steinKernel; fun_prop)
    have hds := integrable_finsetSum Finset.univ fun i (_ : i ∈ Finset.univ) => hd i
    refine ⟨(h1.sub hds).mul_const _, ?_⟩
    rw [integral_mul_const, integral_sub h1 hds, h2, steinKernel_mean, integral_finsetSum _ fun i _ => hd i]
    have : ∀ i, ∫ ω, steinKernel (Props.unit a b (X i ω)) (Props.unit a b (X i ω)) ∂P =
        ∫ x, steinKernel x x ∂unitLaw := fun i => by
      rw [integral_unitLaw]
      exact integral_uniform (h.law i) hab (f := fun x => steinKernel x x)
        (by unfold steinKernel; fun_prop)
    simp [this]

/-! ### Pearson -/

/-- The number of observations in a set. -/
noncomputable def countIn {n : ℕ} (B : Set ℝ) (v : Fin n → ℝ) : ℝ := ∑ i, B.indicator (fun _ => (1 : ℝ)) (v i)

theorem count_expectation [IsProbabilityMeasure P] [IsProbabilityMeasure μ] (hi : iIndepFun X P)
    (hm : ∀ i, AEMeasurable (X i) P) (hl : ∀ i, P.map (X i) = μ) {B : Set ℝ} (hB : MeasurableSet B) :
    Integrable (fun ω => (countIn B (fun i => X i ω) - n * μ.real B) ^ 2) P ∧
    ∫ ω, (countIn B (fun i => X i ω) - n * μ.real B) ^ 2 ∂P = n * (μ.real B * (1 - μ.real B)) := by
  set q := μ.real B
  set f : ℝ → ℝ := fun x => B.indicator (fun _ => (1 : ℝ)) x - q with hf
  have hind : Integrable (B.indicator fun _ => (1 : ℝ)) μ := (integrable_const 1).indicator hB
  have hfi : Integrable f μ := hind.sub (integrable_const q)
  have e : ∀ ω, (countIn B (fun i => X i ω) - n * q) ^ 2 = ∑ i, ∑ j, f (X i ω) * f (X j ω) := fun ω => by
    rw [← Finset.sum_mul_sum, ← pow_two, hf, Finset.sum_sub_distrib]
    simp [countIn]
  simp only [e]
  have hsq : ∀ x, f x * f x = (1 - 2 * q) * B.indicator (fun _ => (1 : ℝ)) x + q ^ 2 := fun x => by
    by_cases hx : x ∈ B
    · simp only [hf, Set.indicator_of_mem hx]; ring
    · simp only [hf, Set.indicator_of_notMem hx]; ring
  have hdi : Integrable (fun x => f x * f x) μ := by
    simp only [hsq]; exact (hind.const_mul _).add (integrable_const _)
  obtain ⟨h1, h2⟩ := pair_expectation (g := fun x y => f x * f y) hi hm hl (hfi.mul_prod hfi) hdi
  refine ⟨h1, ?_⟩
  have e0 : ∫ x, f x ∂μ = 0 := by
    rw [integral_sub hind (integrable_const q), integral_indicator_const _ hB]
    simp [q]
  rw [h2, integral_prod_mul f f, e0]
  simp only [hsq]
  rw [integral_add (hind.const_mul _) (integrable_const _), integral_const_mul,
    integral_indicator_const _ hB]
  simp only [integral_const, probReal_univ, smul_eq_mul, mul_one, one_mul, mul_zero, add_zero]
  change (n : ℝ) * ((1 - 2 * q) * q + q ^ 2) = _
  ring

/-- The expectation of Pearson's statistic with the bins `B 0, …, B (k - 1)` of positive probability. -/
theorem pearson_expectation [IsProbabilityMeasure P] [IsProbabilityMeasure μ] (hi : iIndepFun X P)
    (hm : ∀ i, AEMeasurable (X i) P) (hl : ∀ i, P.map (X i) = μ) (hn : 0 < n) {k : ℕ} {B : ℕ → Set ℝ}
    (hB : ∀ j, MeasurableSet (B j)) (hpos : ∀ j < k, 0 < μ.real (B j))
    (h1 : ∑ j ∈ Finset.range k, μ.real (B j) = 1) :
    Integrable (fun ω => ∑ j ∈ Finset.range k,
      (countIn (B j) (fun i => X i ω) - n * μ.real (B j)) ^ 2 / (n * μ.real (B j))) P ∧
    ∫ ω, ∑ j ∈ Finset.range k,
      (countIn (B j) (fun i => X i ω) - n * μ.real (B j)) ^ 2 / (n * μ.real (B j)) ∂P = (k : ℝ) - 1 := by
  have hn' : (0 : ℝ) < n := by exact_mod_cast hn
  have key := fun j => count_expectation hi hm hl (hB j)
  have hint : ∀ j, Integrable (fun ω =>
      (countIn (B j) (fun i => X i ω) - n * μ.real (B j)) ^ 2 / (n * μ.real (B j))) P :=
    fun j => (key j).1.div_const _
  refine ⟨integrable_finsetSum _ fun j _ => hint j, ?_⟩
  rw [integral_finsetSum _ fun j _ => hint j]
  have : ∀ j ∈ Finset.range k, ∫ ω,
      (countIn (B j) (fun i => X i ω) - n * μ.real (B j)) ^ 2 / (n * μ.real (B j)) ∂P = 1 - μ.real (B j) := by
    intro j hj
    have := hpos j (Finset.mem_range.1 hj)
    rw [integral_div, (key j).2]
    field_simp
  rw [Finset.sum_congr rfl this, Finset.sum_sub_distrib, h1]
  simp

/-- The `j`-th bin of `np.histogram` with the given edges. -/
def bin (edges : List ℝ) (j : ℕ) : Set ℝ :=
  {x | edges.getD j 0 ≤ x ∧
    if j + 2 = edges.length then x ≤ edges.getD (j + 1) 0 else x < edges.getD (j + 1) 0}

theorem bin_measurable (edges : List ℝ) (j : ℕ) : MeasurableSet (bin edges j) := by
  unfold bin
  split_ifs
  · exact measurableSet_Icc
  · exact measurableSet_Ico

theorem countIn_ofFn {v : Fin n → ℝ} {B : Set ℝ} {p : ℝ → Bool} (h : ∀ x, p x = true ↔ x ∈ B) :
    (((List.ofFn v).countP p : ℕ) : ℝ) = countIn B v := by
  have : ∀ l : List ℝ, ((l.countP p : ℕ) : ℝ) = (l.map (B.indicator fun _ => (1 : ℝ))).sum := by
    intro l
    induction l with
    | nil => simp
    | cons x l ih =>
      rw [List.countP_cons, Nat.cast_add, ih, List.map_cons, List.sum_cons, add_comm]
      by_cases hx : x ∈ B
      · rw [if_pos ((h x).2 hx), Set.indicator_of_mem hx]; simp
      · rw [if_neg fun hp => hx ((h x).1 hp), Set.indicator_of_notMem hx]; simp
  rw [this, List.map_ofFn, List.sum_ofFn]
  rfl

theorem histogram_ofFn {v : Fin n → ℝ} : ∀ edges : List ℝ,
    (histogram edges (List.ofFn v)).map (fun c : ℕ => (c : ℝ)) =
      (List.range (edges.length - 1)).map fun j => countIn (bin edges j) v
  | [] => rfl
  | [_] => rfl
  | e :: e' :: es => by
    have ih := histogram_ofFn (v := v) (e' :: es)
    rw [histogram, List.map_cons, ih]
    have hl : (e :: e' :: es).length - 1 = es.length + 1 := by simp
    rw [hl, List.range_succ_eq_map, List.map_cons, List.map_map]
    congr 1
    · refine countIn_ofFn fun x => ?_
      unfold bin
      cases es <;> simp
    · have hl' : (e' :: es).length - 1 = es.length := by simp
      rw [hl']
      refine List.map_congr_left fun j _ => ?_
      congr 1
      unfold bin
      simp

theorem zipWith_range (f : ℝ → ℝ → ℝ) (g : ℕ → ℝ) (c : ℝ) (k : ℕ) :
    List.zipWith f ((List.range k).map g) (List.replicate k c) = (List.range k).map fun j => f (g j) c :=
  List.ext_getElem (by simp) fun i h1 h2 => by simp

theorem unif_real {a b c d : ℝ} (hab : a < b)
    (hac : a ≤ c) (hcd : c ≤ d) (hdb : d ≤ b) {B : Set ℝ} (h1 : Set.Ico c d ⊆ B) (h2 : B ⊆ Set.Icc c d) :
    (volume[|Set.Icc a b]).real B = (d - c) / (b - a) := by
  have hpos := sub_pos.2 hab
  have hB : (volume.restrict (Set.Icc a b)) B = ENNReal.ofReal (d - c) := by
    refine le_antisymm ?_ ?_
    · refine (measure_mono h2).trans ?_
      refine (Measure.restrict_apply_le _ _).trans ?_
      rw [Real.volume_Icc]
    · have h3 : (volume.restrict (Set.Icc a b)) (Set.Ico c d) = ENNReal.ofReal (d - c) := by
        rw [Measure.restrict_apply measurableSet_Ico,
          Set.inter_eq_left.2 (show Set.Ico c d ⊆ Set.Icc a b from fun x hx =>
            ⟨hac.trans hx.1, hx.2.le.trans hdb⟩), Real.volume_Ico]
      rw [← h3]
      exact measure_mono h1
  rw [ProbabilityTheory.cond, measureReal_def, Measure.smul_apply, hB, Real.volume_Icc, smul_eq_mul,
    ENNReal.toReal_mul, ENNReal.toReal_inv, ENNReal.toReal_ofReal hpos.le,
    ENNReal.toReal_ofReal (sub_nonneg.2 hcd)]
  field_simp

/-- **C87**, Pearson: the expectation of the statistic with `k ≥ 2` bins is `k - 1`. -/
theorem C87_pearson (h : UniformSample P a b X) (hab : a < b) (hn : 0 < n) {k : ℕ} (hk : 2 ≤ k) :
    HasExpectation P (fun ω => UniStat.value (.chi2 1 (.count k)) a b (observed X ω)) ((k : ℝ) - 1) := by
  have hn' : (0 : ℝ) < n := by exact_mod_cast hn
  have hk' : (0 : ℝ) < k := by exact_mod_cast (by omega : 0 < k)
  have hpos := sub_pos.2 hab
  have hP := h.isProbability hab ⟨0, hn⟩
  have hprob : IsProbabilityMeasure (volume[|Set.Icc a b]) :=
    cond_isProbabilityMeasure_of_finite (volume_Icc_ne hab).1 (volume_Icc_ne hab).2
  have hlen : (equalEdges a b k).length = k + 1 := by simp [equalEdges]
  have hedge : ∀ j ≤ k, (equalEdges a b k).getD j 0 = a + j * ((b - a) / k) := fun j hj => by
    unfold equalEdges
    rw [List.getD_eq_getElem _ _ (by simp; omega)]
    simp
  have hreal : ∀ j < k, (volume[|Set.Icc a b]).real (bin (equalEdges a b k) j) = 1 / k := by
    intro j hj
    have hj' : ((j : ℝ) + 1) ≤ k := by exact_mod_cast hj
    have hw : 0 < (b - a) / k := div_pos hpos hk'
    have e1 := hedge j hj.le
    have e2 := hedge (j + 1) hj
    rw [unif_real (c := a + j * ((b - a) / k)) (d := a + (j + 1) * ((b - a) / k)) hab ?_ ?_ ?_ ?_ ?_]
    · field_simp
      ring
    · have : 0 ≤ (j : ℝ) * ((b - a) / k) := by positivity
      linarith
    · nlinarith
    · have : ((j : ℝ) + 1) * ((b - a) / k) ≤ k * ((b - a) / k) := mul_le_mul_of_nonneg_right hj' hw.le
      rw [mul_div_cancel₀ _ hk'.ne'] at this
      linarith
    · intro x hx
      unfold bin
      rw [e1, e2]
      push_cast
      refine ⟨hx.1, ?_⟩
      split
      · exact hx.2.le
      · exact hx.2
    · intro x hx
      unfold bin at hx
      rw [e1, e2] at hx
      push_cast at hx
      refine ⟨hx.1, ?_⟩
      have h2 := hx.2
      split at h2
      · exact h2
      · exact h2.le
  have hsum : ∑ j ∈ Finset.range k, (volume[|Set.Icc a b]).real (bin (equalEdges a b k) j) = 1 := by
    rw [Finset.sum_congr rfl fun j hj => hreal j (Finset.mem_range.1 hj)]
    simp [hk'.ne']
  obtain ⟨i1, i2⟩ := pearson_expectation (μ := volume[|Set.Icc a b]) h.indep
    (fun i => h.aemeasurable hab i) h.law hn (k := k)
    (fun j => bin_measurable (equalEdges a b k) j)
    (fun j hj => by rw [hreal j hj]; positivity) hsum
  refine ⟨_, ?_, i1, i2⟩
  refine (observed_valid h hab).mono fun ω hω => ?_
  have hmax : (max (2 : ℤ) k).toNat = k := by
    rw [max_eq_right (by exact_mod_cast hk)]; simp
  simp only [UniStat.value, hω, bind, Except.bind, Uniform.chi2, numBins, hmax, powerDivergence, if_true,
    pure, Except.pure, pearson]
  congr 1
  rw [observed, histogram_ofFn, hlen, Nat.add_sub_cancel, zipWith_range, sum_list_range, List.length_ofFn]
  refine Finset.sum_congr rfl fun j hj => ?_
  rw [hreal j (Finset.mem_range.1 hj)]
  ring_nf

/-! ### The hypotheses are met -/

/-- Independent observations with any law whose distribution function is continuous. -/
theorem continuousSample_pi (n : ℕ) (μ : Measure ℝ) [IsProbabilityMeasure μ] (h : Continuous (cdf μ)) :
    ContinuousSample (Measure.pi fun _ : Fin n => μ) (cdf μ) (fun i ω => ω i) := by
  refine ⟨inferInstance, fun i => measurable_pi_apply i,
    iIndepFun_pi (X := fun _ x => x) fun _ => aemeasurable_id, h, fun i x => ?_⟩
  have := (measurePreserving_eval (fun _ : Fin n => μ) i).map_eq
  rw [cdf_eq_real]
  conv_rhs => rw [← this]
  rw [map_measureReal_apply (measurable_pi_apply i) measurableSet_Iic]
  rfl

/-- Independent uniform observations. -/
theorem uniformSample_pi (n : ℕ) {a b : ℝ} (hab : a < b) :
    UniformSample (Measure.pi fun _ : Fin n => volume[|Set.Icc a b]) a b (fun i ω => ω i) := by
  have hprob : IsProbabilityMeasure (volume[|Set.Icc a b]) :=
    cond_isProbabilityMeasure_of_finite (volume_Icc_ne hab).1 (volume_Icc_ne hab).2
  exact ⟨iIndepFun_pi (X := fun _ x => x) fun _ => aemeasurable_id,
    fun i => (measurePreserving_eval (fun _ : Fin n => volume[|Set.Icc a b]) i).map_eq⟩

example : ∃ P : Measure (Fin 5 → ℝ), ContinuousSample P (cdf unitLaw) (fun (i : Fin 5) ω => ω i) :=
  ⟨_, continuousSample_pi 5 unitLaw (by
    have : (cdf unitLaw : ℝ → ℝ) = fun u => max 0 (min u 1) := funext cdf_unitLaw
    rw [this]; fun_prop)⟩

example : ∃ P : Measure (Fin 5 → ℝ),
    HasExpectation P (fun ω => UniStat.value (.neyman 4) 2 7 (observed (fun (i : Fin 5) ω => ω i) ω)) 4 := by
  have := C87_neyman (uniformSample_pi 5 (by norm_num : (2 : ℝ) < 7)) (by norm_num) (by norm_num) 4
  exact ⟨_, by exact_mod_cast this⟩

end Pysatl.Props
