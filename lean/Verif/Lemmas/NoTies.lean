import Verif.Lemmas.ListMeasurable
import Verif.Spec.Laws
import Verif.Props.NormalShape
import Mathlib.MeasureTheory.Constructions.Pi
import Mathlib.MeasureTheory.Measure.Prod

/-! # Null sets of independent observations of a law without atoms -/

namespace Pysatl.Props

open Pysatl.Decision Pysatl.Graph Pysatl.Edf Pysatl.Exponent Pysatl.Normal
open Pysatl.Spec
open MeasureTheory

variable {μ : Measure ℝ} [IsProbabilityMeasure μ]

/-- A set with null slices along one coordinate is null. -/
theorem pi_null_of_slices {N : ℕ} (k : Fin (N + 1)) {E : Set (Fin (N + 1) → ℝ)} (hE : MeasurableSet E)
    (h : ∀ᵐ y ∂(Measure.pi fun _ : Fin N => μ), μ {t | k.insertNth t y ∈ E} = 0) :
    (Measure.pi fun _ : Fin (N + 1) => μ) E = 0 := by
  have hp := (measurePreserving_piFinSuccAbove (fun _ : Fin (N + 1) => μ) k).symm
  rw [← hp.measure_preimage hE.nullMeasurableSet, Measure.prod_apply_symm (hp.measurable hE)]
  rw [lintegral_eq_zero_iff (measurable_measure_prodMk_right (hp.measurable hE))]
  filter_upwards [h] with y hy
  exact hy

variable [NullSingletonClass μ]

/-- A hyperplane is null. -/
theorem hyperplane_null {N : ℕ} {c : Fin N → ℝ} {k : Fin N} (hk : c k ≠ 0) (d : ℝ) :
    (Measure.pi fun _ : Fin N => μ) {x | ∑ i, c i * x i = d} = 0 := by
  cases N with
  | zero => exact k.elim0
  | succ N =>
    refine pi_null_of_slices k (measurableSet_eq_fun (by fun_prop) measurable_const) (.of_forall fun y => ?_)
    refine measure_mono_null (t := {(d - ∑ i, c (k.succAbove i) * y i) / c k}) (fun t ht => ?_) (measure_singleton _)
    simp only [Set.mem_ofPred_eq, Fin.sum_univ_succAbove _ k, Fin.insertNth_apply_same,
      Fin.insertNth_apply_succAbove] at ht
    rw [Set.mem_singleton_iff, eq_div_iff hk]
    linarith

/-- The observations are distinct. -/
theorem ae_injective {N : ℕ} : ∀ᵐ x ∂(Measure.pi fun _ : Fin N => μ), Function.Injective x := by
  have : ∀ i j : Fin N, i ≠ j → ∀ᵐ x ∂(Measure.pi fun _ : Fin N => μ), x i ≠ x j := by
    intro i j hij
    have := hyperplane_null (μ := μ) (c := fun l => if l = i then 1 else if l = j then -1 else 0) (k := i) (by simp) 0
    refine measure_mono_null (fun x hx => ?_) this
    simp only [Set.mem_compl_iff, Set.mem_ofPred_eq, not_not] at hx ⊢
    have e : ∀ l, (if l = i then (1 : ℝ) else if l = j then -1 else 0) * x l =
        (if l = i then x l else 0) - if l = j then x l else 0 := by
      intro l
      by_cases h1 : l = i
      · simp [h1, hij]
      · by_cases h2 : l = j <;> simp [h1, h2, hij.symm]
    simp only [e, Finset.sum_sub_distrib, Finset.sum_ite_eq', Finset.mem_univ, if_true, hx, sub_self]
  have h' : ∀ᵐ x ∂(Measure.pi fun _ : Fin N => μ), ∀ i j : Fin N, i ≠ j → x i ≠ x j := by
    simp only [ae_all_iff]
    exact this
  filter_upwards [h'] with x hx i j hij
  by_contra hne
  exact hx i j hne hij

/-- A quadric `(∑ c x)² = K ∑ (x - mean)²` is null. -/
theorem quadric_null {N : ℕ} (hN : 3 ≤ N) {c : Fin N → ℝ} {K : ℝ} (hc : (∃ k, c k ≠ 0) ∨ K ≠ 0) :
    (Measure.pi fun _ : Fin N => μ)
      {x | (∑ i, c i * x i) ^ 2 = K * (∑ i, x i ^ 2 - (∑ i, x i) ^ 2 / N)} = 0 := by
  obtain ⟨N, rfl⟩ : ∃ M, N = M + 1 := ⟨N - 1, by omega⟩
  have hN0 : ((N + 1 : ℕ) : ℝ) ≠ 0 := by positivity
  have hmeas : MeasurableSet {x : Fin (N + 1) → ℝ | (∑ i, c i * x i) ^ 2 =
      K * (∑ i, x i ^ 2 - (∑ i, x i) ^ 2 / (N + 1 : ℕ))} :=
    measurableSet_eq_fun (by fun_prop) (by fun_prop)
  -- the roots of a quadratic
  have roots : ∀ A L C : ℝ, A ≠ 0 ∨ L ≠ 0 → μ {t | A * t ^ 2 + L * t + C = 0} = 0 := by
    intro A L C h
    refine Set.Finite.measure_zero ?_ μ
    by_cases hA : A = 0
    · have hL : L ≠ 0 := h.resolve_left (not_not.2 hA)
      refine (Set.finite_singleton (-C / L)).subset fun t ht => ?_
      simp only [Set.mem_ofPred_eq, hA] at ht
      rw [Set.mem_singleton_iff, eq_div_iff hL]
      linarith
    · refine (Set.Finite.insert ((-L + √(discrim A L C)) / (2 * A))
        (Set.finite_singleton ((-L - √(discrim A L C)) / (2 * A)))).subset fun t ht => ?_
      have ht' : A * (t * t) + L * t + C = 0 := by
        simp only [Set.mem_ofPred_eq] at ht; linarith
      have hd : 0 ≤ discrim A L C := by
        rw [discrim_eq_sq_of_quadratic_eq_zero ht']; positivity
      have := (quadratic_eq_zero_iff hA (Real.mul_self_sqrt hd).symm t).1 ht'
      simpa using this
  -- the slice
  have slice : ∀ (k : Fin (N + 1)) (y : Fin N → ℝ),
      (c k ^ 2 - K * (1 - 1 / (N + 1 : ℕ)) ≠ 0 ∨
        ∑ j, (2 * (c k * c (k.succAbove j) + K / (N + 1 : ℕ))) * y j ≠ 0) →
      μ {t | k.insertNth t y ∈ {x : Fin (N + 1) → ℝ | (∑ i, c i * x i) ^ 2 =
        K * (∑ i, x i ^ 2 - (∑ i, x i) ^ 2 / (N + 1 : ℕ))}} = 0 := by
    intro k y h
    refine measure_mono_null (fun t ht => ?_) (roots _ _
      ((∑ j, c (k.succAbove j) * y j) ^ 2 - K * (∑ j, y j ^ 2 - (∑ j, y j) ^ 2 / (N + 1 : ℕ))) h)
    simp only [Set.mem_ofPred_eq, Fin.sum_univ_succAbove _ k, Fin.insertNth_apply_same,
      Fin.insertNth_apply_succAbove] at ht ⊢
    have e : ∑ j, (2 * (c k * c (k.succAbove j) + K / (N + 1 : ℕ))) * y j =
        2 * c k * (∑ j, c (k.succAbove j) * y j) + 2 * K / (N + 1 : ℕ) * ∑ j, y j := by
      rw [Finset.mul_sum, Finset.mul_sum, ← Finset.sum_add_distrib]
      exact Finset.sum_congr rfl fun j _ => by ring
    rw [e]
    generalize (∑ j, c (k.succAbove j) * y j) = u at ht ⊢
    generalize (∑ j, y j) = w at ht ⊢
    generalize (∑ j, y j ^ 2) = q at ht ⊢
    generalize ((N + 1 : ℕ) : ℝ) = n at *
    field_simp at ht ⊢
    linarith
  by_cases hA : ∃ k, c k ^ 2 - K * (1 - 1 / (N + 1 : ℕ)) ≠ 0
  · obtain ⟨k, hk⟩ := hA
    exact pi_null_of_slices k hmeas (.of_forall fun y => slice k y (.inl hk))
  · push Not at hA
    have hpair : ∃ (k : Fin (N + 1)) (j : Fin N), c k * c (k.succAbove j) + K / (N + 1 : ℕ) ≠ 0 := by
      by_contra hcon
      push Not at hcon
      have hpair : ∀ i k, i ≠ k → c k * c i = -(K / (N + 1 : ℕ)) := by
        intro i k hik
        obtain ⟨j, rfl⟩ := Fin.exists_succAbove_eq hik
        linarith [hcon k j]
      have hn1 : (0 : ℝ) < 1 - 1 / (N + 1 : ℕ) := by
        have : (3 : ℝ) ≤ (N + 1 : ℕ) := by exact_mod_cast hN
        rw [sub_pos, div_lt_one (by linarith)]; linarith
      have hKpos : 0 < K := by
        rcases lt_trichotomy K 0 with h | h | h
        · have := hA 0
          nlinarith [sq_nonneg (c 0)]
        · rcases hc with ⟨k, hk⟩ | h'
          · have := hA k
            rw [h, zero_mul, sub_zero] at this
            exact absurd (pow_eq_zero_iff (two_ne_zero)|>.1 this) hk
          · exact absurd h h'
        · exact h
      have hneg : ∀ i k, i ≠ k → c k * c i < 0 := fun i k h => by
        rw [hpair i k h]
        exact neg_neg_of_pos (div_pos hKpos (by positivity))
      have i0 : (⟨0, by omega⟩ : Fin (N + 1)) ≠ ⟨1, by omega⟩ := by simp
      have i1 : (⟨1, by omega⟩ : Fin (N + 1)) ≠ ⟨2, by omega⟩ := by simp
      have i2 : (⟨0, by omega⟩ : Fin (N + 1)) ≠ ⟨2, by omega⟩ := by simp
      have h0 := hneg _ _ i0
      have h1 := hneg _ _ i1
      have h2 := hneg _ _ i2
      generalize c ⟨0, by omega⟩ = a at *
      generalize c ⟨1, by omega⟩ = b at *
      generalize c ⟨2, by omega⟩ = d at *
      have := mul_pos_of_neg_of_neg h0 h1
      nlinarith [sq_nonneg b]
    obtain ⟨k, j, hkj⟩ := hpair
    refine pi_null_of_slices k hmeas ?_
    have := hyperplane_null (μ := μ) (c := fun j => 2 * (c k * c (k.succAbove j) + K / (N + 1 : ℕ))) (k := j)
      (mul_ne_zero two_ne_zero hkj) 0
    have h' : ∀ᵐ y ∂(Measure.pi fun _ : Fin N => μ),
        ∑ j, (2 * (c k * c (k.succAbove j) + K / (N + 1 : ℕ))) * y j ≠ 0 := by
      refine measure_mono_null (fun y hy => ?_) this
      simpa using hy
    filter_upwards [h'] with y hy
    exact slice k y (.inr hy)

/-! ### Linear combinations of order statistics -/

theorem dot_ofFn {N : ℕ} (c : ℕ → ℝ) (v : Fin N → ℝ) : dot c (List.ofFn v) = ∑ i : Fin N, c i * v i := by
  unfold dot
  rw [← List.sum_ofFn]
  congr 1
  exact List.ext_getElem (by simp) fun i h1 h2 => by simp

theorem exists_sort_perm {N : ℕ} (x : Fin N → ℝ) : ∃ σ : Equiv.Perm (Fin N), sort (List.ofFn x) = List.ofFn (x ∘ σ) :=
  ⟨Tuple.sort x, sort_ofFn (Tuple.monotone_sort x)⟩

theorem dot_sort_ofFn {N : ℕ} (c : ℕ → ℝ) (x : Fin N → ℝ) : ∃ σ : Equiv.Perm (Fin N),
    dot c (sort (List.ofFn x)) = ∑ i : Fin N, c (σ.symm i) * x i := by
  obtain ⟨σ, hσ⟩ := exists_sort_perm x
  refine ⟨σ, ?_⟩
  rw [hσ, dot_ofFn, ← Equiv.sum_comp σ (fun i => c (σ.symm i) * x i)]
  simp

/-- A nontrivial linear combination of the order statistics takes no value with positive probability. -/
theorem dot_null {N : ℕ} {c : ℕ → ℝ} {k : ℕ} (hkN : k < N) (hk : c k ≠ 0) (d : ℝ) :
    (Measure.pi fun _ : Fin N => μ) {x | dot c (sort (List.ofFn x)) = d} = 0 := by
  refine measure_mono_null (t := ⋃ σ : Equiv.Perm (Fin N), {x | ∑ i : Fin N, c (σ.symm i) * x i = d})
    (fun x hx => ?_) (measure_iUnion_null fun σ => ?_)
  · obtain ⟨σ, hσ⟩ := dot_sort_ofFn c x
    exact Set.mem_iUnion.2 ⟨σ, hσ.symm.trans hx⟩
  · exact hyperplane_null (c := fun i => c (σ.symm i)) (k := σ ⟨k, hkN⟩) (by simpa using hk) d

theorem sumsq_eq (l : List ℝ) : (l.map fun x => (x - mean l) ^ 2).sum =
    (l.map fun x => x ^ 2).sum - l.sum ^ 2 / l.length := by
  have key : ∀ (l : List ℝ) (m : ℝ), (l.map fun x => (x - m) ^ 2).sum =
      (l.map fun x => x ^ 2).sum - 2 * m * l.sum + l.length * m ^ 2 := by
    intro l m
    induction l with
    | nil => simp
    | cons a l ih =>
      simp only [List.map_cons, List.sum_cons, List.length_cons, ih]
      push_cast
      ring
  rw [key, mean]
  by_cases h : (l.length : ℝ) = 0
  · have : l = [] := List.length_eq_zero_iff.1 (by exact_mod_cast h)
    simp [this]
  · field_simp
    ring

/-- No quotient of a linear combination of the order statistics by the standard deviation takes a value with
positive probability. -/
theorem dot_quadric_null {N : ℕ} (hN : 3 ≤ N) {c : ℕ → ℝ} {K : ℝ} (hc : (∃ k < N, c k ≠ 0) ∨ K ≠ 0) :
    (Measure.pi fun _ : Fin N => μ) {x | dot c (sort (List.ofFn x)) ^ 2 =
      K * ((List.ofFn x).map fun t => (t - mean (List.ofFn x)) ^ 2).sum} = 0 := by
  refine measure_mono_null (t := ⋃ σ : Equiv.Perm (Fin N), {x | (∑ i : Fin N, c (σ.symm i) * x i) ^ 2 =
    K * (∑ i, x i ^ 2 - (∑ i, x i) ^ 2 / N)}) (fun x hx => ?_) (measure_iUnion_null fun σ => ?_)
  · obtain ⟨σ, hσ⟩ := dot_sort_ofFn c x
    refine Set.mem_iUnion.2 ⟨σ, ?_⟩
    simp only [Set.mem_ofPred_eq] at hx ⊢
    rw [sumsq_eq] at hx
    simp only [List.map_ofFn, List.sum_ofFn, List.length_ofFn, Function.comp_def] at hx
    rw [← hσ, hx]
  · refine quadric_null (c := fun i => c (σ.symm i)) hN ?_
    rcases hc with ⟨k, hkN, hk⟩ | hK
    · exact .inl ⟨σ ⟨k, hkN⟩, by simpa using hk⟩
    · exact .inr hK

theorem dot_ofFn_zero (l : List ℝ) : dot (fun _ => 0) l = 0 := by
  have : ∀ m : ℕ, (List.replicate m (0 : ℝ)).sum = 0 := fun m => by simp
  unfold dot
  rw [show (l.mapIdx fun _ x => (0 : ℝ) * x) = List.replicate l.length 0 from
    List.ext_getElem (by simp) fun i h1 h2 => by simp, this]

/-- The observations are not all equal. -/
theorem sumsq_null {N : ℕ} (hN : 3 ≤ N) : (Measure.pi fun _ : Fin N => μ)
    {x | ((List.ofFn x).map fun t => (t - mean (List.ofFn x)) ^ 2).sum = 0} = 0 := by
  have := dot_quadric_null (μ := μ) hN (c := fun _ => 0) (K := 1) (.inr one_ne_zero)
  refine measure_mono_null (fun x hx => ?_) this
  simp only [Set.mem_ofPred_eq] at hx ⊢
  rw [hx, dot_ofFn_zero]
  simp

end Pysatl.Props
