import Verif.Spec.Sensitive
import Verif.Props.CalibrationOther
import Verif.Props.ExponentMeaning
import Verif.Props.ExponentRange

/-! # C96: criteria that tell samples apart -/

namespace Pysatl.Props

open Pysatl.Decision Pysatl.Resolver Pysatl.Spec Pysatl.Edf Pysatl.Graph Pysatl.Gen
open Pysatl.Uniform Pysatl.Weibull Pysatl.Normal Pysatl.Exponent
open MeasureTheory ProbabilityTheory

/-! ### Values of transformed samples -/

theorem dPlus_replicate {n : ℕ} (hn : 0 < n) (u : ℝ) : dPlus (List.replicate n u) = .ok (1 - u) := by
  have h0 : (0 : ℝ) < n := by exact_mod_cast hn
  rw [dPlus_eq_ok]
  refine ⟨⟨n - 1, by simp; omega, ?_⟩, fun i hi => ?_⟩
  · simp only [List.getElem_replicate, List.length_replicate]
    rw [Nat.cast_sub (by omega : 1 ≤ n)]
    field_simp
    push_cast
    ring
  · simp only [List.length_replicate, List.getElem_replicate] at hi ⊢
    have : ((i : ℝ) + 1) / n ≤ 1 := by
      rw [div_le_one h0]; exact_mod_cast hi
    linarith

theorem dMinus_replicate {n : ℕ} (hn : 0 < n) (u : ℝ) : dMinus (List.replicate n u) = .ok u := by
  have h0 : (0 : ℝ) < n := by exact_mod_cast hn
  rw [dMinus_eq_ok]
  refine ⟨⟨0, by simpa using hn, by simp⟩, fun i hi => ?_⟩
  simp only [List.length_replicate, List.getElem_replicate]
  have : 0 ≤ (i : ℝ) / n := by positivity
  linarith

/-- The midPts `(2 i + 1) / (2 n)`. -/
noncomputable def midPts (n : ℕ) : List ℝ := (List.range n).map fun i : ℕ => (2 * (i : ℝ) + 1) / (2 * n)

theorem length_midPts (n : ℕ) : (midPts n).length = n := by simp [midPts]

theorem dPlus_midPts {n : ℕ} (hn : 0 < n) : dPlus (midPts n) = .ok (1 / (2 * n)) := by
  have h0 : (0 : ℝ) < n := by exact_mod_cast hn
  have key : ∀ i (h : i < (midPts n).length), ((i : ℝ) + 1) / (midPts n).length - (midPts n)[i] =
      1 / (2 * n) := fun i h => by
    rw [length_midPts]
    simp only [midPts, List.getElem_map, List.getElem_range]
    field_simp
    ring
  rw [dPlus_eq_ok]
  exact ⟨⟨0, by rwa [length_midPts], (key 0 _).symm⟩, fun i hi => (key i hi).le⟩

theorem dMinus_midPts {n : ℕ} (hn : 0 < n) : dMinus (midPts n) = .ok (1 / (2 * n)) := by
  have h0 : (0 : ℝ) < n := by exact_mod_cast hn
  have key : ∀ i (h : i < (midPts n).length), (midPts n)[i] - (i : ℝ) / (midPts n).length =
      1 / (2 * n) := fun i h => by
    rw [length_midPts]
    simp only [midPts, List.getElem_map, List.getElem_range]
    field_simp
    ring
  rw [dMinus_eq_ok]
  exact ⟨⟨0, by rwa [length_midPts], (key 0 _).symm⟩, fun i hi => (key i hi).le⟩

theorem sum_midPts (n : ℕ) : ∑ i : Fin n, (2 * ((i : ℕ) : ℝ) + 1) / (2 * (n : ℝ)) = n / 2 := by
  rcases Nat.eq_zero_or_pos n with rfl | hn
  · simp
  have h0 : (0 : ℝ) < n := by exact_mod_cast hn
  have h : ∀ m : ℕ, ∑ i ∈ Finset.range m, (2 * (i : ℝ) + 1) = (m : ℝ) ^ 2 := fun m => by
    induction m with
    | zero => simp
    | succ m ih => rw [Finset.sum_range_succ, ih]; push_cast; ring
  rw [Fin.sum_univ_eq_sum_range fun i => (2 * (i : ℝ) + 1) / (2 * (n : ℝ)), ← Finset.sum_div, h n]
  field_simp

theorem cvm_replicate (n : ℕ) (u : ℝ) : cvm (List.replicate n u) =
    1 / (12 * n) + ∑ i : Fin n, ((2 * ((i : ℕ) : ℝ) + 1) / (2 * (n : ℝ))) ^ 2 + n * (u ^ 2 - u) := by
  have hs : ((List.replicate n u).mapIdx fun i v => ((2 * ((i : ℝ) + 1) - 1) / (2 * (n : ℝ)) - v) ^ 2).sum =
      ∑ i : Fin n, ((2 * ((i : ℕ) : ℝ) + 1) / (2 * (n : ℝ)) - u) ^ 2 := by
    have : (List.replicate n u).mapIdx (fun i v => ((2 * ((i : ℝ) + 1) - 1) / (2 * (n : ℝ)) - v) ^ 2) =
        List.ofFn fun i : Fin n => ((2 * ((i : ℕ) : ℝ) + 1) / (2 * (n : ℝ)) - u) ^ 2 := by
      apply List.ext_getElem
      · simp
      · intro i h1 h2
        simp only [List.getElem_mapIdx, List.getElem_replicate, List.getElem_ofFn]
        congr 3; ring
    rw [this, List.sum_ofFn]
  have he : ∀ i : Fin n, ((2 * ((i : ℕ) : ℝ) + 1) / (2 * (n : ℝ)) - u) ^ 2 =
      ((2 * ((i : ℕ) : ℝ) + 1) / (2 * (n : ℝ))) ^ 2 - 2 * u * ((2 * ((i : ℕ) : ℝ) + 1) / (2 * (n : ℝ))) + u ^ 2 :=
    fun i => by ring
  unfold cvm
  rw [List.length_replicate, hs, Finset.sum_congr rfl fun i _ => he i, Finset.sum_add_distrib, Finset.sum_sub_distrib,
    ← Finset.mul_sum, sum_midPts]
  simp only [Finset.sum_const, Finset.card_univ, Fintype.card_fin, nsmul_eq_mul]
  ring

theorem cvm_midPts (n : ℕ) : cvm (midPts n) = 1 / (12 * n) := by
  unfold cvm
  rw [length_midPts]
  have : (midPts n).mapIdx (fun i v => ((2 * ((i : ℝ) + 1) - 1) / (2 * (n : ℝ)) - v) ^ 2) =
      List.replicate n 0 := by
    apply List.ext_getElem
    · simp [midPts]
    · intro i h1 h2
      simp only [List.getElem_mapIdx, midPts, List.getElem_map, List.getElem_range, List.getElem_replicate]
      rw [show (2 * ((i : ℝ) + 1) - 1) = 2 * i + 1 by ring, sub_self]
      norm_num
  rw [this]
  simp

theorem mean_replicate' {n : ℕ} (hn : 0 < n) (u : ℝ) : mean (List.replicate n u) = u := by
  have h0 : (0 : ℝ) < n := by exact_mod_cast hn
  simp only [mean, List.sum_replicate, List.length_replicate, nsmul_eq_mul]
  field_simp

theorem mean_midPts {n : ℕ} (hn : 0 < n) : mean (midPts n) = 1 / 2 := by
  have h0 : (0 : ℝ) < n := by exact_mod_cast hn
  have : (midPts n).sum = n / 2 := by
    rw [← sum_midPts n, midPts, Fin.sum_univ_eq_sum_range fun i => (2 * (i : ℝ) + 1) / (2 * (n : ℝ))]
    rfl
  simp only [mean, this, length_midPts]
  field_simp

theorem ad_replicate {n : ℕ} (hn : 0 < n) (u : ℝ) : ad ((List.replicate n u).map Real.log)
    ((List.replicate n u).map fun v => Real.log (1 - v)) = -n - n * (Real.log u + Real.log (1 - u)) := by
  have h0 : (0 : ℝ) < n := by exact_mod_cast hn
  simp only [List.map_replicate]
  generalize Real.log u = a
  generalize Real.log (1 - u) = b
  unfold ad
  rw [List.reverse_replicate, List.length_replicate]
  have : ((List.replicate n a).zip (List.replicate n b)).mapIdx
      (fun i p => (2 * ((i : ℝ) + 1) - 1) / (n : ℝ) * (p.1 + p.2)) =
      List.ofFn fun i : Fin n => (2 * ((i : ℕ) : ℝ) + 1) / (2 * (n : ℝ)) * (2 * (a + b)) := by
    apply List.ext_getElem
    · simp
    · intro i h1 h2
      simp only [List.getElem_mapIdx, List.getElem_zip, List.getElem_replicate, List.getElem_ofFn]
      field_simp
      ring
  rw [this, List.sum_ofFn, ← Finset.sum_mul, sum_midPts]
  ring

/-- Equally spaced points above `c`. -/
theorem npDiff_progression (d e : ℝ) : ∀ (n : ℕ) (c : ℝ),
    npDiff (c :: ((List.range n).map (fun i : ℕ => c + ((i : ℝ) + 1) * d) ++ [e])) =
      List.replicate n d ++ [e - (c + n * d)]
  | 0, c => by simp [npDiff]
  | n + 1, c => by
    have ih := npDiff_progression d e n (c + d)
    have h : (List.range n).map ((fun i : ℕ => c + ((i : ℝ) + 1) * d) ∘ Nat.succ) =
        (List.range n).map (fun i : ℕ => c + d + ((i : ℝ) + 1) * d) :=
      List.map_congr_left fun i _ => by simp only [Function.comp, Nat.succ_eq_add_one]; push_cast; ring
    rw [List.range_succ_eq_map, List.map_cons, List.map_map, h]
    simp only [List.cons_append, Nat.cast_zero, zero_add, one_mul]
    rw [npDiff, ih, List.replicate_succ, List.cons_append]
    congr 1
    · ring
    · congr 2; push_cast; ring

/-- The `n` points `d, 2 d, …`. -/
noncomputable def steps (n : ℕ) (d : ℝ) : List ℝ := (List.range n).map fun i : ℕ => ((i : ℝ) + 1) * d

theorem length_steps (n : ℕ) (d : ℝ) : (steps n d).length = n := by simp [steps]

theorem spacings_steps (n : ℕ) (d : ℝ) : spacings 0 1 (steps n d) = List.replicate n d ++ [1 - n * d] := by
  have := npDiff_progression d 1 n 0
  simp only [zero_add] at this
  rw [spacings, steps, this]

theorem greenwood_steps {n : ℕ} {d : ℝ} (hd : 0 ≤ d) (h1 : n * d ≤ 1) :
    greenwoodGamma (steps n d) = .ok (n * d ^ 2 + (1 - n * d) ^ 2) := by
  simp only [greenwoodGamma, spacings_steps]
  rw [if_neg]
  · simp [sumSquares]
  · simp only [List.any_append, List.any_replicate, List.any_cons, List.any_nil]
    have : ¬ (1 - n * d < 0) := by linarith
    by_cases hn : n = 0 <;> simp [this, not_lt.2 hd, hn]

theorem moran_steps {n : ℕ} (hn : 0 < n) {d : ℝ} (hd : 0 < d) (h1 : n * d < 1) :
    moranGamma (steps n d) = .ok (-(n * Real.log (n * d) + Real.log (n * (1 - n * d)))) := by
  simp only [moranGamma, spacings_steps, length_steps]
  rw [if_neg (by omega), if_neg]
  · simp
  · have : ¬ (1 - n * d ≤ 0) := by linarith
    simp [this, not_le.2 hd]

theorem minToshiyuki_replicate {n : ℕ} (u : ℝ) : minToshiyuki (List.replicate n u) =
    (∑ i ∈ Finset.range n, max (((i : ℝ) + 1) / n - u) (u - (i : ℝ) / n)) * √(1 / (u * (1 - u))) / √n := by
  have : List.zipWith (fun d v => d * √(1 / (v * (1 - v))))
      (List.zipWith max (plusGaps (List.replicate n u)) (minusGaps (List.replicate n u))) (List.replicate n u) =
      (List.range n).map fun i : ℕ => max (((i : ℝ) + 1) / n - u) (u - (i : ℝ) / n) * √(1 / (u * (1 - u))) := by
    apply List.ext_getElem
    · simp [plusGaps, minusGaps]
    · intro i h1 h2
      simp [plusGaps, minusGaps]
  rw [minToshiyuki, this, List.length_replicate, Finset.sum_mul]
  rfl

/-! ### Samples with given transformed values -/

/-- A distribution function that takes every value between 0 and 1. -/
structure Onto (F : ℝ → ℝ) : Prop where
  mono : Monotone F
  onto : ∀ u, 0 < u → u < 1 → ∃ x, F x = u

theorem Onto.sample {F : ℝ → ℝ} (hF : Onto F) {us : List ℝ} (hs : us.Pairwise (· ≤ ·)) (hu : ∀ u ∈ us, 0 < u ∧ u < 1) :
    ∃ xs : List ℝ, xs.length = us.length ∧ (sort xs).map F = us ∧ ∀ x ∈ xs, 0 < F x ∧ F x < 1 := by
  classical
  let g : ℝ → ℝ := fun u => if h : 0 < u ∧ u < 1 then (hF.onto u h.1 h.2).choose else 0
  have hg : ∀ u, 0 < u ∧ u < 1 → F (g u) = u := fun u h => by
    simp only [g, dif_pos h]
    exact (hF.onto u h.1 h.2).choose_spec
  have hm : ∀ u v, 0 < u ∧ u < 1 → 0 < v ∧ v < 1 → u ≤ v → g u ≤ g v := fun u v h1 h2 h => by
    rcases h.eq_or_lt with rfl | h
    · exact le_rfl
    · by_contra hc
      have := hF.mono (not_le.1 hc).le
      rw [hg u h1, hg v h2] at this
      linarith
  have hsort : (us.map g).Pairwise (· ≤ ·) := by
    rw [List.pairwise_map]
    exact hs.imp_of_mem fun ha hb h => hm _ _ (hu _ ha) (hu _ hb) h
  refine ⟨us.map g, List.length_map _, ?_, fun x hx => ?_⟩
  · rw [sort_of_sorted hsort, List.map_map]
    exact (List.map_congr_left fun u h => hg u (hu u h)).trans (List.map_id _)
  · obtain ⟨u, h, rfl⟩ := List.mem_map.1 hx
    rw [hg u (hu u h)]
    exact hu u h

theorem sorted_replicate (n : ℕ) (u : ℝ) : (List.replicate n u).Pairwise (· ≤ ·) :=
  List.pairwise_replicate.2 (Or.inr le_rfl)

theorem sorted_midPts (n : ℕ) : (midPts n).Pairwise (· ≤ ·) := by
  rw [midPts, List.pairwise_map]
  refine List.pairwise_le_range.imp fun {a b} h => ?_
  have : (a : ℝ) ≤ b := by exact_mod_cast h
  gcongr

theorem mem_midPts {n : ℕ} {u : ℝ} (h : u ∈ midPts n) : 0 < u ∧ u < 1 := by
  obtain ⟨i, hi, rfl⟩ := List.mem_map.1 h
  have hi : i < n := List.mem_range.1 hi
  have h0 : (0 : ℝ) < n := by exact_mod_cast (by omega : 0 < n)
  have h1 : (i : ℝ) + 1 ≤ n := by exact_mod_cast hi
  refine ⟨by positivity, ?_⟩
  rw [div_lt_one (by positivity)]
  linarith

theorem sorted_steps (n : ℕ) {d : ℝ} (hd : 0 ≤ d) : (steps n d).Pairwise (· ≤ ·) := by
  rw [steps, List.pairwise_map]
  refine List.pairwise_le_range.imp fun {a b} h => mul_le_mul_of_nonneg_right ?_ hd
  have : (a : ℝ) ≤ b := by exact_mod_cast h
  linarith

theorem mem_steps {n : ℕ} {d u : ℝ} (hd : 0 < d) (h1 : n * d < 1) (h : u ∈ steps n d) : 0 < u ∧ u < 1 := by
  obtain ⟨i, hi, rfl⟩ := List.mem_map.1 h
  have hi : ((i : ℝ) + 1) ≤ n := by exact_mod_cast List.mem_range.1 hi
  exact ⟨by positivity, lt_of_le_of_lt (by gcongr) h1⟩

/-- Every statistic of the transformed sample has different values for some two transformed samples of each size. -/
theorem edf_values (s : EdfStat) {n : ℕ} (hn : 2 ≤ n) : ∃ us vs : List ℝ,
    (us.length = n ∧ us.Pairwise (· ≤ ·) ∧ ∀ u ∈ us, 0 < u ∧ u < 1) ∧
    (vs.length = n ∧ vs.Pairwise (· ≤ ·) ∧ ∀ u ∈ vs, 0 < u ∧ u < 1) ∧
    ∃ a b, s.ofVals us = .ok a ∧ s.ofVals vs = .ok b ∧ a ≠ b := by
  have hn0 : 0 < n := by omega
  have h0 : (0 : ℝ) < n := by exact_mod_cast hn0
  have h2 : (2 : ℝ) ≤ n := by exact_mod_cast hn
  have rep : ∀ u : ℝ, 0 < u → u < 1 → (List.replicate n u).length = n ∧ (List.replicate n u).Pairwise (· ≤ ·) ∧
      ∀ v ∈ List.replicate n u, 0 < v ∧ v < 1 := fun u hu hu' =>
    ⟨List.length_replicate, sorted_replicate n u, fun v hv => by rw [List.eq_of_mem_replicate hv]; exact ⟨hu, hu'⟩⟩
  have mid : (midPts n).length = n ∧ (midPts n).Pairwise (· ≤ ·) ∧ ∀ v ∈ midPts n, 0 < v ∧ v < 1 :=
    ⟨length_midPts n, sorted_midPts n, fun _ => mem_midPts⟩
  have stp : ∀ d : ℝ, 0 < d → n * d < 1 → (steps n d).length = n ∧ (steps n d).Pairwise (· ≤ ·) ∧
      ∀ v ∈ steps n d, 0 < v ∧ v < 1 := fun d hd h1 =>
    ⟨length_steps n d, sorted_steps n hd.le, fun _ => mem_steps hd h1⟩
  have half := rep (1 / 2) (by norm_num) (by norm_num)
  have quarter := rep (1 / 4) (by norm_num) (by norm_num)
  have e1 : (n : ℝ) * (1 / (n + 1)) < 1 := by rw [mul_one_div, div_lt_one (by positivity)]; linarith
  have e2 : (n : ℝ) * (1 / (2 * (n + 1))) < 1 := by rw [mul_one_div, div_lt_one (by positivity)]; linarith
  have st1 := stp (1 / (n + 1)) (by positivity) e1
  have st2 := stp (1 / (2 * (n + 1))) (by positivity) e2
  cases s with
  | ks t =>
    refine ⟨_, _, half, quarter, ?_⟩
    cases t with
    | right => exact ⟨_, _, ks_right (dPlus_replicate hn0 _) (dMinus_replicate hn0 _),
        ks_right (dPlus_replicate hn0 _) (dMinus_replicate hn0 _), by norm_num⟩
    | left => exact ⟨_, _, ks_left (dMinus_replicate hn0 _), ks_left (dMinus_replicate hn0 _), by norm_num⟩
    | twoTailed => exact ⟨_, _, ks_two (dPlus_replicate hn0 _) (dMinus_replicate hn0 _),
        ks_two (dPlus_replicate hn0 _) (dMinus_replicate hn0 _), by norm_num⟩
  | cvm =>
    refine ⟨_, _, half, quarter, _, _, rfl, rfl, ?_⟩
    rw [cvm_replicate n, cvm_replicate n]
    intro h
    have := add_left_cancel h
    nlinarith
  | ad =>
    refine ⟨_, _, half, quarter, _, _, rfl, rfl, ?_⟩
    rw [ad_replicate hn0, ad_replicate hn0]
    intro h
    have h3 : Real.log (1 / 2) + Real.log (1 - 1 / 2) = Real.log (1 / 4) + Real.log (1 - 1 / 4) :=
      mul_left_cancel₀ h0.ne' (sub_right_injective h)
    rw [← Real.log_mul (by norm_num) (by norm_num), ← Real.log_mul (by norm_num) (by norm_num)] at h3
    have := Real.log_injOn_pos (by norm_num : (0:ℝ) < 1 / 2 * (1 - 1 / 2)) (by norm_num : (0:ℝ) < 1 / 4 * (1 - 1 / 4)) h3
    norm_num at this
  | kuiper =>
    refine ⟨_, _, half, mid, _, _, kuiper_eq (dPlus_replicate hn0 _) (dMinus_replicate hn0 _),
      kuiper_eq (dPlus_midPts hn0) (dMinus_midPts hn0), ?_⟩
    intro h
    field_simp at h
    linarith
  | watson =>
    refine ⟨_, _, half, mid, _, _, rfl, rfl, ?_⟩
    unfold watsonBeta
    rw [cvm_replicate n, cvm_midPts, mean_replicate' hn0, mean_midPts hn0, List.length_replicate,
      length_midPts, sub_self]
    intro h
    have hs : ∑ i : Fin n, ((2 * ((i : ℕ) : ℝ) + 1) / (2 * (n : ℝ))) ^ 2 = (n : ℝ) * (1 / 4) := by linarith
    have hz : ∑ i : Fin n, ((2 * ((i : ℕ) : ℝ) + 1) / (2 * (n : ℝ)) - 1 / 2) ^ 2 = 0 := by
      have he : ∀ i : Fin n, ((2 * ((i : ℕ) : ℝ) + 1) / (2 * (n : ℝ)) - 1 / 2) ^ 2 =
          ((2 * ((i : ℕ) : ℝ) + 1) / (2 * (n : ℝ))) ^ 2 - (2 * ((i : ℕ) : ℝ) + 1) / (2 * (n : ℝ)) + 1 / 4 :=
        fun i => by ring
      rw [Finset.sum_congr rfl fun i _ => he i, Finset.sum_add_distrib, Finset.sum_sub_distrib, sum_midPts, hs]
      simp only [Finset.sum_const, Finset.card_univ, Fintype.card_fin, nsmul_eq_mul]
      ring
    have h3 := (Finset.sum_eq_zero_iff_of_nonneg fun i _ => sq_nonneg _).1 hz ⟨0, hn0⟩ (Finset.mem_univ _)
    have h4 := pow_eq_zero_iff (two_ne_zero) |>.1 h3
    simp only [Nat.cast_zero, mul_zero, zero_add] at h4
    field_simp at h4
    linarith
  | minToshiyuki =>
    refine ⟨_, _, half, rep (1 / 16) (by norm_num) (by norm_num), _, _, rfl, rfl, ?_⟩
    rw [minToshiyuki_replicate, minToshiyuki_replicate]
    have hr : (0 : ℝ) < √n := Real.sqrt_pos.2 h0
    have r1 : √(1 / (1 / 2 * (1 - 1 / 2)) : ℝ) = 2 := by
      rw [show (1 / (1 / 2 * (1 - 1 / 2)) : ℝ) = 2 ^ 2 by norm_num]; exact Real.sqrt_sq (by norm_num)
    have r2 : (4 : ℝ) ≤ √(1 / (1 / 16 * (1 - 1 / 16))) := by
      refine Real.le_sqrt_of_sq_le ?_; norm_num
    have b1 : ∑ i ∈ Finset.range n, max (((i : ℝ) + 1) / n - 1 / 2) (1 / 2 - (i : ℝ) / n) ≤ n * (1 / 2) := by
      have : ∀ i ∈ Finset.range n, max (((i : ℝ) + 1) / n - 1 / 2) (1 / 2 - (i : ℝ) / n) ≤ 1 / 2 := fun i hi => by
        have hi : ((i : ℝ) + 1) ≤ n := by exact_mod_cast Finset.mem_range.1 hi
        have q1 : ((i : ℝ) + 1) / n ≤ 1 := (div_le_one h0).2 hi
        have q2 : 0 ≤ (i : ℝ) / n := by positivity
        exact max_le (by linarith) (by linarith)
      simpa using Finset.sum_le_sum this
    have b2 : (n : ℝ) * (7 / 16) ≤ ∑ i ∈ Finset.range n, max (((i : ℝ) + 1) / n - 1 / 16) (1 / 16 - (i : ℝ) / n) := by
      have h3 := sum_midPts n
      rw [Fin.sum_univ_eq_sum_range fun i => (2 * (i : ℝ) + 1) / (2 * (n : ℝ))] at h3
      have : ∑ i ∈ Finset.range n, ((2 * (i : ℝ) + 1) / (2 * (n : ℝ)) - 1 / 16) ≤
          ∑ i ∈ Finset.range n, max (((i : ℝ) + 1) / n - 1 / 16) (1 / 16 - (i : ℝ) / n) := by
        refine Finset.sum_le_sum fun i _ => le_trans ?_ (le_max_left _ _)
        have : (2 * (i : ℝ) + 1) / (2 * (n : ℝ)) ≤ ((i : ℝ) + 1) / n := by
          rw [div_le_div_iff₀ (by positivity) h0]; nlinarith
        linarith
      rw [Finset.sum_sub_distrib, h3] at this
      simp only [Finset.sum_const, Finset.card_range, nsmul_eq_mul] at this
      linarith
    refine ne_of_lt (div_lt_div_of_pos_right ?_ hr)
    rw [r1]
    generalize (∑ i ∈ Finset.range n, max (((i : ℝ) + 1) / n - 1 / 2) (1 / 2 - (i : ℝ) / n)) = A at b1
    generalize (∑ i ∈ Finset.range n, max (((i : ℝ) + 1) / n - 1 / 16) (1 / 16 - (i : ℝ) / n)) = B at b2 ⊢
    generalize √(1 / (1 / 16 * (1 - 1 / 16)) : ℝ) = r at r2
    nlinarith
  | greenwood =>
    refine ⟨_, _, st1, st2, _, _, greenwood_steps (by positivity) e1.le, greenwood_steps (by positivity) e2.le, ?_⟩
    intro h
    field_simp at h
    nlinarith
  | moran =>
    refine ⟨_, _, st1, st2, _, _, moran_steps hn0 (by positivity) e1, moran_steps hn0 (by positivity) e2, ?_⟩
    intro h
    have q1 : Real.log (n * (1 / (n + 1)) : ℝ) = Real.log (n * (1 / (2 * (n + 1)))) + Real.log 2 := by
      rw [← Real.log_mul (by positivity) (by norm_num)]; congr 1; field_simp
    have q2 : (n * (1 - n * (1 / (2 * (n + 1)))) : ℝ) = n * (1 - n * (1 / (n + 1))) * ((n + 2) / 2) := by
      field_simp; ring
    have q3 : (0 : ℝ) < n * (1 - n * (1 / (n + 1))) := by nlinarith
    rw [q1, q2, Real.log_mul q3.ne' (by positivity)] at h
    have q4 : Real.log ((2 : ℝ) ^ n) = Real.log (((n : ℝ) + 2) / 2) := by
      rw [Real.log_pow]; linarith
    have q5 := Real.log_injOn_pos (by positivity : (0:ℝ) < 2 ^ n) (by positivity : (0:ℝ) < ((n : ℝ) + 2) / 2) q4
    have q6 : (n : ℝ) + 1 ≤ 2 ^ n := by exact_mod_cast Nat.lt_two_pow_self (n := n)
    rw [q5] at q6
    linarith

/-- **C96, statistics of the transformed sample**: whatever continuous distribution is hypothesised, two samples of every
size have different values. -/
theorem C96_edf (s : EdfStat) {F : ℝ → ℝ} (hF : Onto F) {n : ℕ} (hn : 2 ≤ n) :
    TellsApart (fun xs => ∀ x ∈ xs, 0 < F x ∧ F x < 1) (fun xs => s.value F xs) n := by
  obtain ⟨us, vs, ⟨l1, s1, m1⟩, ⟨l2, s2, m2⟩, a, b, ha, hb, hab⟩ := edf_values s hn
  obtain ⟨xs, lx, ex, ix⟩ := hF.sample s1 m1
  obtain ⟨ys, ly, ey, iy⟩ := hF.sample s2 m2
  refine ⟨xs, ys, a, b, ⟨lx.trans l1, ix⟩, ⟨ly.trans l2, iy⟩, ?_, ?_, hab⟩
  · simp only [EdfStat.value_eq, ex, ha]
  · simp only [EdfStat.value_eq, ey, hb]

/-! ### The families -/

theorem onto_of_cdf (μ : Measure ℝ) [IsProbabilityMeasure μ] {F : ℝ → ℝ} (h : ∀ x, cdf μ x = F x) (hc : Continuous F) :
    Onto F := by
  obtain rfl : (fun x => cdf μ x) = F := funext h
  refine ⟨monotone_cdf μ, fun u h0 h1 => ?_⟩
  obtain ⟨a, ha⟩ := ((tendsto_cdf_atBot μ).eventually (gt_mem_nhds h0)).exists
  obtain ⟨b, hb⟩ := ((tendsto_cdf_atTop μ).eventually (lt_mem_nhds h1)).exists
  exact mem_range_of_exists_le_of_exists_ge hc ⟨a, ha.le⟩ ⟨b, hb.le⟩

theorem onto_cdf (μ : Measure ℝ) [IsProbabilityMeasure μ] [NullSingletonClass μ] : Onto fun x => cdf μ x :=
  onto_of_cdf μ (fun _ => rfl) (continuous_cdf μ)

theorem _root_.Pysatl.Spec.TellsApart.congr {P Q : List ℝ → Prop} {f g : List ℝ → Except PyErr ℝ} {n : ℕ} (h : TellsApart P f n)
    (hPQ : ∀ xs, xs.length = n → P xs → Q xs) (hfg : ∀ xs, xs.length = n → P xs → g xs = f xs) : TellsApart Q g n := by
  obtain ⟨xs, ys, v, w, ⟨l1, p1⟩, ⟨l2, p2⟩, h1, h2, hne⟩ := h
  exact ⟨xs, ys, v, w, ⟨l1, hPQ xs l1 p1⟩, ⟨l2, hPQ ys l2 p2⟩, (hfg xs l1 p1).trans h1, (hfg ys l2 p2).trans h2, hne⟩

theorem ne_nil_of_length {xs : List ℝ} {n : ℕ} (hn : 2 ≤ n) (h : xs.length = n) : xs ≠ [] := by
  rintro rfl
  simp at h
  omega

/-- **C96, uniform family.** -/
theorem C96_uniform {s : UniStat} {e : EdfStat} (hs : s.edf = some e) {a b : ℝ} (hab : a < b) {n : ℕ} (hn : 2 ≤ n) :
    TellsApart (fun xs => ∀ x ∈ xs, a < x ∧ x < b) (fun xs => s.value a b xs) n := by
  have hF : Onto (uniformCdf a b) := by
    have h := cdf_uniformLaw hab
    have hp := h.1
    exact onto_of_cdf (uniformLaw a b) h.2 (uniformCdf_continuous hab)
  have hin : ∀ xs : List ℝ, (∀ x ∈ xs, 0 < uniformCdf a b x ∧ uniformCdf a b x < 1) → ∀ x ∈ xs, a < x ∧ x < b := by
    intro xs h x hx
    have := h x hx
    unfold uniformCdf at this
    by_cases h1 : x ≤ a
    · simp [h1] at this
    · by_cases h2 : b ≤ x
      · simp [h1, h2] at this
      · exact ⟨not_le.1 h1, not_le.1 h2⟩
  obtain ⟨xs, ys, v, w, ⟨l1, p1⟩, ⟨l2, p2⟩, h1, h2, hne⟩ := C96_edf e hF hn
  have hn0 : (n : ℝ) ≠ 0 := by have : 0 < n := by omega
                               positivity
  refine ⟨xs, ys, s.rescale n v, s.rescale n w, ⟨l1, hin xs p1⟩, ⟨l2, hin ys p2⟩, ?_, ?_, fun h => hne ?_⟩
  · simp only [uniform_edf hs (ne_nil_of_length hn l1) (hin xs p1), l1]
    rw [show e.value (uniformCdf a b) xs = .ok v from h1]; rfl
  · simp only [uniform_edf hs (ne_nil_of_length hn l2) (hin ys p2), l2]
    rw [show e.value (uniformCdf a b) ys = .ok w from h2]; rfl
  · cases s <;> simp only [UniStat.rescale] at h <;> first | exact h | skip
    have := add_right_cancel h
    exact (div_left_inj' hn0).1 this

/-- **C96, beta family.** -/
theorem C96_beta {lib : Beta.BetaLib} (hlib : ScipyBetaCdf lib) {p : Beta.Params} (ha : 0 < p.alpha) (hb : 0 < p.beta)
    {s : Beta.BetaStat} {e : EdfStat} (hs : s.edf = some e) {n : ℕ} (hn : 2 ≤ n) :
    TellsApart (fun xs => ∀ x ∈ xs, 0 ≤ x ∧ x ≤ 1) (fun xs => s.value lib p xs) n := by
  have hp : IsProbabilityMeasure (betaMeasure p.alpha p.beta) := isProbabilityMeasureBeta ha hb
  have hin : ∀ xs : List ℝ, (∀ x ∈ xs, 0 < cdf (betaMeasure p.alpha p.beta) x ∧ cdf (betaMeasure p.alpha p.beta) x < 1) →
      ∀ x ∈ xs, 0 ≤ x ∧ x ≤ 1 := by
    intro xs h x hx
    have h1 := h x hx
    rw [cdf_eq_real] at h1
    constructor
    · by_contra hc
      have : (betaMeasure p.alpha p.beta) (Set.Iic x) = 0 := by
        rw [measure_eq_zero_iff_ae_notMem]
        filter_upwards [beta_inside (a := p.alpha) (b := p.beta)] with y hy hm
        exact hc (hy.1.trans hm)
      rw [measureReal_def, this] at h1
      simp at h1
    · by_contra hc
      have : (betaMeasure p.alpha p.beta) (Set.Iic x) = 1 := by
        rw [← mem_ae_iff_prob_eq_one measurableSet_Iic]
        filter_upwards [beta_inside (a := p.alpha) (b := p.beta)] with y hy
        exact hy.2.trans (not_le.1 hc).le
      rw [measureReal_def, this] at h1
      simp at h1
  exact (C96_edf e (onto_cdf (betaMeasure p.alpha p.beta)) hn).congr (fun xs _ h => hin xs h)
    fun xs _ h => beta_edf hlib ha hb hs (hin xs h)

/-- **C96, gamma family.** -/
theorem C96_gamma {lib : Gamma.GammaLib} (hlib : ScipyGamma lib) {p : Gamma.Params} (ha : 0 < p.alpha) (hb : 0 < p.beta)
    {s : Gamma.GammaStat} {e : EdfStat} (hs : s.edf = some e) {n : ℕ} (hn : 2 ≤ n) :
    TellsApart (fun xs => ∀ x ∈ xs, 0 ≤ x) (fun xs => s.value lib p xs) n := by
  have hp := isProbabilityMeasure_gammaMeasure ha hb
  refine (C96_edf e (onto_cdf (gammaMeasure p.alpha p.beta)) hn).congr (fun xs _ h x hx => ?_)
    fun xs l _ => gamma_edf hlib ha hb hs (ne_nil_of_length hn l)
  have h1 := (h x hx).1
  rw [cdf_eq_real] at h1
  by_contra hc
  have : (gammaMeasure p.alpha p.beta) (Set.Iic x) = 0 := by
    rw [gammaMeasure, withDensity_apply _ measurableSet_Iic]
    refine setLIntegral_eq_zero measurableSet_Iic fun y hy => ?_
    rw [gammaPDF_of_neg (lt_of_le_of_lt hy (not_le.1 hc))]
    rfl
  rw [measureReal_def, this] at h1
  simp at h1

/-- **C96, Student family.** -/
theorem C96_student {lib : Student.StudentLib} (hlib : ScipyStudent lib) {k loc scale : ℝ} (hk : 0 < k) (hsc : 0 < scale)
    {s : Student.StudentStat} {e : EdfStat} (hs : s.edf = some e) {n : ℕ} (hn : 2 ≤ n) :
    TellsApart (fun _ => True) (fun xs => s.value lib ⟨k, loc, scale⟩ xs) n := by
  have hp := student_prob hk
  have h := (C96_edf e (onto_cdf (studentLaw k)) hn).congr (Q := fun _ => True) (g := fun xs => s.value lib ⟨k, 0, 1⟩ xs)
    (fun _ _ _ => trivial) fun xs _ _ => student_edf hlib hk hs xs
  by_cases hl : s = .lilliefors
  · subst hl
    exact h
  obtain ⟨xs, ys, v, w, ⟨l1, _⟩, ⟨l2, _⟩, h1, h2, hne⟩ := h
  have key : ∀ zs : List ℝ, s.value lib ⟨k, loc, scale⟩ (zs.map fun x => loc + scale * x) = s.value lib ⟨k, 0, 1⟩ zs :=
    fun zs => by simpa using C92_student_partial lib k 0 1 loc hsc s hl zs
  exact ⟨xs.map fun x => loc + scale * x, ys.map fun x => loc + scale * x, v, w, ⟨by simpa using l1, trivial⟩,
    ⟨by simpa using l2, trivial⟩, (key xs).trans h1, (key ys).trans h2, hne⟩

/-- **C96, Weibull family.** -/
theorem C96_weibull (min : Minimizer) {a k : ℝ} (ha : 0 < a) (hk : 0 < k) {s : WeibullStat} {e : EdfStat}
    (hs : s.edf = some e) {n : ℕ} (hn : 2 ≤ n) :
    TellsApart (fun xs => ∀ x ∈ xs, 0 < x) (fun xs => s.value min ⟨a, k⟩ (.list xs)) n := by
  have hF : Onto (Weibull.cdf a k) := by
    obtain ⟨μ, hr, hpr, hc⟩ := weibull_rvs ha hk
    have h : NullSingletonClass μ := by
      have e := rvs_ok (d := { name := "exponweib", shapes := [a, k] }) (by exact ⟨ha, hk⟩) (by exact zero_le_one (α := ℝ))
      rw [hr] at e
      rw [Except.ok.inj e]
      show NullSingletonClass (Measure.map (fun z => 0 + 1 * z) (ofDensity _))
      simp only [zero_add, one_mul, Measure.map_id']
      unfold ofDensity
      infer_instance
    have h' := onto_cdf μ
    simp only [hc] at h'
    exact h'
  refine (C96_edf e hF hn).congr (fun xs _ h x hx => ?_) fun xs _ _ => weibull_edf min ⟨a, k⟩ hs (.list xs)
  by_contra hc
  have := (h x hx).1
  rw [Weibull.cdf, if_pos (not_lt.1 hc)] at this
  exact lt_irrefl _ this

/-! ### Criteria of exponentiality -/

/-- `n` equal observations. -/
def flat (n : ℕ) : List ℝ := List.replicate n 1

/-- One observation of 3 and `n - 1` of 1. -/
def spread (n : ℕ) : List ℝ := 3 :: List.replicate (n - 1) 1

theorem length_flat (n : ℕ) : (flat n).length = n := List.length_replicate

theorem length_spread {n : ℕ} (hn : 2 ≤ n) : (spread n).length = n := by
  simp only [spread, List.length_cons, List.length_replicate]
  omega

theorem flat_pos {n : ℕ} : ∀ x ∈ flat n, 0 < x := fun x hx => by rw [List.eq_of_mem_replicate hx]; exact one_pos

theorem spread_pos {n : ℕ} : ∀ x ∈ spread n, 0 < x := fun x hx => by
  rcases List.mem_cons.1 hx with rfl | hx
  · norm_num
  · rw [List.eq_of_mem_replicate hx]; exact one_pos

theorem flat_constant (n : ℕ) : Constant (flat n) := fun x hx y hy => by
  rw [List.eq_of_mem_replicate hx, List.eq_of_mem_replicate hy]

theorem one_mem_spread {n : ℕ} (hn : 2 ≤ n) : (1 : ℝ) ∈ spread n :=
  List.mem_cons_of_mem _ (List.mem_replicate.2 ⟨by omega, rfl⟩)

theorem spread_not_constant {n : ℕ} (hn : 2 ≤ n) : ¬ Constant (spread n) := fun h => by
  have := h 3 (by simp [spread]) 1 (one_mem_spread hn)
  norm_num at this

theorem mean_flat {n : ℕ} (hn : 2 ≤ n) : mean (flat n) = 1 := mean_replicate' (by omega) 1

theorem mean_spread {n : ℕ} (hn : 2 ≤ n) : mean (spread n) = ((n : ℝ) + 2) / n := by
  rw [mean, length_spread hn, spread, List.sum_cons, List.sum_replicate, nsmul_eq_mul, Nat.cast_sub (by omega : 1 ≤ n)]
  congr 1
  push_cast
  ring

theorem at_flat {n i : ℕ} (hi : i < n) : at_ (flat n) i = 1 := by
  simp [at_, flat, hi]

theorem at_spread {n i : ℕ} (hi : i < n) : at_ (spread n) i = if i = 0 then 3 else 1 := by
  cases i with
  | zero => simp [at_, spread]
  | succ i =>
    have : i < n - 1 := by omega
    simp [at_, spread, this]

/-- The criteria of exponentiality shown to tell samples apart, with the least size of a sample. -/
def TellsFrom : ExpStat → ℕ → Prop
  | .ks _, m | .wongWong, m | .moran, m | .gini, m | .pietra, m | .we, m | .coxOakes, m | .eppsPulley, m
  | .ahsanullah, m | .hegazyGreen1, m | .hegazyGreen2, m => m = 2
  | .cvm lam, m => m = 2 ∧ 0 < lam
  | .deshpande b, m => m = 2 ∧ 1 / 3 ≤ b ∧ b < 1
  | .hollanderProschan, m | .shapiroWilk, m => m = 3
  | _, _ => False

theorem tells_flat_spread {f : List ℝ → Except PyErr ℝ} {n : ℕ} (hn : 2 ≤ n) {v w : ℝ} (h1 : f (flat n) = .ok v)
    (h2 : f (spread n) = .ok w) (h : v ≠ w) : TellsApart (fun xs => ∀ x ∈ xs, 0 < x) f n :=
  ⟨flat n, spread n, v, w, ⟨length_flat n, flat_pos⟩, ⟨length_spread hn, spread_pos⟩, h1, h2, h⟩

theorem map_flat {f : ℝ → ℝ} (n : ℕ) : ((flat n).map f).sum = n * f 1 := by simp [flat]

theorem map_spread {f : ℝ → ℝ} {n : ℕ} (hn : 2 ≤ n) : ((spread n).map f).sum = f 3 + (n - 1) * f 1 := by
  simp only [spread, List.map_cons, List.map_replicate, List.sum_cons, List.sum_replicate, nsmul_eq_mul]
  rw [Nat.cast_sub (by omega : 1 ≤ n)]
  push_cast
  ring

/-- A sample of `n` observations equal to `c`. -/
theorem sum_far {n : ℕ} (g : ℕ → ℝ → ℝ) (c : ℝ) : ((sort (List.replicate n c)).mapIdx fun i x => g i x).sum =
    ∑ i ∈ Finset.range n, g i c := by
  rw [sort_of_sorted (sorted_replicate n c)]
  have : (List.replicate n c).mapIdx (fun i x => g i x) = (List.range n).map fun i : ℕ => g i c := by
    apply List.ext_getElem
    · simp
    · intro i h1 h2; simp
  rw [this]
  rfl

theorem hgScore_nonneg {n i : ℕ} (hi : i < n) : 0 ≤ hgScore n i := by
  have h0 : (0 : ℝ) < (n : ℝ) + 1 := by positivity
  have h1 : (i : ℝ) + 1 ≤ n := by exact_mod_cast hi
  have h2 : ((i : ℝ) + 1) / (n + 1) < 1 := by rw [div_lt_one h0]; linarith
  have h3 : 0 < ((i : ℝ) + 1) / (n + 1) := by positivity
  rw [hgScore, neg_nonneg]
  exact Real.log_nonpos (by linarith) (by linarith)

/-- **C96, exponential family, in part.**  Missing: Atkinson, Epstein, Frozini, Gnedenko, Harris, Kimber-Michael,
Kochar, Lorenz and Rossberg.  `C96_exponential` has them all. -/
theorem C96_exponential_partial {s : ExpStat} {m n : ℕ} (hs : TellsFrom s m) (hn : m ≤ n) :
    TellsApart (fun xs => ∀ x ∈ xs, 0 < x) s.value n := by
  have expOnto : ∀ {lam : ℝ}, 0 < lam → Onto (exponCdf lam) := fun {lam} hl => by
    refine ⟨fun x y hxy => ?_, fun u h0 h1 => ⟨-Real.log (1 - u) / lam, ?_⟩⟩
    · unfold exponCdf
      by_cases hy : y ≤ 0
      · rw [if_pos hy, if_pos (hxy.trans hy)]
      · rw [if_neg hy]
        by_cases hx : x ≤ 0
        · rw [if_pos hx]
          have : Real.exp (-(lam * y)) ≤ 1 := Real.exp_le_one_iff.2 (by nlinarith [not_le.1 hy])
          linarith
        · rw [if_neg hx]
          have : Real.exp (-(lam * y)) ≤ Real.exp (-(lam * x)) := Real.exp_le_exp.2 (by nlinarith)
          linarith
    · have hlog : Real.log (1 - u) < 0 := Real.log_neg (by linarith) (by linarith)
      have hp : 0 < -Real.log (1 - u) / lam := div_pos (by linarith) hl
      rw [exponCdf, if_neg (not_le.2 hp), mul_div_cancel₀ _ hl.ne', neg_neg, Real.exp_log (by linarith)]
      ring
  have expPos : ∀ {lam : ℝ} {xs : List ℝ}, (∀ x ∈ xs, 0 < exponCdf lam x ∧ exponCdf lam x < 1) → ∀ x ∈ xs, 0 < x := by
    intro lam xs h x hx
    by_contra hc
    have := (h x hx).1
    rw [exponCdf, if_pos (not_lt.1 hc)] at this
    exact lt_irrefl _ this
  have two : s ≠ .hollanderProschan → s ≠ .shapiroWilk → 2 ≤ n := by
    intro h1 h2
    cases s <;> simp_all [TellsFrom]
  cases s with
  | ks t =>
    have h2 := two (by simp) (by simp)
    exact (C96_edf (.ks t) (expOnto one_pos) h2).congr (fun _ _ h => expPos h) fun _ _ _ => rfl
  | cvm lam =>
    have h2 := two (by simp) (by simp)
    exact (C96_edf .cvm (expOnto hs.2) h2).congr (fun _ _ h => expPos h) fun _ _ _ => rfl
  | wongWong =>
    have h2 := two (by simp) (by simp)
    obtain ⟨v, hv, _, h3⟩ := C81_wongWong (ne_nil_of_length h2 (length_flat n)) flat_pos
    obtain ⟨w, hw, _, h4⟩ := C81_wongWong (ne_nil_of_length h2 (length_spread h2)) spread_pos
    refine tells_flat_spread h2 hv hw fun h => spread_not_constant h2 (h4.1 ?_)
    rw [← h]; exact h3.2 (flat_constant n)
  | moran =>
    have h2 := two (by simp) (by simp)
    obtain ⟨v, hv, _, h3⟩ := C81_moran (ne_nil_of_length h2 (length_flat n)) flat_pos
    obtain ⟨w, hw, _, h4⟩ := C81_moran (ne_nil_of_length h2 (length_spread h2)) spread_pos
    refine tells_flat_spread h2 hv hw fun h => spread_not_constant h2 (h4.1 ?_)
    rw [← h]; exact h3.2 (flat_constant n)
  | gini =>
    have h2 := two (by simp) (by simp)
    have h2' : (2 : ℝ) ≤ n := by exact_mod_cast h2
    refine tells_flat_spread h2 (C82_gini (by rw [length_flat]; exact h2)).1
      (C82_gini (by rw [length_spread h2]; exact h2)).1 ?_
    have e1 : giniCoefficient (flat n) = 0 := by
      rw [giniCoefficient]
      simp [flat]
    have e2 : ((spread n).map fun x => ((spread n).map fun y => |x - y|).sum).sum = 4 * ((n : ℝ) - 1) := by
      simp only [map_spread h2]
      norm_num
      ring
    have e3 : (spread n).sum = n + 2 := by
      have := map_spread (f := fun x => x) h2
      rw [List.map_id'] at this
      rw [this]; ring
    rw [e1, giniCoefficient, e2, e3, length_spread h2]
    have : (0 : ℝ) < n - 1 := by linarith
    positivity
  | pietra =>
    have h2 := two (by simp) (by simp)
    have h2' : (2 : ℝ) ≤ n := by exact_mod_cast h2
    refine tells_flat_spread h2 rfl rfl ?_
    simp only [Exponent.pietra, mean_flat h2, mean_spread h2, map_flat, map_spread h2, length_flat, length_spread h2]
    have : |(3 : ℝ) - (n + 2) / n| = 3 - (n + 2) / n := abs_of_nonneg (by
      rw [sub_nonneg, div_le_iff₀ (by linarith)]; linarith)
    rw [this]
    have h3 : 0 < 3 - ((n : ℝ) + 2) / n := by rw [sub_pos, div_lt_iff₀ (by linarith)]; linarith
    have h4 : 0 ≤ ((n : ℝ) - 1) * |1 - ((n : ℝ) + 2) / n| := mul_nonneg (by linarith) (abs_nonneg _)
    have h5 : 0 < (3 - ((n : ℝ) + 2) / n + ((n : ℝ) - 1) * |1 - ((n : ℝ) + 2) / n|) / (2 * n * (((n : ℝ) + 2) / n)) := by
      apply div_pos (by linarith); positivity
    rw [sub_self, abs_zero, mul_zero, zero_div]
    exact h5.ne
  | we =>
    have h2 := two (by simp) (by simp)
    have h2' : (2 : ℝ) ≤ n := by exact_mod_cast h2
    refine tells_flat_spread h2 rfl rfl ?_
    simp only [Exponent.we, Graph.variance, mean_flat h2, mean_spread h2, map_flat, map_spread h2, length_flat,
      length_spread h2]
    have h3 : (3 : ℝ) - ((n : ℝ) + 2) / n ≠ 0 := by
      have : 0 < 3 - ((n : ℝ) + 2) / n := by rw [sub_pos, div_lt_iff₀ (by linarith)]; linarith
      exact this.ne'
    have h4 : (0 : ℝ) < (3 - ((n : ℝ) + 2) / n) ^ 2 := by positivity
    have h5 : (0 : ℝ) ≤ (n - 1) * (1 - ((n : ℝ) + 2) / n) ^ 2 := mul_nonneg (by linarith) (sq_nonneg _)
    have h6 : (0 : ℝ) < n - 1 := by linarith
    have h7 : (0 : ℝ) < (n - 1) * (((3 - ((n : ℝ) + 2) / n) ^ 2 + (n - 1) * (1 - ((n : ℝ) + 2) / n) ^ 2) / n) /
        ((n : ℝ) ^ 2 * (((n : ℝ) + 2) / n) ^ 2) := by
      have : (0 : ℝ) < (3 - ((n : ℝ) + 2) / n) ^ 2 + (n - 1) * (1 - ((n : ℝ) + 2) / n) ^ 2 := by linarith
      positivity
    norm_num
    exact h7.ne
  | coxOakes =>
    have h2 := two (by simp) (by simp)
    have h2' : (2 : ℝ) ≤ n := by exact_mod_cast h2
    refine tells_flat_spread h2 rfl rfl ?_
    simp only [Exponent.coxOakes, List.map_map, mean_flat h2, mean_spread h2, map_flat, map_spread h2, length_flat,
      length_spread h2, Function.comp_def]
    have neg : ∀ v : ℝ, 0 < v → Real.log v * (1 - v) ≤ 0 := fun v hv => by
      rcases le_total v 1 with h | h
      · exact mul_nonpos_of_nonpos_of_nonneg (Real.log_nonpos hv.le h) (by linarith)
      · exact mul_nonpos_of_nonneg_of_nonpos (Real.log_nonneg h) (by linarith)
    have h3 : 1 < 3 / (((n : ℝ) + 2) / n) := by
      rw [one_lt_div (by positivity), div_lt_iff₀ (by linarith)]; linarith
    have h4 : Real.log (3 / (((n : ℝ) + 2) / n)) * (1 - 3 / (((n : ℝ) + 2) / n)) < 0 :=
      mul_neg_of_pos_of_neg (Real.log_pos h3) (by linarith)
    have h5 := neg (1 / (((n : ℝ) + 2) / n)) (by positivity)
    have h6 : ((n : ℝ) - 1) * (Real.log (1 / (((n : ℝ) + 2) / n)) * (1 - 1 / (((n : ℝ) + 2) / n))) ≤ 0 :=
      mul_nonpos_of_nonneg_of_nonpos (by linarith) h5
    rw [div_one, Real.log_one, zero_mul, mul_zero]
    intro h
    linarith
  | eppsPulley =>
    have h2 := two (by simp) (by simp)
    have h2' : (2 : ℝ) ≤ n := by exact_mod_cast h2
    refine tells_flat_spread h2 rfl rfl ?_
    simp only [Exponent.eppsPulley, List.map_map, mean_flat h2, mean_spread h2, map_flat, map_spread h2, length_flat,
      length_spread h2, Function.comp_def]
    have hr : (0 : ℝ) < √(48 * n) := Real.sqrt_pos.2 (by positivity)
    have tangent : ∀ v : ℝ, Real.exp (-1) * (2 - v) ≤ Real.exp (-v) := fun v => by
      have h := Real.add_one_le_exp (1 - v)
      have e : Real.exp (-v) = Real.exp (-1) * Real.exp (1 - v) := by rw [← Real.exp_add]; congr 1; ring
      rw [e]
      have := Real.exp_pos (-1)
      nlinarith
    have strict : ∀ v : ℝ, v ≠ 1 → Real.exp (-1) * (2 - v) < Real.exp (-v) := fun v hv => by
      have h := Real.add_one_lt_exp (x := 1 - v) (fun h => hv (by linarith))
      have e : Real.exp (-v) = Real.exp (-1) * Real.exp (1 - v) := by rw [← Real.exp_add]; congr 1; ring
      rw [e]
      have := Real.exp_pos (-1)
      nlinarith
    have h3 : 1 < 3 / (((n : ℝ) + 2) / n) := by
      rw [one_lt_div (by positivity), div_lt_iff₀ (by linarith)]; linarith
    have s1 := strict (3 / (((n : ℝ) + 2) / n)) h3.ne'
    have s2 := mul_le_mul_of_nonneg_left (tangent (1 / (((n : ℝ) + 2) / n))) (by linarith : (0 : ℝ) ≤ n - 1)
    have s3 : Real.exp (-1) * (2 - 3 / (((n : ℝ) + 2) / n)) + (n - 1) * (Real.exp (-1) * (2 - 1 / (((n : ℝ) + 2) / n))) =
        n * Real.exp (-1) := by
      generalize Real.exp (-1) = e
      field_simp
      ring
    intro h
    have h4 := mul_left_cancel₀ hr.ne' ((div_left_inj' (by linarith : (n : ℝ) ≠ 0)).1 h)
    rw [div_one] at h4
    nlinarith
  | ahsanullah =>
    have h2 := two (by simp) (by simp)
    have h0 : (0 : ℝ) < n := by exact_mod_cast (by omega : 0 < n)
    have hf : ExpStat.value .ahsanullah (flat n) = .ok 1 := by
      have e1 : ahsH (flat n) = n ^ 3 := by
        unfold ahsH
        rw [length_flat]
        rw [Finset.sum_congr rfl fun k hk => Finset.sum_congr rfl fun i hi => Finset.sum_congr rfl fun j hj => by
          rw [at_flat (Finset.mem_range.1 hk), at_flat (Finset.mem_range.1 hi), at_flat (Finset.mem_range.1 hj)]]
        simp
        ring
      have e2 : ahsG (flat n) = 0 := by
        unfold ahsG
        rw [length_flat]
        rw [Finset.sum_congr rfl fun k hk => Finset.sum_congr rfl fun i hi => Finset.sum_congr rfl fun j hj => by
          rw [at_flat (Finset.mem_range.1 hk), at_flat (Finset.mem_range.1 hi), at_flat (Finset.mem_range.1 hj)]]
        norm_num
      simp only [ExpStat.value, Exponent.ahsanullah, length_flat, e1, e2]
      rw [if_neg (by omega)]
      congr 1
      push_cast
      field_simp
      ring
    have hlt : ahsH (spread n) < n ^ 3 := by
      have e : n ^ 3 = ∑ k ∈ Finset.range n, ∑ i ∈ Finset.range n, ∑ j ∈ Finset.range n, 1 := by
        simp; ring
      unfold ahsH
      rw [length_spread h2, e]
      have le1 : ∀ k i j, (if |at_ (spread n) i - at_ (spread n) j| < at_ (spread n) k then 1 else 0) ≤ 1 := fun k i j => by
        split_ifs <;> simp
      refine Finset.sum_lt_sum (fun k _ => Finset.sum_le_sum fun i _ => Finset.sum_le_sum fun j _ => le1 k i j)
        ⟨1, Finset.mem_range.2 (by omega), Finset.sum_lt_sum (fun i _ => Finset.sum_le_sum fun j _ => le1 1 i j)
          ⟨0, Finset.mem_range.2 (by omega), Finset.sum_lt_sum (fun j _ => le1 1 0 j)
            ⟨1, Finset.mem_range.2 (by omega), ?_⟩⟩⟩
      rw [at_spread (by omega), at_spread (by omega)]
      norm_num
    have hw : ExpStat.value .ahsanullah (spread n) =
        .ok (((ahsH (spread n) : ℝ) - ahsG (spread n)) / (n : ℝ) ^ 3) := by
      simp only [ExpStat.value, Exponent.ahsanullah, length_spread h2]
      rw [if_neg (by omega)]
    refine tells_flat_spread h2 hf hw fun h => ?_
    rw [eq_div_iff (by positivity), one_mul] at h
    have h5 : (ahsH (spread n) : ℝ) < (n : ℝ) ^ 3 := by exact_mod_cast hlt
    have h6 : (0 : ℝ) ≤ ahsG (spread n) := Nat.cast_nonneg _
    linarith
  | deshpande b =>
    have h2 := two (by simp) (by simp)
    have h2' : (2 : ℝ) ≤ n := by exact_mod_cast h2
    obtain ⟨-, hb, hb'⟩ := hs
    have hlt : desCount b (spread n) < desCount b (flat n) := by
      have e : ∀ i ∈ Finset.range n, ∀ k ∈ Finset.range n,
          (if i ≠ k ∧ b * at_ (spread n) k < at_ (spread n) i then 1 else 0) ≤
          (if i ≠ k ∧ b * at_ (flat n) k < at_ (flat n) i then 1 else 0) := fun i hi k hk => by
        rw [at_flat (Finset.mem_range.1 hi), at_flat (Finset.mem_range.1 hk)]
        split_ifs with h1 h2 <;> simp
        exact absurd ⟨h1.1, by linarith⟩ h2
      unfold desCount
      rw [length_spread h2, length_flat]
      refine Finset.sum_lt_sum (fun i hi => Finset.sum_le_sum fun k hk => e i hi k hk)
        ⟨1, Finset.mem_range.2 (by omega), Finset.sum_lt_sum (fun k hk => e 1 (Finset.mem_range.2 (by omega)) k hk)
          ⟨0, Finset.mem_range.2 (by omega), ?_⟩⟩
      rw [at_spread (by omega), at_spread (by omega), at_flat (by omega), at_flat (by omega)]
      have q1 : ¬ (b * 3 < 1) := by linarith
      simp [q1, hb']
    have hv : ∀ l : List ℝ, l.length = n → ExpStat.value (.deshpande b) l = .ok ((desCount b l : ℝ) / (n * (n - 1))) :=
      fun l hl => by
        simp only [ExpStat.value, Exponent.deshpande, hl]
        rw [if_neg (by omega)]
    refine tells_flat_spread h2 (hv _ (length_flat n)) (hv _ (length_spread h2)) fun h => ?_
    have h6 : (0 : ℝ) < n * (n - 1) := mul_pos (by linarith) (by linarith)
    have h7 := (div_left_inj' h6.ne').1 h
    exact hlt.ne' (by exact_mod_cast h7)
  | hegazyGreen1 =>
    have h2 := two (by simp) (by simp)
    have h0 : (0 : ℝ) < n := by exact_mod_cast (by omega : 0 < n)
    let B := ∑ i ∈ Finset.range n, hgScore n i
    have hB : ∀ i ∈ Finset.range n, hgScore n i ≤ B := fun i hi =>
      Finset.single_le_sum (f := fun i => hgScore n i) (fun j hj => hgScore_nonneg (Finset.mem_range.1 hj)) hi
    have hB0 : 0 ≤ B := Finset.sum_nonneg fun j hj => hgScore_nonneg (Finset.mem_range.1 hj)
    have hv : ∀ c : ℝ, B ≤ c → ExpStat.value .hegazyGreen1 (List.replicate n c) = .ok ((n : ℝ)⁻¹ * (n * c - B)) := fun c hc => by
      simp only [ExpStat.value, Exponent.hegazyGreen1, List.length_replicate]
      rw [if_neg (by omega), sum_far (fun i x => |x - hgScore n i|) c]
      congr 2
      rw [Finset.sum_congr rfl fun i hi => abs_of_nonneg (by linarith [hB i hi] : 0 ≤ c - hgScore n i), Finset.sum_sub_distrib]
      simp [B]
    refine ⟨List.replicate n (B + 1), List.replicate n (B + 2), _, _, ⟨by simp, fun x hx => ?_⟩, ⟨by simp, fun x hx => ?_⟩,
      hv _ (by linarith), hv _ (by linarith), fun h => ?_⟩
    · rw [List.eq_of_mem_replicate hx]; linarith
    · rw [List.eq_of_mem_replicate hx]; linarith
    · have := mul_left_cancel₀ (inv_ne_zero h0.ne') h
      nlinarith
  | hegazyGreen2 =>
    have h2 := two (by simp) (by simp)
    have h0 : (0 : ℝ) < n := by exact_mod_cast (by omega : 0 < n)
    let B := ∑ i ∈ Finset.range n, hgScore n i
    have hB0 : 0 ≤ B := Finset.sum_nonneg fun j hj => hgScore_nonneg (Finset.mem_range.1 hj)
    have hv : ∀ c : ℝ, ExpStat.value .hegazyGreen2 (List.replicate n c) =
        .ok ((n : ℝ)⁻¹ * (n * c ^ 2 - 2 * c * B + ∑ i ∈ Finset.range n, hgScore n i ^ 2)) := fun c => by
      simp only [ExpStat.value, Exponent.hegazyGreen2, List.length_replicate]
      rw [if_neg (by omega), sum_far (fun i x => (x - hgScore n i) ^ 2) c]
      congr 2
      have : ∀ i : ℕ, (c - hgScore n i) ^ 2 = c ^ 2 - 2 * c * hgScore n i + hgScore n i ^ 2 := fun i => by ring
      simp only [this, Finset.sum_add_distrib, Finset.sum_sub_distrib, ← Finset.mul_sum, B]
      simp
    refine ⟨List.replicate n (B + 1), List.replicate n (B + 2), _, _, ⟨by simp, fun x hx => ?_⟩, ⟨by simp, fun x hx => ?_⟩,
      hv _, hv _, fun h => ?_⟩
    · rw [List.eq_of_mem_replicate hx]; linarith
    · rw [List.eq_of_mem_replicate hx]; linarith
    · have h3 := add_right_cancel (mul_left_cancel₀ (inv_ne_zero h0.ne') h)
      have h1 : (2 : ℝ) ≤ n := by exact_mod_cast h2
      nlinarith [mul_nonneg (by linarith : (0 : ℝ) ≤ n - 2) hB0]
  | hollanderProschan =>
    have h3 : 3 ≤ n := by simp only [TellsFrom] at hs; omega
    have h3' : (3 : ℝ) ≤ n := by exact_mod_cast h3
    have hv : ∀ l : List ℝ, l.length = n →
        ExpStat.value .hollanderProschan l = .ok (2 / (n * (n - 1) * (n - 2)) * hpCount l) := fun l hl => by
      simp only [ExpStat.value, Exponent.hollanderProschan, hl]
      rw [if_neg (by omega)]
    have e1 : hpCount (flat n) = 0 := by
      unfold hpCount
      rw [length_flat]
      rw [Finset.sum_congr rfl fun i hi => Finset.sum_congr rfl fun j hj => Finset.sum_congr rfl fun k hk => by
        rw [at_flat (Finset.mem_range.1 hk), at_flat (Finset.mem_range.1 hi), at_flat (Finset.mem_range.1 hj)]]
      norm_num
    have e2 : 0 < hpCount (spread n) := by
      unfold hpCount
      rw [length_spread (by omega)]
      refine Finset.sum_pos' (fun _ _ => Nat.zero_le _) ⟨0, Finset.mem_range.2 (by omega),
        Finset.sum_pos' (fun _ _ => Nat.zero_le _) ⟨1, Finset.mem_range.2 (by omega),
        Finset.sum_pos' (fun _ _ => Nat.zero_le _) ⟨2, Finset.mem_range.2 (by omega), ?_⟩⟩⟩
      rw [at_spread (by omega), at_spread (by omega), at_spread (by omega)]
      norm_num
    refine tells_flat_spread (by omega) (hv _ (length_flat n)) (hv _ (length_spread (by omega))) ?_
    rw [e1]
    have : (0 : ℝ) < hpCount (spread n) := by exact_mod_cast e2
    have q1 : (0 : ℝ) < n * (n - 1) * (n - 2) := mul_pos (mul_pos (by linarith) (by linarith)) (by linarith)
    have q2 : 0 < 2 / ((n : ℝ) * (n - 1) * (n - 2)) * hpCount (spread n) := by positivity
    rw [Nat.cast_zero, mul_zero]
    exact q2.ne
  | shapiroWilk =>
    have h3 : 3 ≤ n := by simp only [TellsFrom] at hs; omega
    have h3' : (3 : ℝ) ≤ n := by exact_mod_cast h3
    obtain ⟨k, rfl⟩ : ∃ k, n = k + 2 := ⟨n - 2, by omega⟩
    have hk : (1 : ℝ) ≤ k := by push_cast at h3'; linarith
    let xs : List ℝ := 1 :: List.replicate (k + 1) 2
    let ys : List ℝ := List.replicate (k + 1) 1 ++ [2]
    have sx : sort xs = xs := sort_of_sorted (List.pairwise_cons.2 ⟨fun y hy => by
      rw [List.eq_of_mem_replicate hy]; norm_num, sorted_replicate _ _⟩)
    have sy : sort ys = ys := sort_of_sorted (List.pairwise_append.2 ⟨sorted_replicate _ _, by simp, fun a ha b hb => by
      rw [List.eq_of_mem_replicate ha, List.mem_singleton.1 hb]; norm_num⟩)
    have hx : ExpStat.value .shapiroWilk xs = .ok 1 := by
      simp only [ExpStat.value, Exponent.shapiroWilk, sx]
      simp only [xs, mean, List.length_cons, List.length_replicate, List.sum_cons, List.sum_replicate, List.map_cons,
        List.map_replicate, nsmul_eq_mul]
      congr 1
      push_cast
      have : (k : ℝ) + 1 ≠ 0 := by positivity
      have : (k : ℝ) + 1 + 1 ≠ 0 := by positivity
      rw [div_eq_one_iff_eq]
      · field_simp
        ring
      · have : (0 : ℝ) < (k + 1 + 1 - 1) * ((1 - (1 + (k + 1) * 2) / (k + 1 + 1)) ^ 2 +
            (k + 1) * (2 - (1 + (k + 1) * 2) / (k + 1 + 1)) ^ 2) := by
          have : (1 : ℝ) - (1 + (k + 1) * 2) / (k + 1 + 1) ≠ 0 := by
            rw [sub_ne_zero, Ne, eq_div_iff (by positivity)]
            intro h; linarith
          have : (0:ℝ) < (1 - (1 + (k + 1) * 2) / (k + 1 + 1)) ^ 2 := by positivity
          have : (0 : ℝ) < k + 1 + 1 - 1 := by linarith
          positivity
        exact this.ne'
    have hy : ExpStat.value .shapiroWilk ys = .ok (1 / ((k : ℝ) + 1) ^ 2) := by
      have hc : ys = 1 :: (List.replicate k 1 ++ [2]) := rfl
      simp only [ExpStat.value, Exponent.shapiroWilk, sy]
      rw [hc]
      simp only [mean, List.length_cons, List.length_append, List.length_replicate, List.sum_cons, List.sum_append,
        List.sum_replicate, List.map_cons, List.map_append, List.map_replicate, nsmul_eq_mul, List.map_nil, List.sum_nil,
        List.length_nil]
      congr 1
      push_cast
      have : (k : ℝ) + 1 ≠ 0 := by positivity
      have : (k : ℝ) + 1 + 1 ≠ 0 := by positivity
      rw [div_eq_div_iff]
      · field_simp
        ring
      · have : (0 : ℝ) < (k + 1 + 1 - 1) * ((1 - (1 + (k * 1 + (2 + 0))) / (k + 1 + 1)) ^ 2 +
            (k * (1 - (1 + (k * 1 + (2 + 0))) / (k + 1 + 1)) ^ 2 +
              ((2 - (1 + (k * 1 + (2 + 0))) / (k + 1 + 1)) ^ 2 + 0))) := by
          have : (2 : ℝ) - (1 + (k * 1 + (2 + 0))) / (k + 1 + 1) ≠ 0 := by
            rw [sub_ne_zero, Ne, eq_div_iff (by positivity)]
            intro h; linarith
          have : (0:ℝ) < (2 - (1 + (k * 1 + (2 + 0))) / (k + 1 + 1)) ^ 2 := by positivity
          have : (0 : ℝ) < k + 1 + 1 - 1 := by linarith
          positivity
        exact this.ne'
      · positivity
    refine ⟨xs, ys, _, _, ⟨by simp [xs], fun x hx => ?_⟩, ⟨by simp [ys], fun x hx => ?_⟩, hx, hy, ?_⟩
    · rcases List.mem_cons.1 hx with rfl | hx
      · norm_num
      · rw [List.eq_of_mem_replicate hx]; norm_num
    · rcases List.mem_append.1 hx with hx | hx
      · rw [List.eq_of_mem_replicate hx]; norm_num
      · rw [List.mem_singleton.1 hx]; norm_num
    · intro h
      rw [eq_div_iff (by positivity)] at h
      nlinarith
  | atkinson => exact hs.elim
  | epstein => exact hs.elim
  | frozini => exact hs.elim
  | gnedenko => exact hs.elim
  | harris => exact hs.elim
  | kimberMichael => exact hs.elim
  | kochar => exact hs.elim
  | lorenz => exact hs.elim
  | rossberg => exact hs.elim

/-- The least sizes of `C96_exponential_partial`: pairs for Epps-Pulley and Deshpande, samples of three for Shapiro-Wilk,
for which pairs do not suffice (`C96_refuted_shapiroWilk`). -/
example : TellsFrom .eppsPulley 2 ∧ TellsFrom (.deshpande (44 / 100)) 2 ∧ TellsFrom .shapiroWilk 3 :=
  ⟨rfl, ⟨rfl, by norm_num, by norm_num⟩, rfl⟩

/-- The hypotheses of the theorems about the other families are met. -/
example (min : Minimizer) : TellsApart (fun xs => ∀ x ∈ xs, 0 < x) (fun xs => WeibullStat.watson.value min ⟨2, 3⟩ (.list xs)) 5 ∧
    TellsApart (fun xs => ∀ x ∈ xs, 0 ≤ x ∧ x ≤ 1) (fun xs => Beta.BetaStat.kuiper.value idealBeta ⟨2, 3⟩ xs) 5 ∧
    TellsApart (fun xs => ∀ x ∈ xs, 0 ≤ x) (fun xs => Gamma.GammaStat.moran.value idealGamma ⟨2, 3⟩ xs) 5 ∧
    TellsApart (fun xs => ∀ x ∈ xs, 1 < x ∧ x < 4) (fun xs => UniStat.greenwood.value 1 4 xs) 5 :=
  ⟨C96_weibull min (by norm_num) (by norm_num) (s := .watson) rfl (by norm_num),
    C96_beta scipyBetaCdf_ideal (by norm_num) (by norm_num) (s := .kuiper) rfl (by norm_num),
    C96_gamma scipyGamma_ideal (by norm_num) (by norm_num) (s := .moran) rfl (by norm_num),
    C96_uniform (s := .greenwood) rfl (by norm_num) (by norm_num)⟩

/-! ### Pairs -/

/-- **C96 is false** of the criteria of normality that do not depend on location and scale: all samples of two different
observations have the same value. -/
theorem C96_refuted_normal_pairs {lib : NormLib} (hlib : lib.Symmetric) {s : NormStat} (hs : LocationScaleFree s)
    {x y x' y' : ℝ} (h : x ≠ y) (h' : x' ≠ y') : s.value lib [x, y] = s.value lib [x', y'] := by
  have key : ∀ {x y : ℝ}, x ≠ y → s.value lib [x, y] = s.value lib [0, 1] := by
    have lt : ∀ {x y : ℝ}, x < y → s.value lib [x, y] = s.value lib [0, 1] := fun {x y} h => by
      have := C63_location_scale hlib hs x (y - x) (by linarith) [0, 1]
      simpa using this
    intro x y h
    rcases lt_or_gt_of_ne h with h | h
    · exact lt h
    · rw [C61_normal lib s (List.Perm.swap y x [])]
      exact lt h
  rw [key h, key h']

/-- **C96 is false** of the Shapiro-Wilk criterion of exponentiality: all samples of two different observations have the
value 1. -/
theorem C96_refuted_shapiroWilk {x y : ℝ} (h : x ≠ y) : ExpStat.value .shapiroWilk [x, y] = .ok 1 := by
  obtain ⟨v, hv, h1, h2⟩ := C81_shapiroWilk (rvs := [x, y]) (by simp) (fun hc => h (hc x (by simp) y (by simp)))
  norm_num at h1
  rw [hv, le_antisymm h2 h1]

example : NormStat.dagostino.value scipyNorm [1, 2] = NormStat.dagostino.value scipyNorm [5, -3] :=
  C96_refuted_normal_pairs (s := .dagostino) scipyNorm_symmetric trivial (by norm_num) (by norm_num)

end Pysatl.Props
