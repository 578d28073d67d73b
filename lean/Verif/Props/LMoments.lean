import Verif.Props.Normal
import Verif.Props.Plotting
import Verif.Spec.LMoments

/-! # C109: Hosking's statistics are built from sample L-moments -/

namespace Pysatl.Props

open Pysatl.Graph Pysatl.Normal Pysatl.Exponent Pysatl.Spec

/-- Sum of the `j`-th entries over all subsequences of length `m`. -/
theorem sublistsLen_sum_at : ∀ (l : List ℝ) (m j : ℕ), j < m →
    ((l.sublistsLen m).map fun s => at_ s j).sum =
      ∑ i ∈ Finset.range l.length, at_ l i * (i.choose j * (l.length - 1 - i).choose (m - 1 - j) : ℕ)
  | [], m, j, h => by
    obtain ⟨m, rfl⟩ : ∃ k, m = k + 1 := ⟨m - 1, by omega⟩
    simp
  | a :: l, m, j, h => by
    obtain ⟨m, rfl⟩ : ∃ k, m = k + 1 := ⟨m - 1, by omega⟩
    rw [List.sublistsLen_succ_cons, List.map_append, List.sum_append, List.map_map,
      sublistsLen_sum_at l (m + 1) j h, List.length_cons, Finset.sum_range_succ']
    simp only [Nat.add_sub_cancel, at_cons_succ, at_cons_zero]
    rcases j with _ | j
    · simp only [Function.comp_def, at_cons_zero, List.map_const', List.sum_replicate,
        List.length_sublistsLen, Nat.choose_zero_right, one_mul, Nat.sub_zero, nsmul_eq_mul]
      congr 1
      · refine Finset.sum_congr rfl fun i hi => ?_
        rw [show l.length - (i + 1) = l.length - 1 - i by omega]
      · rw [mul_comm]
    · have e : ((fun s => at_ s (j + 1)) ∘ List.cons a) = fun s => at_ s j := by
        funext s; simp
      rw [e, sublistsLen_sum_at l m j (by omega)]
      simp only [Nat.choose_zero_succ, zero_mul, Nat.cast_zero, mul_zero, add_zero]
      rw [← Finset.sum_add_distrib]
      refine Finset.sum_congr rfl fun i hi => ?_
      rw [show l.length - (i + 1) = l.length - 1 - i by omega, Nat.choose_succ_succ,
        show m - (j + 1) = m - 1 - j by omega]
      push_cast
      ring

theorem kthSmallest_sublist {xs s : List ℝ} (h : s.Sublist (sort xs)) (k : ℕ) :
    kthSmallest (s : Multiset ℝ) k = at_ s (k - 1) := by
  have : (s : Multiset ℝ).sort (· ≤ ·) = s := by
    refine List.Perm.eq_of_pairwise (le := (· ≤ ·)) (fun a b _ _ => le_antisymm)
      (Multiset.pairwise_sort _ _) ((sort_pairwise xs).sublist h) ?_
    exact Multiset.coe_eq_coe.1 (Multiset.sort_eq _ _)
  rw [kthSmallest, this, at_]

theorem list_sum_finset {α : Type} (S : Finset ℕ) (f : ℕ → α → ℝ) : ∀ l : List α,
    (l.map fun s => ∑ k ∈ S, f k s).sum = ∑ k ∈ S, (l.map (f k)).sum
  | [] => by simp
  | a :: l => by
    simp only [List.map_cons, List.sum_cons, Finset.sum_add_distrib]
    rw [list_sum_finset S f l]

/-- The L-moments in terms of the order statistics. -/
theorem sampleLMoment_eq (t r : ℕ) (xs : List ℝ) :
    sampleLMoment t r xs = (∑ i ∈ Finset.range xs.length, at_ (sort xs) i *
      ∑ k ∈ Finset.range r, (-1 : ℝ) ^ k * (r - 1).choose k *
        (i.choose (r + t - 1 - k) * (xs.length - 1 - i).choose (t + k) : ℕ)) /
      (r * (xs.length.choose (r + 2 * t) : ℝ)) := by
  unfold sampleLMoment
  have hx : (xs : Multiset ℝ) = (sort xs : Multiset ℝ) := Multiset.coe_eq_coe.2 (sort_perm xs).symm
  rw [hx, Multiset.powersetCard_coe, Multiset.map_coe, Multiset.sum_coe, List.map_map, ← div_div]
  congr 1
  have e : ∀ s ∈ (sort xs).sublistsLen (r + 2 * t),
      ((fun s : Multiset ℝ => (∑ k ∈ Finset.range r, (-1 : ℝ) ^ k * (r - 1).choose k *
        kthSmallest s (r + t - k)) / r) ∘ Multiset.ofList) s =
      ∑ k ∈ Finset.range r, (-1 : ℝ) ^ k * (r - 1).choose k / r * at_ s (r + t - 1 - k) := by
    intro s hs
    have h := (List.mem_sublistsLen.1 hs).1
    simp only [Function.comp]
    rw [Finset.sum_div]
    refine Finset.sum_congr rfl fun k hk => ?_
    rw [kthSmallest_sublist h, show r + t - k - 1 = r + t - 1 - k by omega]
    ring
  rw [List.map_congr_left e, list_sum_finset]
  have e2 : ∀ k ∈ Finset.range r, (((sort xs).sublistsLen (r + 2 * t)).map fun s =>
      (-1 : ℝ) ^ k * (r - 1).choose k / r * at_ s (r + t - 1 - k)).sum =
      ∑ i ∈ Finset.range xs.length, at_ (sort xs) i * ((-1 : ℝ) ^ k * (r - 1).choose k *
        (i.choose (r + t - 1 - k) * (xs.length - 1 - i).choose (t + k) : ℕ)) / r := by
    intro k hk
    have hk := Finset.mem_range.1 hk
    rw [List.sum_map_mul_left, sublistsLen_sum_at _ _ _ (by omega), (sort_perm xs).length_eq,
      Finset.mul_sum]
    refine Finset.sum_congr rfl fun i _ => ?_
    rw [show r + 2 * t - 1 - (r + t - 1 - k) = t + k by omega]
    ring
  rw [Finset.sum_congr rfl e2, Finset.sum_comm, Finset.sum_div]
  refine Finset.sum_congr rfl fun i _ => ?_
  rw [← Finset.sum_div, ← Finset.mul_sum]

theorem trimmedMoment_eq {t : ℕ} (ht : 1 ≤ t) (r : ℕ) (xs : List ℝ) :
    trimmedMoment t r xs = sampleLMoment t r xs := by
  rw [sampleLMoment_eq]
  unfold trimmedMoment
  congr 1
  have hz : ∀ i, i = 0 ∨ i + 1 = xs.length → ∑ k ∈ Finset.range r, (-1 : ℝ) ^ k * (r - 1).choose k *
        (i.choose (r + t - 1 - k) * (xs.length - 1 - i).choose (t + k) : ℕ) = 0 := by
    intro i hi
    refine Finset.sum_eq_zero fun k hk => ?_
    have hk := Finset.mem_range.1 hk
    rcases hi with rfl | hi
    · rw [Nat.choose_eq_zero_of_lt (show 0 < r + t - 1 - k by omega)]; simp
    · rw [show xs.length - 1 - i = 0 by omega, Nat.choose_eq_zero_of_lt (show 0 < t + k by omega)]; simp
  have e : ∑ i ∈ Finset.Ico 2 xs.length, at_ (sort xs) (i - 1) * pstarmod t r xs.length i =
      ∑ i ∈ Finset.Ico 1 (xs.length - 1), at_ (sort xs) i *
      ∑ k ∈ Finset.range r, (-1 : ℝ) ^ k * (r - 1).choose k *
        (i.choose (r + t - 1 - k) * (xs.length - 1 - i).choose (t + k) : ℕ) := by
    rcases Nat.lt_or_ge xs.length 1 with h0 | h0
    · rw [Finset.Ico_eq_empty (by omega), Finset.Ico_eq_empty (by omega), Finset.sum_empty,
        Finset.sum_empty]
    have := Finset.sum_Ico_add' (fun i => at_ (sort xs) (i - 1) * pstarmod t r xs.length i) 1 (xs.length - 1) 1
    rw [Nat.sub_add_cancel h0] at this
    rw [show (2 : ℕ) = 1 + 1 from rfl, ← this]
    refine Finset.sum_congr rfl fun i _ => ?_
    unfold pstarmod
    rw [Nat.add_sub_cancel]
    congr 1
    refine Finset.sum_congr rfl fun k _ => ?_
    rw [show xs.length - (i + 1) = xs.length - 1 - i by omega]
    push_cast; ring
  rw [e]
  refine Finset.sum_subset (fun i hi => ?_) fun i hi hi' => ?_
  · rw [Finset.mem_Ico] at hi; rw [Finset.mem_range]; omega
  · rw [Finset.mem_range] at hi
    rw [Finset.mem_Ico] at hi'
    rw [hz i (by omega), mul_zero]

/-! ### The untrimmed L-moments from probability weighted moments -/

theorem cast_choose_three : ∀ a : ℕ, (a.choose 3 : ℝ) = a * (a - 1) * (a - 2) / 6
  | 0 => by simp
  | a + 1 => by
    rw [Nat.choose_succ_succ' a 2, Nat.cast_add, Nat.cast_choose_two, cast_choose_three a]
    push_cast; ring

theorem cast_choose_four : ∀ a : ℕ, (a.choose 4 : ℝ) = a * (a - 1) * (a - 2) * (a - 3) / 24
  | 0 => by simp
  | a + 1 => by
    rw [Nat.choose_succ_succ' a 3, Nat.cast_add, cast_choose_three, cast_choose_four a]
    push_cast; ring

theorem dot_at (c : ℕ → ℝ) (l : List ℝ) : dot c l = ∑ i ∈ Finset.range l.length, at_ l i * c i := by
  unfold dot
  rw [sum_mapIdx_at]
  exact Finset.sum_congr rfl fun i _ => mul_comm _ _

theorem sum_at' (l : List ℝ) : l.sum = ∑ i ∈ Finset.range l.length, at_ l i := by
  have := sum_at (fun x : ℝ => x) l
  rw [List.map_id'] at this
  exact this.symm

theorem hosking1_moments {xs : List ℝ} (h : 4 ≤ xs.length) :
    let n : ℝ := xs.length
    let x := sort xs
    let b0 := x.sum / n
    let b1 := dot (fun i => (i : ℝ)) x / (n * (n - 1))
    let b2 := dot (fun i => (i : ℝ) * (i - 1)) x / (n * (n - 1) * (n - 2))
    let b3 := dot (fun i => (i : ℝ) * (i - 1) * (i - 2)) x / (n * (n - 1) * (n - 2) * (n - 3))
    2 * b1 - b0 = sampleLMoment 0 2 xs ∧ 6 * b2 - 6 * b1 + b0 = sampleLMoment 0 3 xs ∧
      20 * b3 - 30 * b2 + 12 * b1 - b0 = sampleLMoment 0 4 xs := by
  dsimp only
  have hn : (4 : ℝ) ≤ xs.length := by exact_mod_cast h
  have h0 : (xs.length : ℝ) ≠ 0 := by linarith
  have h1 : (xs.length : ℝ) - 1 ≠ 0 := by linarith
  have h2 : (xs.length : ℝ) - 2 ≠ 0 := by linarith
  have h3 : (xs.length : ℝ) - 3 ≠ 0 := by linarith
  have hl : (sort xs).length = xs.length := (sort_perm xs).length_eq
  have hm : ∀ i ∈ Finset.range xs.length, ((xs.length - 1 - i : ℕ) : ℝ) = xs.length - 1 - i := fun i hi => by
    have := Finset.mem_range.1 hi
    rw [Nat.cast_sub (by omega), Nat.cast_sub (by omega), Nat.cast_one]
  refine ⟨?_, ?_, ?_⟩ <;>
  · rw [sampleLMoment_eq]
    simp only [dot_at, sum_at', hl]
    simp only [Finset.sum_div, Finset.mul_sum, ← Finset.sum_sub_distrib, ← Finset.sum_add_distrib]
    refine Finset.sum_congr rfl fun i hi => ?_
    simp only [Finset.sum_range_succ, Finset.sum_range_zero, Nat.cast_mul, Nat.cast_choose_two,
      cast_choose_three, cast_choose_four, Nat.choose_one_right, Nat.choose_zero_right, hm i hi,
      Nat.add_zero, Nat.zero_add, Nat.mul_zero, Nat.choose_self, Nat.reduceSub, Nat.reduceAdd,
      Nat.cast_one]
    generalize (xs.length : ℝ) = N at *
    generalize at_ (sort xs) i = a
    generalize (i : ℝ) = j
    push_cast
    field_simp
    ring

/-- **C109**: without trimming. -/
theorem C109_hosking1 (lib : NormLib) {xs : List ℝ} (h : 4 ≤ xs.length) :
    NormStat.value lib .hosking1 xs = .ok (some (lMomentStatistic 0 xs)) := by
  simp only [NormStat.value, guarded, if_pos (show 3 < xs.length by omega)]
  obtain ⟨e2, e3, e4⟩ := hosking1_moments h
  simp only [Normal.hosking1]
  rw [e2, e3, e4]
  rfl

theorem hoskingTrimmed_eq {t : ℕ} (ht : 1 ≤ t) (xs : List ℝ) :
    hoskingTrimmed t xs = lMomentStatistic t xs := by
  unfold hoskingTrimmed hoskingStat lMomentStatistic
  rw [trimmedMoment_eq ht, trimmedMoment_eq ht, trimmedMoment_eq ht]
  rfl

/-- **C109**: with one, two and three observations trimmed on either side. -/
theorem C109_trimmed (lib : NormLib) {xs : List ℝ} (h : 4 ≤ xs.length) :
    NormStat.value lib .hosking2 xs = .ok (some (lMomentStatistic 1 xs)) ∧
    NormStat.value lib .hosking3 xs = .ok (some (lMomentStatistic 2 xs)) ∧
    NormStat.value lib .hosking4 xs = .ok (some (lMomentStatistic 3 xs)) := by
  simp only [NormStat.value, guarded, if_pos (show 3 < xs.length by omega), hoskingTrimmed_eq le_rfl,
    hoskingTrimmed_eq (show 1 ≤ 2 by omega), hoskingTrimmed_eq (show 1 ≤ 3 by omega)]
  exact ⟨trivial, rfl, rfl⟩

example : 4 ≤ ([1, 2, 4, 7, 9, 9, 12, 15, 20, 30] : List ℝ).length := by norm_num

end Pysatl.Props
