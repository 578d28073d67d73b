import Verif.Props.Functional

/-! # C106: spacing statistics are ratios of total times on test -/

namespace Pysatl.Props

open Pysatl.Decision Pysatl.Graph Pysatl.Edf Pysatl.Exponent Pysatl.Spec Pysatl.Expon

/-- An order statistic is the entry of the sorted sample. -/
theorem orderStat_sorted : ∀ {s : List ℝ} {k : ℕ} {t : ℝ}, s.Pairwise (· ≤ ·) →
    s.countP (fun x => x < t) < k → k ≤ s.countP (fun x => x ≤ t) → at_ s (k - 1) = t
  | [], k, t, _, h1, h2 => by simp at h1 h2; omega
  | a :: l, k, t, hs, h1, h2 => by
    obtain ⟨ha, hl⟩ := List.pairwise_cons.1 hs
    rcases lt_trichotomy a t with h | h | h
    · rw [List.countP_cons_of_pos (by simpa using h)] at h1
      rw [List.countP_cons_of_pos (by simpa using h.le)] at h2
      obtain ⟨j, rfl⟩ : ∃ j, k = j + 2 := ⟨k - 2, by omega⟩
      have := orderStat_sorted (k := j + 1) (t := t) hl (by omega) (by omega)
      simpa using this
    · subst h
      have h0 : k ≠ 0 := by omega
      rcases Nat.lt_or_ge 1 k with hk | hk
      · obtain ⟨j, rfl⟩ : ∃ j, k = j + 2 := ⟨k - 2, by omega⟩
        rw [List.countP_cons_of_pos (by simp)] at h2
        have h3 : l.countP (fun x => x < a) = 0 := List.countP_eq_zero.2 fun x hx => by
          simpa using ha x hx
        have := orderStat_sorted (k := j + 1) (t := a) hl (by omega) (by omega)
        simpa using this
      · obtain rfl : k = 1 := by omega
        rfl
    · exfalso
      have h3 : (a :: l).countP (fun x => x ≤ t) = 0 := List.countP_eq_zero.2 fun x hx => by
        rcases List.mem_cons.1 hx with rfl | hx
        · simpa using h
        · simpa using h.trans_le (ha x hx)
      omega

theorem orderStat_eq {xs : List ℝ} {k : ℕ} {t : ℝ} (h : IsOrderStat xs k t) :
    at_ (sort xs) (k - 1) = t ∧ 0 < k ∧ k ≤ xs.length := by
  obtain ⟨_, h1, h2⟩ := h
  refine ⟨orderStat_sorted (sort_pairwise xs) ?_ ?_, by omega, h2.trans List.countP_le_length⟩
  · rwa [(sort_perm xs).countP_eq]
  · rwa [(sort_perm xs).countP_eq]

theorem normSpacings_cons_cons (a b : ℝ) (l : List ℝ) :
    normSpacings (a :: b :: l) = ((l.length : ℝ) + 1) * (b - a) :: normSpacings (b :: l) := by
  unfold normSpacings
  rw [npDiff, List.mapIdx_cons]
  congr 1
  · simp
  · congr 1
    funext i d
    simp

/-- The first `k` normalised spacings add up to the total time on test. -/
theorem sum_take_normSpacings : ∀ {c : ℝ} {s : List ℝ} {k : ℕ}, s.Pairwise (· ≤ ·) → 0 < k → k ≤ s.length →
    ((normSpacings (c :: s)).take k).sum = (s.map fun x => min x (at_ s (k - 1)) - c).sum
  | c, [], k, _, h0, hk => by simp at hk; omega
  | c, a :: l, k, hs, h0, hk => by
    obtain ⟨ha, hl⟩ := List.pairwise_cons.1 hs
    obtain ⟨j, rfl⟩ : ∃ j, k = j + 1 := ⟨k - 1, by omega⟩
    rw [normSpacings_cons_cons, List.take_succ_cons, List.sum_cons, List.map_cons, List.sum_cons]
    have split : ∀ t : ℝ, (l.map fun x => min x t - c).sum =
        (l.map fun x => min x t - a).sum + l.length * (a - c) := fun t => by
      rw [show (fun x => min x t - c) = fun x => (min x t - a) + (a - c) by funext x; ring, List.sum_map_add]
      simp
    rcases Nat.eq_zero_or_pos j with rfl | hj
    · have e : (l.map fun x => min x a - a).sum = 0 := by
        rw [List.map_congr_left (g := fun _ => (0 : ℝ)) fun x hx => by rw [min_eq_right (ha x hx), sub_self]]
        simp
      simp only [zero_add, Nat.sub_self, at_cons_zero, min_self, List.take_zero, List.sum_nil]
      rw [split, e]
      ring
    · have hat : at_ (a :: l) (j + 1 - 1) = at_ l (j - 1) := by
        obtain ⟨i, rfl⟩ : ∃ i, j = i + 1 := ⟨j - 1, by omega⟩
        simp
      have hlen : j ≤ l.length := by simpa using hk
      have hge : a ≤ at_ l (j - 1) := by
        unfold at_
        rw [List.getD_eq_getElem _ _ (by omega)]
        exact ha _ (List.getElem_mem _)
      rw [hat, sum_take_normSpacings hl hj hlen, split, min_eq_left hge]
      ring

theorem sort_cons_zero {rvs : List ℝ} (hpos : ∀ x ∈ rvs, 0 < x) : sort (0 :: rvs) = 0 :: sort rvs := by
  refine List.Perm.eq_of_pairwise (le := (· ≤ ·)) (fun a b _ _ h1 h2 => le_antisymm h1 h2) (sort_pairwise _) ?_ ?_
  · refine List.pairwise_cons.2 ⟨fun x hx => (hpos x ((sort_perm rvs).mem_iff.1 hx)).le, sort_pairwise _⟩
  · exact (sort_perm _).trans ((sort_perm rvs).symm.cons 0)

theorem sum_take_eq {rvs : List ℝ} (hpos : ∀ x ∈ rvs, 0 < x) {k : ℕ} {t : ℝ} (ht : IsOrderStat rvs k t) :
    ((normSpacings (sort (0 :: rvs))).take k).sum = totalTime rvs t := by
  obtain ⟨h1, h2, h3⟩ := orderStat_eq ht
  rw [sort_cons_zero hpos, sum_take_normSpacings (sort_pairwise _) h2 (by rwa [(sort_perm rvs).length_eq]), h1]
  simp only [sub_zero]
  rw [((sort_perm rvs).map _).sum_eq]
  rfl

theorem sum_spacings_eq {rvs : List ℝ} (hpos : ∀ x ∈ rvs, 0 < x) :
    (normSpacings (sort (0 :: rvs))).sum = rvs.sum := by
  rw [sort_cons_zero hpos, sum_normSpacings_zero, (sort_perm rvs).sum_eq]

theorem sum_drop_eq (l : List ℝ) (k : ℕ) : (l.drop k).sum = l.sum - (l.take k).sum := by
  rw [← List.sum_take_add_sum_drop l k]; ring

theorem length_spacings (rvs : List ℝ) : (normSpacings (sort (0 :: rvs))).length = rvs.length := by
  rw [normSpacings_length, (sort_perm _).length_eq]; simp

/-- **C106**, Gnedenko: the mean time on test per failure before the `r`-th failure over that
after it. -/
theorem C106_gnedenko {rvs : List ℝ} (hpos : ∀ x ∈ rvs, 0 < x) {r : ℕ} {t : ℝ} (ht : IsOrderStat rvs r t)
    (hr : r < rvs.length) :
    ExpStat.value (.gnedenko (some r)) rvs =
      .ok ((totalTime rvs t / r) / ((rvs.sum - totalTime rvs t) / ((rvs.length : ℝ) - r))) := by
  have h0 := (orderStat_eq ht).2.1
  simp only [ExpStat.value, Exponent.gnedenko, Option.getD_some,
    if_neg (show ¬ (r = 0 ∨ rvs.length - r = 0) by omega)]
  rw [sum_drop_eq, sum_take_eq hpos ht, sum_spacings_eq hpos]

theorem pyRoundDiv_eq {n m r : ℕ} (hm : m = 2 ∨ m = 4) (h : IsRounded n m r) : pyRoundDiv n m = r := by
  obtain ⟨h1, h2, h3⟩ := h
  rw [Nat.even_iff] at h3
  unfold pyRoundDiv
  rcases hm with rfl | rfl <;> split_ifs <;> omega

/-- **C106**, Gnedenko with the default split. -/
theorem C106_gnedenko_default {rvs : List ℝ} (hpos : ∀ x ∈ rvs, 0 < x) {r : ℕ} {t : ℝ}
    (hr : IsRounded rvs.length 2 r) (ht : IsOrderStat rvs r t) (hn : r < rvs.length) :
    ExpStat.value (.gnedenko none) rvs =
      .ok ((totalTime rvs t / r) / ((rvs.sum - totalTime rvs t) / ((rvs.length : ℝ) - r))) := by
  rw [← C106_gnedenko hpos ht hn]
  simp only [ExpStat.value, Exponent.gnedenko, Option.getD_none, Option.getD_some,
    pyRoundDiv_eq (Or.inl rfl) hr]

/-- **C106**, Harris: the mean time on test per failure for the first and last `r` failures over
that for the failures in the middle. -/
theorem C106_harris {rvs : List ℝ} (hpos : ∀ x ∈ rvs, 0 < x) {r : ℕ} {s t : ℝ}
    (hs : IsOrderStat rvs r s) (ht : IsOrderStat rvs (rvs.length - r) t) (hr : 2 * r < rvs.length) :
    ExpStat.value (.harris (some r)) rvs =
      .ok (((totalTime rvs s + (rvs.sum - totalTime rvs t)) / (2 * r)) /
        ((totalTime rvs t - totalTime rvs s) / ((rvs.length : ℝ) - 2 * r))) := by
  have h0 := (orderStat_eq hs).2.1
  simp only [ExpStat.value, Exponent.harris, Option.getD_some, lastSlice, midSlice,
    if_neg (show ¬ r = 0 by omega), length_spacings]
  rw [sum_drop_eq, sum_drop_eq, List.take_take, min_eq_left (show r ≤ rvs.length - r by omega),
    sum_take_eq hpos ht, sum_take_eq hpos hs, sum_spacings_eq hpos]

/-- **C106**, Harris with the default split. -/
theorem C106_harris_default {rvs : List ℝ} (hpos : ∀ x ∈ rvs, 0 < x) {r : ℕ} {s t : ℝ}
    (hq : IsRounded rvs.length 4 r)
    (hs : IsOrderStat rvs r s) (ht : IsOrderStat rvs (rvs.length - r) t) (hr : 2 * r < rvs.length) :
    ExpStat.value (.harris none) rvs =
      .ok (((totalTime rvs s + (rvs.sum - totalTime rvs t)) / (2 * r)) /
        ((totalTime rvs t - totalTime rvs s) / ((rvs.length : ℝ) - 2 * r))) := by
  rw [← C106_harris hpos hs ht hr]
  simp only [ExpStat.value, Exponent.harris, Option.getD_none, Option.getD_some,
    pyRoundDiv_eq (Or.inr rfl) hq]

/-- Non-vacuity: the smallest and the middle one of three observations. -/
example : IsOrderStat [3, 1, 7] 1 1 ∧ IsOrderStat [3, 1, 7] 2 3 ∧
    (∀ x ∈ ([3, 1, 7] : List ℝ), 0 < x) ∧ IsRounded 3 2 2 ∧ IsRounded 3 4 1 := by
  refine ⟨⟨by simp, ?_, ?_⟩, ⟨by simp, ?_, ?_⟩, by simp, by unfold IsRounded; decide, by unfold IsRounded; decide⟩ <;> norm_num [List.countP_cons]

end Pysatl.Props
