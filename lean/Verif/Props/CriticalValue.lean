import Verif.Props.PValue
import Mathlib.Tactic.LinearCombination

/-!
# Properties C21-C23: critical values
-/

namespace Pysatl.Props

open Pysatl.Decision Pysatl.Spec

variable {K : Type} [Field K] [LinearOrder K] [IsStrictOrderedRing K] [FloorSemiring K]

/-- The quantile of the distinct values, as the model computes it. -/
def uniqueQuantile (L : List K) (q : K) : K :=
  lerp (nth (ecdfQuantiles L)) (q * (((ecdfQuantiles L).length - 1 : ℕ) : K))

theorem npQuantile_unique {L : List K} (hL : L ≠ []) {q : K} (h0 : 0 ≤ q) (h1 : q ≤ 1) :
    npQuantile (ecdfQuantiles L) q = .ok (uniqueQuantile L q) :=
  npQuantile_ok (quantiles_ne_nil hL) h0 h1

theorem uniqueQuantile_mono {L : List K} {q q' : K} (h0 : 0 ≤ q) (h : q ≤ q') :
    uniqueQuantile L q ≤ uniqueQuantile L q' :=
  lerp_mono (nth_mono (quantiles_sorted L)) (by positivity)
    (mul_le_mul_of_nonneg_right h (Nat.cast_nonneg _))

theorem uniqueQuantile_range {L : List K} (hL : L ≠ []) {q : K} (h0 : 0 ≤ q) :
    (∃ x ∈ L, x ≤ uniqueQuantile L q) ∧ (∃ y ∈ L, uniqueQuantile L q ≤ y) := by
  have hh : 0 ≤ q * (((ecdfQuantiles L).length - 1 : ℕ) : K) := by positivity
  exact ⟨⟨_, mem_quantiles.1 (nth_mem (quantiles_ne_nil hL) _), le_lerp (nth_mono (quantiles_sorted L)) hh⟩,
    ⟨_, mem_quantiles.1 (nth_mem (quantiles_ne_nil hL) _), lerp_le_succ (nth_mono (quantiles_sorted L)) hh⟩⟩

/-- The critical values contained in a `CriticalValue`. -/
def CriticalValue.values : CriticalValue K → List K
  | .one c => [c]
  | .two l r => [l, r]

/-- **C21.** For a level in `[0,1]` and a non-empty limit distribution the calculation
succeeds and each critical value lies between two simulated values. -/
theorem C21_critical_value_in_range (t : AlternativeType) (L : List K) (hL : L ≠ []) (α : K)
    (h0 : 0 ≤ α) (h1 : α ≤ 1) :
    ∃ cv, (getConcreteFactory t).criticalValue L α = .ok cv ∧
      ∀ c ∈ CriticalValue.values cv, (∃ x ∈ L, x ≤ c) ∧ (∃ y ∈ L, c ≤ y) := by
  cases t
  · refine ⟨.one (uniqueQuantile L (1 - α)), ?_, ?_⟩
    · simp [getConcreteFactory, Factory.criticalValue, rightCriticalValue,
        npQuantile_unique hL (sub_nonneg.2 h1) (sub_le_self _ h0), bind, Except.bind, pure, Except.pure]
    · intro c hc
      simp only [CriticalValue.values, List.mem_singleton] at hc
      subst hc
      exact uniqueQuantile_range hL (sub_nonneg.2 h1)
  · refine ⟨.one (uniqueQuantile L α), ?_, ?_⟩
    · simp [getConcreteFactory, Factory.criticalValue, leftCriticalValue,
        npQuantile_unique hL h0 h1, bind, Except.bind, pure, Except.pure]
    · intro c hc
      simp only [CriticalValue.values, List.mem_singleton] at hc
      subst hc
      exact uniqueQuantile_range hL h0
  · refine ⟨.two (uniqueQuantile L (α / 2)) (uniqueQuantile L (1 - α / 2)), ?_, ?_⟩
    · simp [getConcreteFactory, Factory.criticalValue, twoSidedCriticalValue,
        npQuantile_unique hL (show 0 ≤ α / 2 by linarith) (by linarith),
        npQuantile_unique hL (show 0 ≤ 1 - α / 2 by linarith) (by linarith), bind, Except.bind, pure,
        Except.pure]
    · intro c hc
      simp only [CriticalValue.values, List.mem_cons, List.not_mem_nil, or_false] at hc
      rcases hc with rfl | rfl
      · exact uniqueQuantile_range hL (by linarith)
      · exact uniqueQuantile_range hL (by linarith)

/-- **C21.** A level for which the requested quantile is undefined raises `ValueError`: for
one-sided tests a level outside `[0,1]`, for two-sided ones a level outside `[0,2]`. -/
theorem C21_level_out_of_range (t : AlternativeType) (L : List K) (hL : L ≠ []) (α : K) :
    (getConcreteFactory t).criticalValue L α = .error .valueError ↔
      α < 0 ∨ (if t = .twoTailed then 2 else 1) < α := by
  cases t
  · simp only [getConcreteFactory, Factory.criticalValue, rightCriticalValue, reduceCtorEq, if_false, if_true]
    by_cases h : 0 ≤ 1 - α ∧ 1 - α ≤ 1
    · rw [npQuantile_unique hL h.1 h.2]
      simp only [bind, Except.bind, pure, Except.pure, reduceCtorEq, false_iff, not_or, not_lt]
      constructor <;> linarith
    · rw [npQuantile_error h]
      simp only [bind, Except.bind, true_iff]
      by_contra hc
      push Not at hc
      exact h ⟨by linarith, by linarith⟩
  · simp only [getConcreteFactory, Factory.criticalValue, leftCriticalValue, reduceCtorEq, if_false, if_true]
    by_cases h : 0 ≤ α ∧ α ≤ 1
    · rw [npQuantile_unique hL h.1 h.2]
      simp only [bind, Except.bind, pure, Except.pure, reduceCtorEq, false_iff, not_or, not_lt]
      exact h
    · rw [npQuantile_error h]
      simp only [bind, Except.bind, true_iff]
      by_contra hc
      push Not at hc
      exact h ⟨by linarith, by linarith⟩
  · simp only [getConcreteFactory, Factory.criticalValue, twoSidedCriticalValue, reduceCtorEq, if_false, if_true]
    by_cases h : 0 ≤ α / 2 ∧ α / 2 ≤ 1
    · rw [npQuantile_unique hL h.1 h.2, npQuantile_unique hL (show 0 ≤ 1 - α / 2 by linarith [h.2])
        (by linarith [h.1])]
      simp only [bind, Except.bind, pure, Except.pure, reduceCtorEq, false_iff, not_or, not_lt]
      constructor <;> linarith [h.1, h.2]
    · rw [npQuantile_error h]
      simp only [bind, Except.bind, true_iff]
      by_contra hc
      push Not at hc
      exact h ⟨by linarith, by linarith⟩

example : rightCriticalValue [3, 1, 2, 2, 5] (1 / 4 : ℚ) = .ok (7 / 2) ∧
    twoSidedCriticalValue [3, 1, 2, 2, 5] (1 / 2 : ℚ) = .ok (7 / 4, 7 / 2) := by decide +kernel

/-- **C22.** Raising the level never lowers the left critical value, never raises the right
one, and shrinks the two-sided acceptance interval, which is never inverted. -/
theorem C22_critical_value_monotone (L : List K) (hL : L ≠ []) (α β : K) (h0 : 0 ≤ α) (hαβ : α ≤ β)
    (h1 : β ≤ 1) :
    ∃ l l' r r' a b a' b', leftCriticalValue L α = .ok l ∧ leftCriticalValue L β = .ok l' ∧
      rightCriticalValue L α = .ok r ∧ rightCriticalValue L β = .ok r' ∧
      twoSidedCriticalValue L α = .ok (a, b) ∧ twoSidedCriticalValue L β = .ok (a', b') ∧
      l ≤ l' ∧ r' ≤ r ∧ a ≤ a' ∧ a' ≤ b' ∧ b' ≤ b := by
  have ht : ∀ γ : K, 0 ≤ γ → γ ≤ 1 → twoSidedCriticalValue L γ =
      .ok (uniqueQuantile L (γ / 2), uniqueQuantile L (1 - γ / 2)) := by
    intro γ g0 g1
    simp [twoSidedCriticalValue, npQuantile_unique hL (show 0 ≤ γ / 2 by linarith) (by linarith),
      npQuantile_unique hL (show 0 ≤ 1 - γ / 2 by linarith) (by linarith), bind, Except.bind, pure,
      Except.pure]
  refine ⟨_, _, _, _, _, _, _, _, npQuantile_unique hL h0 (hαβ.trans h1),
    npQuantile_unique hL (h0.trans hαβ) h1, npQuantile_unique hL (by linarith) (by linarith),
    npQuantile_unique hL (by linarith) (by linarith), ht α h0 (hαβ.trans h1), ht β (h0.trans hαβ) h1,
    ?_, ?_, ?_, ?_, ?_⟩ <;> exact uniqueQuantile_mono (by linarith) (by linarith)

example : twoSidedCriticalValue [3, 1, 2, 2, 5] (1 / 10 : ℚ) = .ok (23 / 20, 47 / 10) := by decide +kernel

/-- **C23, refuted.** The critical value is not the empirical quantile: repeated simulated
values are counted once.  On `[0,0,0,0,1]` the left critical value at level 1/2 is 1/2,
while the median of the sample is 0. -/
theorem C23_refuted : leftCriticalValue [0, 0, 0, 0, 1] (1 / 2 : ℚ) = .ok (1 / 2) ∧
    IsSampleQuantile [0, 0, 0, 0, 1] (1 / 2 : ℚ) 0 ∧
    ¬ IsSampleQuantile [0, 0, 0, 0, 1] (1 / 2 : ℚ) (1 / 2) := by
  refine ⟨by decide +kernel, ⟨[0, 0, 0, 0, 1], List.Perm.refl _, by decide, 2, 0, 0, 0, le_rfl, by norm_num,
    by norm_num, rfl, Or.inl rfl, by norm_num⟩, ?_⟩
  rintro ⟨s, hp, hs, k, t, a, b, ht0, ht1, hk, ha, hb, hv⟩
  have hs' : s = [0, 0, 0, 0, 1] :=
    hp.eq_of_pairwise (le := (· ≤ ·)) (fun a b _ _ h1 h2 => le_antisymm h1 h2) hs (by decide)
  subst hs'
  have hk2 : (k : ℚ) + t = 2 := by rw [← hk]; norm_num
  have hk3 : k = 2 := by
    have h1 : (k : ℚ) ≤ 2 := by linarith
    have h2 : (1 : ℚ) < k := by linarith
    have h1' : k ≤ 2 := by exact_mod_cast h1
    have h2' : 1 < k := by exact_mod_cast h2
    omega
  subst hk3
  have ht : t = 0 := by push_cast at hk2; linarith
  simp at ha
  subst ha ht
  norm_num at hv

/-- **C23, what holds.** For a limit distribution without repeated values each critical value
is the linearly interpolated sample quantile at the level (left), at one minus the level
(right), at half the level and one minus half the level (two-sided).  Missing: limit
distributions with ties, where it is false (`C23_refuted`). -/
theorem C23_quantile_partial (L : List K) (hL : L ≠ []) (hnd : L.Nodup) (α : K) (h0 : 0 ≤ α) (h1 : α ≤ 1) :
    ∃ l r a b, leftCriticalValue L α = .ok l ∧ rightCriticalValue L α = .ok r ∧
      twoSidedCriticalValue L α = .ok (a, b) ∧ IsSampleQuantile L α l ∧ IsSampleQuantile L (1 - α) r ∧
      IsSampleQuantile L (α / 2) a ∧ IsSampleQuantile L (1 - α / 2) b := by
  have hq : ∀ q : K, 0 ≤ q → q ≤ 1 → IsSampleQuantile L q (uniqueQuantile L q) := by
    intro q q0 q1
    have hperm : (ecdfQuantiles L).Perm L := (quantiles_perm L).trans (by rw [hnd.dedup])
    have hpos : 0 < L.length := List.length_pos_iff.2 hL
    have hlen : (ecdfQuantiles L).length = L.length := hperm.length_eq
    have hfl := floor_lt_length (quantiles_ne_nil hL) q1
    have hcast : (((ecdfQuantiles L).length - 1 : ℕ) : K) = (L.length : K) - 1 := by
      rw [hlen, Nat.cast_sub hpos, Nat.cast_one]
    set v := ecdfQuantiles L with hv
    set h := q * ((v.length - 1 : ℕ) : K) with hh
    have hh0 : 0 ≤ h := by positivity
    refine ⟨v, hperm, quantiles_sorted L, ⌊h⌋₊, h - ⌊h⌋₊, nth v ⌊h⌋₊, nth v (⌊h⌋₊ + 1),
      frac_nonneg hh0, frac_lt_one h, by rw [← hcast]; ring, ?_, ?_, ?_⟩
    · rw [nth_eq (by omega), List.getElem?_eq_getElem]
    · by_cases hlt : ⌊h⌋₊ + 1 < v.length
      · left
        rw [nth_eq hlt, List.getElem?_eq_getElem]
      · right
        have he : ⌊h⌋₊ = v.length - 1 := by omega
        have h2 : h ≤ ((v.length - 1 : ℕ) : K) := mul_le_of_le_one_left (Nat.cast_nonneg _) q1
        have h3 : (((v.length - 1 : ℕ) : K)) ≤ h := by rw [← he]; exact Nat.floor_le hh0
        refine ⟨by rw [he]; linarith, ?_⟩
        unfold nth
        congr 1
        omega
    · unfold uniqueQuantile lerp
      ring
  have ht : twoSidedCriticalValue L α = .ok (uniqueQuantile L (α / 2), uniqueQuantile L (1 - α / 2)) := by
    simp [twoSidedCriticalValue, npQuantile_unique hL (show 0 ≤ α / 2 by linarith) (by linarith),
      npQuantile_unique hL (show 0 ≤ 1 - α / 2 by linarith) (by linarith), bind, Except.bind, pure,
      Except.pure]
  exact ⟨_, _, _, _, npQuantile_unique hL h0 h1, npQuantile_unique hL (by linarith) (by linarith), ht,
    hq _ h0 h1, hq _ (by linarith) (by linarith), hq _ (by linarith) (by linarith),
    hq _ (by linarith) (by linarith)⟩

example : ([4, 1, 3, 2] : List ℚ).Nodup ∧ leftCriticalValue [4, 1, 3, 2] (1 / 4 : ℚ) = .ok (7 / 4) := by
  decide +kernel

end Pysatl.Props
