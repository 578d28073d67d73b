import Verif.Lemmas.Decision
import Verif.Spec.Decision
import Mathlib.Data.Rat.Floor
import Mathlib.Tactic.NormNum

/-!
# Properties C16-C19: Monte Carlo p-values

`(getConcreteFactory t).pValue L s` is the model of
`AbstractAlternativeFactory.get_concrete_factory(t).get_p_value_calculator().calculate(L, s)`.
-/

namespace Pysatl.Props

open Pysatl.Decision Pysatl.Spec

variable {K : Type} [Field K] [LinearOrder K] [IsStrictOrderedRing K] [FloorSemiring K]

theorem cdf_bounds {L : List K} (hL : L ≠ []) (s : K) :
    0 ≤ ((L.countP (fun x => decide (x ≤ s)) : ℕ) : K) / L.length ∧
    ((L.countP (fun x => decide (x ≤ s)) : ℕ) : K) / L.length ≤ 1 := by
  have h : 0 < L.length := List.length_pos_iff.2 hL
  have h' : (0 : K) < L.length := by exact_mod_cast h
  refine ⟨by positivity, ?_⟩
  rw [div_le_one h']
  exact_mod_cast List.countP_le_length

/-- **C16.** Every p-value, of whatever alternative, is a number in `[0,1]`. -/
theorem C16_pvalue_range (t : AlternativeType) (L : List K) (hL : L ≠ []) (s : K) :
    ∃ p, (getConcreteFactory t).pValue L s = .ok p ∧ 0 ≤ p ∧ p ≤ 1 := by
  have hb := cdf_bounds hL s
  cases t
  · refine ⟨_, by simp [getConcreteFactory, Factory.pValue, rightPValue, ecdfEvaluate_ok hL, bind,
      Except.bind, pure, Except.pure]; rfl, by linarith, by linarith⟩
  · exact ⟨_, by simp [getConcreteFactory, Factory.pValue, leftPValue, ecdfEvaluate_ok hL], hb.1, hb.2⟩
  · refine ⟨_, by simp [getConcreteFactory, Factory.pValue, twoSidedPValue, ecdfEvaluate_ok hL, bind,
      Except.bind, pure, Except.pure]; rfl, ?_, ?_⟩
    · have : 0 ≤ min (((L.countP (fun x => decide (x ≤ s)) : ℕ) : K) / L.length)
        (1 - ((L.countP (fun x => decide (x ≤ s)) : ℕ) : K) / L.length) := le_min hb.1 (by linarith)
      linarith
    · have h1 := min_le_left (((L.countP (fun x => decide (x ≤ s)) : ℕ) : K) / L.length)
        (1 - ((L.countP (fun x => decide (x ≤ s)) : ℕ) : K) / L.length)
      have h2 := min_le_right (((L.countP (fun x => decide (x ≤ s)) : ℕ) : K) / L.length)
        (1 - ((L.countP (fun x => decide (x ≤ s)) : ℕ) : K) / L.length)
      linarith

example : leftPValue [3, 1, 2, 2] (2 : ℚ) = .ok (3 / 4) ∧ rightPValue [3, 1, 2, 2] (2 : ℚ) = .ok (1 / 4) ∧
    twoSidedPValue [3, 1, 2, 2] (2 : ℚ) = .ok (1 / 2) := by decide +kernel

theorem leftPValue_eq {L : List K} (hL : L ≠ []) (s : K) : leftPValue L s = .ok (fracLe L s) := by
  rw [leftPValue, ecdfEvaluate_ok hL, fracLe, List.countP_eq_length_filter]

theorem fracGt_eq {L : List K} (hL : L ≠ []) (s : K) : fracGt L s = 1 - fracLe L s := by
  have h : 0 < L.length := List.length_pos_iff.2 hL
  have h' : (L.length : K) ≠ 0 := by exact_mod_cast h.ne'
  have h1 : (L.filter (fun x => s < x)).length + (L.filter (fun x => x ≤ s)).length = L.length := by
    rw [← List.countP_eq_length_filter, ← List.countP_eq_length_filter,
      List.length_eq_countP_add_countP (fun x => decide (s < x))]
    congr 1
    apply List.countP_congr
    intro x _
    simp
  unfold fracGt fracLe
  rw [eq_sub_iff_add_eq, ← add_div, div_eq_one_iff_eq h']
  exact_mod_cast h1

theorem rightPValue_eq {L : List K} (hL : L ≠ []) (s : K) : rightPValue L s = .ok (fracGt L s) := by
  rw [fracGt_eq hL, rightPValue]
  have := leftPValue_eq hL s
  rw [leftPValue] at this
  rw [this]
  rfl

theorem twoSidedPValue_eq {L : List K} (hL : L ≠ []) (s : K) :
    twoSidedPValue L s = .ok (2 * min (fracLe L s) (fracGt L s)) := by
  rw [fracGt_eq hL, twoSidedPValue]
  have := leftPValue_eq hL s
  rw [leftPValue] at this
  rw [this]
  rfl

theorem fracLe_mono (L : List K) {s s' : K} (h : s ≤ s') : fracLe L s ≤ fracLe L s' := by
  unfold fracLe
  refine div_le_div_of_nonneg_right ?_ (Nat.cast_nonneg _)
  rw [← List.countP_eq_length_filter, ← List.countP_eq_length_filter]
  exact_mod_cast List.countP_mono_left (fun x _ hx => by
    simp only [decide_eq_true_eq] at hx ⊢; exact hx.trans h)

/-- **C17.** With a growing statistic the left p-value does not decrease and the right one
does not increase; left and right p-value add up to 1, and the two-sided one is twice the
smaller of them. -/
theorem C17_pvalue_monotone (L : List K) (hL : L ≠ []) (s s' : K) (hs : s ≤ s') :
    ∃ l l' r r' t, leftPValue L s = .ok l ∧ leftPValue L s' = .ok l' ∧
      rightPValue L s = .ok r ∧ rightPValue L s' = .ok r' ∧ twoSidedPValue L s = .ok t ∧
      l ≤ l' ∧ r' ≤ r ∧ l + r = 1 ∧ t = 2 * min l r := by
  refine ⟨_, _, _, _, _, leftPValue_eq hL s, leftPValue_eq hL s', rightPValue_eq hL s,
    rightPValue_eq hL s', twoSidedPValue_eq hL s, fracLe_mono L hs, ?_, ?_, rfl⟩
  · rw [fracGt_eq hL, fracGt_eq hL]
    linarith [fracLe_mono L hs]
  · rw [fracGt_eq hL]
    ring

example : leftPValue [3, 1, 2, 2] (1 : ℚ) = .ok (1 / 4) ∧ leftPValue [3, 1, 2, 2] (2 : ℚ) = .ok (3 / 4) := by
  decide +kernel

theorem ecdfEvaluate_perm {L L' : List K} (h : L.Perm L') (s : K) :
    ecdfEvaluate L s = ecdfEvaluate L' s := by
  unfold ecdfEvaluate
  rw [h.length_eq, h.countP_eq]

theorem ecdfEvaluate_repeat (L : List K) {k : ℕ} (hk : 0 < k) (s : K) :
    ecdfEvaluate (List.replicate k L).flatten s = ecdfEvaluate L s := by
  have hl : (List.replicate k L).flatten.length = k * L.length := by
    simp
  have hc : (List.replicate k L).flatten.countP (fun x => decide (x ≤ s)) =
      k * L.countP (fun x => decide (x ≤ s)) := by
    rw [List.countP_flatten]; simp
  have hk' : (k : K) ≠ 0 := by exact_mod_cast hk.ne'
  unfold ecdfEvaluate
  rw [hl, hc]
  by_cases h0 : L.length = 0
  · simp [h0]
  · rw [if_neg (by simp [h0, hk.ne']), if_neg h0]
    congr 1
    push_cast
    rw [mul_div_mul_left _ _ hk']

/-- **C18.** Reordering the limit distribution, or repeating all of it `k` times, changes no
p-value. -/
theorem C18_pvalue_multiset (t : AlternativeType) (L L' : List K) (s : K) :
    (L.Perm L' → (getConcreteFactory t).pValue L s = (getConcreteFactory t).pValue L' s) ∧
    (∀ k, 0 < k → (getConcreteFactory t).pValue (List.replicate k L).flatten s =
      (getConcreteFactory t).pValue L s) := by
  constructor
  · intro h
    cases t <;> simp [getConcreteFactory, Factory.pValue, leftPValue, rightPValue, twoSidedPValue,
      ecdfEvaluate_perm h]
  · intro k hk
    cases t <;> simp only [getConcreteFactory, Factory.pValue, leftPValue, rightPValue, twoSidedPValue,
      ecdfEvaluate_repeat L hk] <;> rfl

example : ([3, 1, 2] : List ℚ).Perm [1, 2, 3] := by decide

/-- **C19, refuted.** The right p-value does not count ties: a statistic equal to every
simulated value gets right p-value 0, not 1. -/
theorem C19_refuted : rightPValue [5, 5, 5] (5 : ℚ) = .ok 0 ∧ fracGe [5, 5, 5] (5 : ℚ) = 1 := by
  decide +kernel

theorem filter_ge_length (L : List K) (s : K) : (L.filter (fun x => s ≤ x)).length =
    (L.filter (fun x => s < x)).length + L.count s := by
  induction L with
  | nil => simp
  | cons a L ih =>
    rcases lt_trichotomy s a with h | h | h
    · simp [h.le, h, ih, h.ne']; omega
    · subst h
      simp [ih]
      omega
    · simp [h.not_ge, h.not_gt, ih, h.ne]

/-- **C19, what holds.** The left p-value is the fraction of simulated values at or below
the statistic.  The right p-value is the fraction strictly above it; it equals the
fraction at or above it exactly when the statistic is not among the simulated values, and
is smaller otherwise.  Missing: the tie rule for the right tail, false by `C19_refuted`. -/
theorem C19_ties_partial (L : List K) (hL : L ≠ []) (s : K) :
    leftPValue L s = .ok (fracLe L s) ∧ rightPValue L s = .ok (fracGt L s) ∧
    fracGt L s ≤ fracGe L s ∧ (fracGt L s = fracGe L s ↔ s ∉ L) := by
  have h : 0 < L.length := List.length_pos_iff.2 hL
  have h' : (0 : K) < L.length := by exact_mod_cast h
  have h1 := filter_ge_length L s
  have h2 : fracGe L s = fracGt L s + (L.count s : K) / L.length := by
    unfold fracGe fracGt
    rw [h1, ← add_div]
    push_cast
    rfl
  refine ⟨leftPValue_eq hL s, rightPValue_eq hL s, ?_, ?_⟩
  · rw [h2]
    have : (0 : K) ≤ (L.count s : K) / L.length := by positivity
    linarith
  · rw [h2, left_eq_add, div_eq_zero_iff, or_iff_left h'.ne']
    rw [Nat.cast_eq_zero, List.count_eq_zero]

end Pysatl.Props
