import Verif.Props.CriticalValue

/-!
# Properties C24-C28: decisions of goodness-of-fit tests
-/

namespace Pysatl.Props

open Pysatl.Decision Pysatl.Spec

variable {K : Type} [Field K] [LinearOrder K] [IsStrictOrderedRing K] [FloorSemiring K]
variable {σ : Type}

set_option linter.unusedSectionVars false

/-- What `criticalValueDecide` returns when it returns. -/
theorem cvDecide_ok {r : Resolver σ K} {st : Statistic K} {s α : K} {n : ℤ} {w w' : σ}
    {res : TestResult K} (h : (criticalValueDecide r st s α n).exec w = (.ok res, w')) :
    ∃ L cv area, (r st n).exec w = (.ok (some L), w') ∧
      (getConcreteFactory st.alternative).criticalValue L α = .ok cv ∧
      (getConcreteFactory st.alternative).criticalArea cv = .ok area ∧
      res = { statistic := s, significanceLevel := α, pValue := none, criticalValue := some cv,
              rejected := !(area.contains s) } := by
  unfold criticalValueDecide at h
  rw [exec_bind] at h
  rcases hr : (r st n).exec w with ⟨x, w1⟩
  rw [hr] at h
  cases x with
  | error e => simp at h
  | ok o =>
    cases o with
    | none => simp at h
    | some L =>
      simp only [exec_bind, exec_lift] at h
      cases hcv : (getConcreteFactory st.alternative).criticalValue L α with
      | error e => simp [hcv] at h
      | ok cv =>
        simp only [hcv] at h
        cases ha : (getConcreteFactory st.alternative).criticalArea cv with
        | error e => simp [ha] at h
        | ok area =>
          simp only [ha, exec_pure, Prod.mk.injEq, Except.ok.injEq] at h
          obtain ⟨rfl, rfl⟩ := h
          exact ⟨L, cv, area, rfl, hcv, ha, rfl⟩

/-- What `pValueDecide` returns when it returns. -/
theorem pDecide_ok {r : Resolver σ K} {st : Statistic K} {s α : K} {n : ℤ} {w w' : σ}
    {res : TestResult K} (h : (pValueDecide r st s α n).exec w = (.ok res, w')) :
    ∃ L p, (r st n).exec w = (.ok (some L), w') ∧
      (getConcreteFactory st.alternative).pValue L s = .ok p ∧
      res = { statistic := s, significanceLevel := α, pValue := some p, criticalValue := none,
              rejected := decide (p ≤ α) } := by
  unfold pValueDecide at h
  rw [exec_bind] at h
  rcases hr : (r st n).exec w with ⟨x, w1⟩
  rw [hr] at h
  cases x with
  | error e => simp at h
  | ok o =>
    cases o with
    | none => simp at h
    | some L =>
      simp only [exec_bind, exec_lift] at h
      cases hp : (getConcreteFactory st.alternative).pValue L s with
      | error e => simp [hp] at h
      | ok p =>
        simp only [hp, exec_pure, Prod.mk.injEq, Except.ok.injEq] at h
        obtain ⟨rfl, rfl⟩ := h
        exact ⟨L, p, rfl, hp, rfl⟩

/-- The converse, for evaluating: a resolver that answers gives a decision. -/
theorem cvDecide_run {r : Resolver σ K} {st : Statistic K} {s α : K} {n : ℤ} {w w' : σ} {L : List K}
    {cv : CriticalValue K} {area : CriticalArea K} (hr : (r st n).exec w = (.ok (some L), w'))
    (hcv : (getConcreteFactory st.alternative).criticalValue L α = .ok cv)
    (ha : (getConcreteFactory st.alternative).criticalArea cv = .ok area) :
    (criticalValueDecide r st s α n).exec w =
      (.ok { statistic := s, significanceLevel := α, pValue := none, criticalValue := some cv,
             rejected := !(area.contains s) }, w') := by
  unfold criticalValueDecide
  rw [exec_bind, hr]
  simp only [exec_bind, exec_lift, hcv, ha, exec_pure]

theorem pDecide_run {r : Resolver σ K} {st : Statistic K} {s α : K} {n : ℤ} {w w' : σ} {L : List K}
    {p : K} (hr : (r st n).exec w = (.ok (some L), w'))
    (hp : (getConcreteFactory st.alternative).pValue L s = .ok p) :
    (pValueDecide r st s α n).exec w =
      (.ok { statistic := s, significanceLevel := α, pValue := some p, criticalValue := none,
             rejected := decide (p ≤ α) }, w') := by
  unfold pValueDecide
  rw [exec_bind, hr]
  simp only [exec_bind, exec_lift, hp, exec_pure]

/-- A resolver that always returns the list `L`. -/
def constResolver (L : List K) : Resolver Unit K := fun _ _ => pure (some L)

/-- A statistic (the sum of the sample) with a given alternative. -/
def sumStatistic (t : AlternativeType) : Statistic ℚ :=
  { code := "SUM", params := none, distribution := "NORMAL", alternative := t,
    execute := fun rvs => .ok rvs.sum }

/-- **C24.** With the critical-value method: the reported critical value decides by the
stated comparison. -/
theorem C24_decision (r : Resolver σ K) (st : Statistic K) (s α : K) (n : ℤ) (w w' : σ)
    (res : TestResult K) (h : ((DecisionMethod.criticalValue r).decide st s α n).exec w = (.ok res, w')) :
    match st.alternative with
    | .left => ∃ c, res.criticalValue = some (.one c) ∧ (res.rejected = true ↔ s < c)
    | .right => ∃ c, res.criticalValue = some (.one c) ∧ (res.rejected = true ↔ c < s)
    | .twoTailed => ∃ a b, res.criticalValue = some (.two a b) ∧ (res.rejected = true ↔ s < a ∨ b < s) := by
  obtain ⟨L, cv, area, _, hcv, ha, rfl⟩ := cvDecide_ok h
  cases ht : st.alternative <;>
    simp only [ht, getConcreteFactory, reduceCtorEq, if_false, if_true] at hcv ha ⊢ <;>
    cases cv <;> simp only [Factory.criticalArea, Except.ok.injEq, reduceCtorEq] at ha
  · subst ha
    exact ⟨_, rfl, by simp [CriticalArea.contains]⟩
  · subst ha
    exact ⟨_, rfl, by simp [CriticalArea.contains]⟩
  · subst ha
    refine ⟨_, _, rfl, ?_⟩
    simp only [CriticalArea.contains, Bool.not_eq_true', Bool.and_eq_false_iff, decide_eq_false_iff_not, not_le]

theorem cv_value_left {L : List K} {α c : K} (h : leftCriticalValue L α = .ok c) (hL : L ≠ []) :
    0 ≤ α ∧ α ≤ 1 ∧ c = uniqueQuantile L α := by
  unfold leftCriticalValue at h
  by_cases hq : 0 ≤ α ∧ α ≤ 1
  · rw [npQuantile_unique hL hq.1 hq.2] at h
    exact ⟨hq.1, hq.2, (Except.ok.inj h).symm⟩
  · rw [npQuantile_error hq] at h
    cases h

/-- **C24.** Rejection by the critical-value method is monotone in the level: with the same
limit distribution, what is rejected at level `α` is rejected at every larger level. -/
theorem C24_monotone_level (r : Resolver σ K) (st : Statistic K) (s α β : K) (n : ℤ) (w w' w'' : σ)
    (res res' : TestResult K) (hαβ : α ≤ β)
    (hne : ∀ L w', (r st n).exec w = (.ok (some L), w') → L ≠ [])
    (h : ((DecisionMethod.criticalValue r).decide st s α n).exec w = (.ok res, w'))
    (h' : ((DecisionMethod.criticalValue r).decide st s β n).exec w = (.ok res', w''))
    (hrej : res.rejected = true) : res'.rejected = true := by
  obtain ⟨L, cv, area, hL, hcv, ha, rfl⟩ := cvDecide_ok h
  obtain ⟨L', cv', area', hL', hcv', ha', rfl⟩ := cvDecide_ok h'
  rw [hL] at hL'
  simp only [Prod.mk.injEq, Except.ok.injEq, Option.some.injEq] at hL'
  obtain ⟨rfl, rfl⟩ := hL'
  have hnil := hne _ _ hL
  cases ht : st.alternative with
  | right =>
    simp only [ht, getConcreteFactory, reduceCtorEq, if_false, if_true, Factory.criticalValue,
      rightCriticalValue] at hcv hcv' ha ha'
    have hα : 0 ≤ 1 - α ∧ 1 - α ≤ 1 := by
      by_contra hc; rw [npQuantile_error hc] at hcv; cases hcv
    have hβ' : 0 ≤ 1 - β ∧ 1 - β ≤ 1 := by
      by_contra hc; rw [npQuantile_error hc] at hcv'; cases hcv'
    rw [npQuantile_unique hnil hα.1 hα.2] at hcv
    rw [npQuantile_unique hnil hβ'.1 hβ'.2] at hcv'
    simp only [bind, Except.bind, pure, Except.pure, Except.ok.injEq] at hcv hcv'
    subst hcv hcv'
    simp only [Factory.criticalArea, Except.ok.injEq] at ha ha'
    subst ha ha'
    simp only [CriticalArea.contains, Bool.not_eq_true', decide_eq_false_iff_not, not_le] at hrej ⊢
    exact (uniqueQuantile_mono hβ'.1 (by linarith)).trans_lt hrej
  | left =>
    simp only [ht, getConcreteFactory, reduceCtorEq, if_false, if_true, Factory.criticalValue,
      leftCriticalValue] at hcv hcv' ha ha'
    have hα : 0 ≤ α ∧ α ≤ 1 := by
      by_contra hc; rw [npQuantile_error hc] at hcv; cases hcv
    have hβ' : 0 ≤ β ∧ β ≤ 1 := by
      by_contra hc; rw [npQuantile_error hc] at hcv'; cases hcv'
    rw [npQuantile_unique hnil hα.1 hα.2] at hcv
    rw [npQuantile_unique hnil hβ'.1 hβ'.2] at hcv'
    simp only [bind, Except.bind, pure, Except.pure, Except.ok.injEq] at hcv hcv'
    subst hcv hcv'
    simp only [Factory.criticalArea, Except.ok.injEq] at ha ha'
    subst ha ha'
    simp only [CriticalArea.contains, Bool.not_eq_true', decide_eq_false_iff_not, not_le] at hrej ⊢
    exact hrej.trans_le (uniqueQuantile_mono hα.1 hαβ)
  | twoTailed =>
    simp only [ht, getConcreteFactory, reduceCtorEq, if_false, if_true, Factory.criticalValue,
      twoSidedCriticalValue] at hcv hcv' ha ha'
    have hα : 0 ≤ α / 2 ∧ α / 2 ≤ 1 := by
      by_contra hc; rw [npQuantile_error hc] at hcv; cases hcv
    have hβ' : 0 ≤ β / 2 ∧ β / 2 ≤ 1 := by
      by_contra hc; rw [npQuantile_error hc] at hcv'; cases hcv'
    rw [npQuantile_unique hnil hα.1 hα.2, npQuantile_unique hnil (show 0 ≤ 1 - α / 2 by linarith [hα.2])
      (by linarith [hα.1])] at hcv
    rw [npQuantile_unique hnil hβ'.1 hβ'.2, npQuantile_unique hnil (show 0 ≤ 1 - β / 2 by linarith [hβ'.2])
      (by linarith [hβ'.1])] at hcv'
    simp only [bind, Except.bind, pure, Except.pure, Except.ok.injEq] at hcv hcv'
    subst hcv hcv'
    simp only [Factory.criticalArea, Except.ok.injEq] at ha ha'
    subst ha ha'
    simp only [CriticalArea.contains, Bool.not_eq_true', Bool.and_eq_false_iff, decide_eq_false_iff_not,
      not_le] at hrej ⊢
    rcases hrej with h1 | h1
    · exact Or.inl (h1.trans_le (uniqueQuantile_mono hα.1 (by linarith)))
    · exact Or.inr ((uniqueQuantile_mono (by linarith [hβ'.2]) (by linarith)).trans_lt h1)

/-- The hypotheses of C24 are met: the two-sided test of 7 against a limit distribution. -/
example : ∃ res, ((DecisionMethod.criticalValue (constResolver [3, 1, 2, 2, 5])).decide
      (sumStatistic .twoTailed) 7 (1 / 10) 4).exec () = (.ok res, ()) ∧ res.rejected = true :=
  ⟨_, cvDecide_run (L := [3, 1, 2, 2, 5]) (cv := .two (23 / 20) (47 / 10)) rfl (by decide +kernel) rfl,
    by decide +kernel⟩

/-- **C25.** With the p-value method the hypothesis is rejected exactly when the reported
p-value is at most the level, and the p-value does not depend on the level, so rejection
is monotone in the level. -/
theorem C25_pvalue_decision (r : Resolver σ K) (st : Statistic K) (s α β : K) (n : ℤ) (w w' w'' : σ)
    (res res' : TestResult K)
    (h : ((DecisionMethod.pValue r).decide st s α n).exec w = (.ok res, w'))
    (h' : ((DecisionMethod.pValue r).decide st s β n).exec w = (.ok res', w'')) :
    (∃ p, res.pValue = some p ∧ (res.rejected = true ↔ p ≤ α)) ∧ res'.pValue = res.pValue ∧
    (α ≤ β → res.rejected = true → res'.rejected = true) := by
  obtain ⟨L, p, hL, hp, rfl⟩ := pDecide_ok h
  obtain ⟨L', p', hL', hp', rfl⟩ := pDecide_ok h'
  rw [hL] at hL'
  simp only [Prod.mk.injEq, Except.ok.injEq, Option.some.injEq] at hL'
  obtain ⟨rfl, rfl⟩ := hL'
  rw [hp] at hp'
  obtain rfl := Except.ok.inj hp'
  refine ⟨⟨p, rfl, by simp⟩, rfl, ?_⟩
  intro hle hrej
  simp only [decide_eq_true_eq] at hrej ⊢
  exact hrej.trans hle

example : ∃ res, ((DecisionMethod.pValue (constResolver [3, 1, 2, 2])).decide
      (sumStatistic .right) 2 (1 / 4) 4).exec () = (.ok res, ()) ∧ res.rejected = true :=
  ⟨_, pDecide_run (L := [3, 1, 2, 2]) (p := 1 / 4) rfl (by decide +kernel), by decide +kernel⟩

/-! ### C26 -/

/-- **C26, refuted.** On the limit distribution `[1,2,3,4]`, statistic value 3, level 1/4,
right alternative: the p-value method rejects, the critical-value method does not. -/
theorem C26_refuted : ∃ res res' : TestResult ℚ,
    ((DecisionMethod.pValue (constResolver [1, 2, 3, 4])).decide (sumStatistic .right) 3 (1 / 4) 5).exec ()
      = (.ok res, ()) ∧
    ((DecisionMethod.criticalValue (constResolver [1, 2, 3, 4])).decide (sumStatistic .right) 3 (1 / 4) 5).exec ()
      = (.ok res', ()) ∧
    res.rejected = true ∧ res'.rejected = false :=
  ⟨_, _, pDecide_run (L := [1, 2, 3, 4]) (p := 1 / 4) rfl (by decide +kernel),
    cvDecide_run (L := [1, 2, 3, 4]) (cv := .one (13 / 4)) rfl (by decide +kernel) rfl,
    by decide +kernel, by decide +kernel⟩

theorem fracLe_eq_countP (L : List K) (s : K) :
    fracLe L s = ((L.countP (fun x => decide (x ≤ s)) : ℕ) : K) / L.length := by
  rw [fracLe, List.countP_eq_length_filter]

theorem quantiles_count {L : List K} (hnd : L.Nodup) (s : K) :
    (ecdfQuantiles L).countP (fun x => decide (x ≤ s)) = L.countP (fun x => decide (x ≤ s)) ∧
    (ecdfQuantiles L).length = L.length := by
  have hperm : (ecdfQuantiles L).Perm L := (quantiles_perm L).trans (by rw [hnd.dedup])
  exact ⟨hperm.countP_eq _, hperm.length_eq⟩

/-- If `s` is below the `q`-quantile of distinct values, fewer than `q (n-1) + 1` of them
are at most `s`. -/
theorem count_of_lt_quantile {L : List K} (hL : L ≠ []) (hnd : L.Nodup) {q s : K} (h0 : 0 ≤ q) (h1 : q ≤ 1)
    (h : s < uniqueQuantile L q) : fracLe L s < (q * (L.length - 1) + 1) / L.length := by
  obtain ⟨hc, hl⟩ := quantiles_count hnd s
  have hpos : 0 < L.length := List.length_pos_iff.2 hL
  have hpos' : (0 : K) < L.length := by exact_mod_cast hpos
  have hcast : (((ecdfQuantiles L).length - 1 : ℕ) : K) = (L.length : K) - 1 := by
    rw [hl, Nat.cast_sub hpos, Nat.cast_one]
  have hh0 : 0 ≤ q * (((ecdfQuantiles L).length - 1 : ℕ) : K) := by positivity
  have hle : q * (((ecdfQuantiles L).length - 1 : ℕ) : K) ≤ (((ecdfQuantiles L).length - 1 : ℕ) : K) :=
    mul_le_of_le_one_left (Nat.cast_nonneg _) h1
  have h2 : s < nth (ecdfQuantiles L) ⌈q * (((ecdfQuantiles L).length - 1 : ℕ) : K)⌉₊ :=
    h.trans_le (lerp_le_ceil (nth_mono (quantiles_sorted L)) hh0)
  have hceil : ⌈q * (((ecdfQuantiles L).length - 1 : ℕ) : K)⌉₊ < (ecdfQuantiles L).length := by
    have := Nat.ceil_le.2 hle
    omega
  rw [nth_eq hceil] at h2
  have h3 := countP_le_of_lt (quantiles_sorted L) hceil h2
  rw [hc] at h3
  have h4 := Nat.ceil_lt_add_one hh0
  have h5 : ((L.countP (fun x => decide (x ≤ s)) : ℕ) : K) ≤
      (⌈q * (((ecdfQuantiles L).length - 1 : ℕ) : K)⌉₊ : K) := by exact_mod_cast h3
  rw [fracLe_eq_countP, div_lt_div_iff_of_pos_right hpos', ← hcast]
  linarith

/-- If `s` is at or above the `q`-quantile of distinct values, more than `q (n-1)` of them
are at most `s`. -/
theorem count_of_ge_quantile {L : List K} (hL : L ≠ []) (hnd : L.Nodup) {q s : K} (h0 : 0 ≤ q) (h1 : q ≤ 1)
    (h : uniqueQuantile L q ≤ s) : q * (L.length - 1) / L.length < fracLe L s := by
  obtain ⟨hc, hl⟩ := quantiles_count hnd s
  have hpos : 0 < L.length := List.length_pos_iff.2 hL
  have hpos' : (0 : K) < L.length := by exact_mod_cast hpos
  have hcast : (((ecdfQuantiles L).length - 1 : ℕ) : K) = (L.length : K) - 1 := by
    rw [hl, Nat.cast_sub hpos, Nat.cast_one]
  have hh0 : 0 ≤ q * (((ecdfQuantiles L).length - 1 : ℕ) : K) := by positivity
  have hfl := floor_lt_length (quantiles_ne_nil hL) h1
  have hfl' : ⌊q * (((ecdfQuantiles L).length - 1 : ℕ) : K)⌋₊ < (ecdfQuantiles L).length := by omega
  have h2 : nth (ecdfQuantiles L) ⌊q * (((ecdfQuantiles L).length - 1 : ℕ) : K)⌋₊ ≤ s :=
    (le_lerp (nth_mono (quantiles_sorted L)) hh0).trans h
  rw [nth_eq hfl'] at h2
  have h3 := countP_ge_of_le (quantiles_sorted L) hfl' h2
  rw [hc] at h3
  have h4 := Nat.lt_floor_add_one (q * (((ecdfQuantiles L).length - 1 : ℕ) : K))
  have h5 : (⌊q * (((ecdfQuantiles L).length - 1 : ℕ) : K)⌋₊ : K) + 1 ≤
      ((L.countP (fun x => decide (x ≤ s)) : ℕ) : K) := by exact_mod_cast h3
  rw [fracLe_eq_countP, div_lt_div_iff_of_pos_right hpos', ← hcast]
  linarith

/-- **C26, what holds.** On a limit distribution of `n` distinct values the two methods can
disagree only when the p-value is within `1/n` of the level (`2/n` for a two-sided test):
if the critical-value method rejects, the p-value is below `α + 1/n` (`α + 2/n`), and if it
does not reject, the p-value is above `α - 1/n` (`α - 2/n`), unless the statistic equals the
right critical value.  Missing: agreement in that band, false by `C26_refuted`. -/
theorem C26_agreement_partial (r : Resolver σ K) (st : Statistic K) (s α : K) (m : ℤ) (w w' w'' : σ)
    (h0 : 0 ≤ α) (h1 : α ≤ 1) (L : List K) (hres : (r st m).exec w = (.ok (some L), w'')) (hL : L ≠ [])
    (hnd : L.Nodup) (resP resC : TestResult K)
    (hp : ((DecisionMethod.pValue r).decide st s α m).exec w = (.ok resP, w'))
    (hc : ((DecisionMethod.criticalValue r).decide st s α m).exec w = (.ok resC, w')) :
    ∃ p, resP.pValue = some p ∧
      (let band : K := (if st.alternative = .twoTailed then 2 else 1) / L.length
       (resC.rejected = true → p < α + band) ∧
       (resC.rejected = false → α - band < p ∨
         (∃ c, (resC.criticalValue = some (.one c) ∨ ∃ c', resC.criticalValue = some (.two c' c)) ∧ s = c))) := by
  obtain ⟨L1, p, hL1, hpv, rfl⟩ := pDecide_ok hp
  obtain ⟨L2, cv, area, hL2, hcv, ha, rfl⟩ := cvDecide_ok hc
  rw [hres] at hL1 hL2
  simp only [Prod.mk.injEq, Except.ok.injEq, Option.some.injEq] at hL1 hL2
  obtain ⟨rfl, _⟩ := hL1
  obtain ⟨rfl, _⟩ := hL2
  have hpos : 0 < L.length := List.length_pos_iff.2 hL
  have hpos' : (0 : K) < L.length := by exact_mod_cast hpos
  have hn1 : (1 : K) ≤ L.length := by exact_mod_cast hpos
  have hb := cdf_bounds hL s
  rw [← fracLe_eq_countP] at hb
  refine ⟨p, rfl, ?_⟩
  -- arithmetic facts about the band
  have key1 : ∀ q : K, 0 ≤ q → (q * ((L.length : K) - 1) + 1) / L.length ≤ q + 1 / L.length := by
    intro q hq
    rw [← sub_nonneg]
    have : q + 1 / (L.length : K) - (q * ((L.length : K) - 1) + 1) / L.length = q / L.length := by
      field_simp; ring
    rw [this]; positivity
  have key2 : ∀ q : K, q ≤ 1 → q - 1 / L.length ≤ q * ((L.length : K) - 1) / L.length := by
    intro q hq
    rw [← sub_nonneg]
    have : q * ((L.length : K) - 1) / L.length - (q - 1 / (L.length : K)) = (1 - q) / L.length := by
      field_simp; ring
    rw [this]
    exact div_nonneg (by linarith) hpos'.le
  have two : (2 : K) / L.length = 1 / L.length + 1 / L.length := by field_simp; norm_num
  cases ht : st.alternative with
  | left =>
    simp only [ht, getConcreteFactory, reduceCtorEq, if_false, if_true, Factory.criticalValue,
      leftCriticalValue, Factory.pValue, leftPValue_eq hL, npQuantile_unique hL h0 h1, bind, Except.bind,
      pure, Except.pure, Except.ok.injEq] at hcv ha hpv ⊢
    subst hcv hpv
    simp only [Factory.criticalArea, Except.ok.injEq] at ha
    subst ha
    simp only [CriticalArea.contains, Bool.not_eq_true', Bool.not_eq_false', decide_eq_true_eq,
      decide_eq_false_iff_not, not_le]
    constructor
    · intro hlt
      have := count_of_lt_quantile hL hnd h0 h1 hlt
      linarith [key1 α h0]
    · intro hge
      left
      have := count_of_ge_quantile hL hnd h0 h1 hge
      linarith [key2 α h1]
  | right =>
    have g0 : 0 ≤ 1 - α := by linarith
    have g1 : 1 - α ≤ 1 := by linarith
    simp only [ht, getConcreteFactory, reduceCtorEq, if_false, if_true, Factory.criticalValue,
      rightCriticalValue, Factory.pValue, rightPValue_eq hL, npQuantile_unique hL g0 g1, bind, Except.bind,
      pure, Except.pure, Except.ok.injEq] at hcv ha hpv ⊢
    subst hcv hpv
    simp only [Factory.criticalArea, Except.ok.injEq] at ha
    subst ha
    simp only [CriticalArea.contains, Bool.not_eq_true', Bool.not_eq_false', decide_eq_true_eq,
      decide_eq_false_iff_not, not_le, fracGt_eq hL]
    constructor
    · intro hlt
      have := count_of_ge_quantile hL hnd g0 g1 hlt.le
      linarith [key2 (1 - α) g1]
    · intro hge
      rcases hge.eq_or_lt with he | hlt
      · right
        exact ⟨_, Or.inl rfl, he⟩
      · left
        have := count_of_lt_quantile hL hnd g0 g1 hlt
        linarith [key1 (1 - α) g0]
  | twoTailed =>
    have a0 : 0 ≤ α / 2 := by linarith
    have a1 : α / 2 ≤ 1 := by linarith
    have g0 : 0 ≤ 1 - α / 2 := by linarith
    have g1 : 1 - α / 2 ≤ 1 := by linarith
    simp only [ht, getConcreteFactory, reduceCtorEq, if_false, if_true, Factory.criticalValue,
      twoSidedCriticalValue, Factory.pValue, twoSidedPValue_eq hL, npQuantile_unique hL g0 g1,
      npQuantile_unique hL a0 a1, bind, Except.bind, pure, Except.pure, Except.ok.injEq] at hcv ha hpv ⊢
    subst hcv hpv
    simp only [Factory.criticalArea, Except.ok.injEq] at ha
    subst ha
    simp only [CriticalArea.contains, Bool.not_eq_true', Bool.not_eq_false', Bool.and_eq_false_iff,
      Bool.and_eq_true, decide_eq_true_eq, decide_eq_false_iff_not, not_le, fracGt_eq hL]
    rw [two]
    have m1 := min_le_left (fracLe L s) (1 - fracLe L s)
    have m2 := min_le_right (fracLe L s) (1 - fracLe L s)
    constructor
    · rintro (hlt | hlt)
      · have := count_of_lt_quantile hL hnd a0 a1 hlt
        linarith [key1 (α / 2) a0]
      · have := count_of_ge_quantile hL hnd g0 g1 hlt.le
        linarith [key2 (1 - α / 2) g1]
    · rintro ⟨hge, hle⟩
      rcases hle.eq_or_lt with he | hlt
      · right
        exact ⟨_, Or.inr ⟨_, rfl⟩, he⟩
      · left
        have e1 := count_of_ge_quantile hL hnd a0 a1 hge
        have e2 := count_of_lt_quantile hL hnd g0 g1 hlt
        have e3 : α / 2 - 1 / L.length < min (fracLe L s) (1 - fracLe L s) :=
          lt_min (by linarith [key2 (α / 2) a1]) (by linarith [key1 (1 - α / 2) g0])
        linarith

/-- The witness of the refutation meets the hypotheses of the partial theorem. -/
example : ([1, 2, 3, 4] : List ℚ) ≠ [] ∧ ([1, 2, 3, 4] : List ℚ).Nodup := by decide

/-! ### C27, C28 -/

/-- **C27.** When a goodness-of-fit test returns, its result carries the statistic of the
sample and the given level, exactly one of `p_value` and `critical_value` is filled - the
one of the method used - and the limit distribution was the resolver's answer for the
length of the sample. -/
theorem C27_result_fields (st : Statistic K) (rvs : List K) (α : K) (r : Resolver σ K) (w w' : σ)
    (res : TestResult K) :
    ((gofTest st rvs α (.pValue r)).exec w = (.ok res, w') →
      st.execute rvs = .ok res.statistic ∧ res.significanceLevel = α ∧ res.pValue.isSome = true ∧
      res.criticalValue = none ∧ ∃ L, (r st rvs.length).exec w = (.ok (some L), w')) ∧
    ((gofTest st rvs α (.criticalValue r)).exec w = (.ok res, w') →
      st.execute rvs = .ok res.statistic ∧ res.significanceLevel = α ∧ res.pValue = none ∧
      res.criticalValue.isSome = true ∧ ∃ L, (r st rvs.length).exec w = (.ok (some L), w')) := by
  constructor
  · intro h
    unfold gofTest at h
    rw [exec_bind, exec_lift] at h
    cases he : st.execute rvs with
    | error e => simp [he] at h
    | ok v =>
      simp only [he] at h
      obtain ⟨L, p, hL, hp, rfl⟩ := pDecide_ok h
      exact ⟨rfl, rfl, rfl, rfl, L, hL⟩
  · intro h
    unfold gofTest at h
    rw [exec_bind, exec_lift] at h
    cases he : st.execute rvs with
    | error e => simp [he] at h
    | ok v =>
      simp only [he] at h
      obtain ⟨L, cv, area, hL, hcv, ha, rfl⟩ := cvDecide_ok h
      exact ⟨rfl, rfl, rfl, rfl, L, hL⟩

/-- **C27.** Without a limit distribution both methods raise `ValueError` instead of
deciding. -/
theorem C27_no_limit_distribution (st : Statistic K) (rvs : List K) (α v : K) (r : Resolver σ K) (w w' : σ)
    (hv : st.execute rvs = .ok v) (hr : (r st rvs.length).exec w = (.ok none, w')) :
    (gofTest st rvs α (.pValue r)).exec w = (.error .valueError, w') ∧
    (gofTest st rvs α (.criticalValue r)).exec w = (.error .valueError, w') := by
  unfold gofTest
  constructor <;>
  · rw [exec_bind, exec_lift, hv]
    simp only [DecisionMethod.decide, pValueDecide, criticalValueDecide]
    rw [exec_bind, hr]
    simp

/-- **C27.** An error of the statistic is reported before any limit distribution is
requested: the world is unchanged. -/
theorem C27_statistic_error (st : Statistic K) (rvs : List K) (α : K) (m : DecisionMethod σ K) (w : σ)
    (e : PyErr) (hv : st.execute rvs = .error e) :
    (gofTest st rvs α m).exec w = (.error e, w) := by
  unfold gofTest
  rw [exec_bind, exec_lift, hv]

/-- **C28.** The tail of the alternative is the tail used, by both methods. -/
theorem C28_tail (st : Statistic K) (rvs : List K) (α : K) (r : Resolver σ K) (w w' wc : σ)
    (resP resC : TestResult K) (hP : (gofTest st rvs α (.pValue r)).exec w = (.ok resP, w'))
    (hC : (gofTest st rvs α (.criticalValue r)).exec w = (.ok resC, wc)) :
    ∃ L v, (r st rvs.length).exec w = (.ok (some L), w') ∧ st.execute rvs = .ok v ∧
      match st.alternative with
      | .left => ∃ p c, leftPValue L v = .ok p ∧ resP.pValue = some p ∧
          leftCriticalValue L α = .ok c ∧ resC.criticalValue = some (.one c)
      | .right => ∃ p c, rightPValue L v = .ok p ∧ resP.pValue = some p ∧
          rightCriticalValue L α = .ok c ∧ resC.criticalValue = some (.one c)
      | .twoTailed => ∃ p a b, twoSidedPValue L v = .ok p ∧ resP.pValue = some p ∧
          twoSidedCriticalValue L α = .ok (a, b) ∧ resC.criticalValue = some (.two a b) := by
  unfold gofTest at hP hC
  rw [exec_bind, exec_lift] at hP hC
  cases he : st.execute rvs with
  | error e => simp [he] at hP
  | ok v =>
    simp only [he] at hP hC
    obtain ⟨L, p, hL, hp, rfl⟩ := pDecide_ok hP
    obtain ⟨L2, cv, area, hL2, hcv, ha, rfl⟩ := cvDecide_ok hC
    rw [hL] at hL2
    simp only [Prod.mk.injEq, Except.ok.injEq, Option.some.injEq] at hL2
    obtain ⟨rfl, rfl⟩ := hL2
    refine ⟨L, v, hL, rfl, ?_⟩
    cases ht : st.alternative with
    | left =>
      simp only [ht, getConcreteFactory, reduceCtorEq, if_false, if_true, Factory.pValue,
        Factory.criticalValue] at hp hcv ⊢
      cases hl : leftCriticalValue L α with
      | error e => simp [hl, bind, Except.bind] at hcv
      | ok c =>
        simp only [hl, bind, Except.bind, pure, Except.pure, Except.ok.injEq] at hcv
        exact ⟨p, c, hp, rfl, rfl, by rw [hcv]⟩
    | right =>
      simp only [ht, getConcreteFactory, reduceCtorEq, if_false, if_true, Factory.pValue,
        Factory.criticalValue] at hp hcv ⊢
      cases hl : rightCriticalValue L α with
      | error e => simp [hl, bind, Except.bind] at hcv
      | ok c =>
        simp only [hl, bind, Except.bind, pure, Except.pure, Except.ok.injEq] at hcv
        exact ⟨p, c, hp, rfl, rfl, by rw [hcv]⟩
    | twoTailed =>
      simp only [ht, getConcreteFactory, reduceCtorEq, if_false, Factory.pValue,
        Factory.criticalValue] at hp hcv ⊢
      cases hl : twoSidedCriticalValue L α with
      | error e => simp [hl, bind, Except.bind] at hcv
      | ok c =>
        simp only [hl, bind, Except.bind, pure, Except.pure, Except.ok.injEq] at hcv
        exact ⟨p, c.1, c.2, hp, rfl, rfl, by rw [← hcv]⟩

/-- **C28.** Nothing but the resolver's answer for the length of the sample matters. -/
theorem C28_sample_size (st : Statistic K) (rvs : List K) (α : K) (r r' : Resolver σ K)
    (h : r st rvs.length = r' st rvs.length) :
    gofTest st rvs α (.pValue r) = gofTest st rvs α (.pValue r') ∧
    gofTest st rvs α (.criticalValue r) = gofTest st rvs α (.criticalValue r') := by
  unfold gofTest
  simp only [DecisionMethod.decide, pValueDecide, criticalValueDecide, h, and_self]

example : ∃ res resC, (gofTest (sumStatistic .right) [1, 1] (1 / 4) (.pValue (constResolver [3, 1, 2, 2]))).exec ()
      = (.ok res, ()) ∧
    (gofTest (sumStatistic .right) [1, 1] (1 / 4) (.criticalValue (constResolver [3, 1, 2, 2]))).exec ()
      = (.ok resC, ()) ∧ res.pValue = some (1 / 4) ∧ resC.criticalValue = some (.one (5 / 2)) := by
  refine ⟨{ statistic := 2, significanceLevel := 1 / 4, pValue := some (1 / 4), criticalValue := none,
            rejected := true },
          { statistic := 2, significanceLevel := 1 / 4, pValue := none, criticalValue := some (.one (5 / 2)),
            rejected := false }, ?_, ?_, rfl, rfl⟩
  · decide +kernel
  · decide +kernel

end Pysatl.Props
