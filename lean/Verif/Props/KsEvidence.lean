import Verif.Props.Decision
import Verif.Props.Edf

set_option linter.unusedSectionVars false

/-! # C72: a larger Kolmogorov-Smirnov distance is never weaker evidence -/

namespace Pysatl.Props

open Pysatl Pysatl.Decision Pysatl.Graph Pysatl.Spec Pysatl.Edf

variable {K : Type} [Field K] [LinearOrder K] [IsStrictOrderedRing K] [FloorRing K] {σ : Type}

/-- A Kolmogorov-Smirnov criterion of a family with distribution function `F`: the statistic and
the alternative it reports (`common.py` 22-69: `alternative()` wraps the constructor's
`alternative_type`, and the same type selects the distance). -/
def ksStatistic (code dist : String) (params : Option (List (String × K))) (t : AlternativeType)
    (F : K → K) : Statistic K :=
  { code := code, params := params, distribution := dist, alternative := t, execute := ksOf t F }

theorem gofTest_ok {st : Statistic K} {rvs : List K} {α : K} {m : DecisionMethod σ K} {w w' : σ}
    {res : TestResult K} (h : (gofTest st rvs α m).exec w = (.ok res, w')) :
    ∃ s, st.execute rvs = .ok s ∧ (m.decide st s α rvs.length).exec w = (.ok res, w') := by
  unfold gofTest at h
  rw [exec_bind, exec_lift] at h
  cases hs : st.execute rvs with
  | error e => simp [hs] at h
  | ok s => exact ⟨s, rfl, by simpa [hs] using h⟩

/-- The decision for two values of the statistic, same criterion, size, level, resolver and
history: with the right alternative a larger value is rejected whenever a smaller one is; with
the left alternative the other way round. -/
theorem decide_monotone {st : Statistic K} {s s' α : K} {n : ℤ} {m : DecisionMethod σ K}
    {w w₁ w₂ : σ} {res res' : TestResult K}
    (hne : ∀ r L w', (m = .pValue r ∨ m = .criticalValue r) → (r st n).exec w = (.ok (some L), w') → L ≠ [])
    (h : (m.decide st s α n).exec w = (.ok res, w₁))
    (h' : (m.decide st s' α n).exec w = (.ok res', w₂)) (hs : s ≤ s') :
    (st.alternative = .right → res.rejected = true → res'.rejected = true) ∧
    (st.alternative = .left → res'.rejected = true → res.rejected = true) := by
  cases m with
  | pValue r =>
    obtain ⟨L, p, hr, hp, rfl⟩ := pDecide_ok h
    obtain ⟨L', p', hr', hp', rfl⟩ := pDecide_ok h'
    rw [hr] at hr'
    obtain rfl : L = L' := by simpa using (congrArg Prod.fst hr')
    have hL := hne r L _ (Or.inl rfl) hr
    obtain ⟨l, l', q, q', _, e1, e2, e3, e4, _, hll, hqq, _, _⟩ := C17_pvalue_monotone L hL s s' hs
    constructor
    · intro ht hrej
      simp only [ht, getConcreteFactory, reduceCtorEq, if_false, if_true, Factory.pValue] at hp hp'
      rw [e3] at hp
      rw [e4] at hp'
      cases hp
      cases hp'
      simp only [decide_eq_true_eq] at hrej ⊢
      exact hqq.trans hrej
    · intro ht hrej
      simp only [ht, getConcreteFactory, reduceCtorEq, if_false, if_true, Factory.pValue] at hp hp'
      rw [e1] at hp
      rw [e2] at hp'
      cases hp
      cases hp'
      simp only [decide_eq_true_eq] at hrej ⊢
      exact hll.trans hrej
  | criticalValue r =>
    obtain ⟨L, cv, area, hr, hcv, ha, rfl⟩ := cvDecide_ok h
    obtain ⟨L', cv', area', hr', hcv', ha', rfl⟩ := cvDecide_ok h'
    rw [hr] at hr'
    obtain rfl : L = L' := by simpa using (congrArg Prod.fst hr')
    rw [hcv] at hcv'
    cases hcv'
    rw [ha] at ha'
    cases ha'
    constructor
    · intro ht hrej
      simp only [ht, getConcreteFactory, reduceCtorEq, if_false, if_true] at ha
      cases cv <;> simp only [Factory.criticalArea, Except.ok.injEq, reduceCtorEq] at ha
      subst ha
      simp only [CriticalArea.contains, Bool.not_eq_true', decide_eq_false_iff_not, not_le] at hrej ⊢
      exact hrej.trans_le hs
    · intro ht hrej
      simp only [ht, getConcreteFactory, reduceCtorEq, if_false, if_true] at ha
      cases cv <;> simp only [Factory.criticalArea, Except.ok.injEq, reduceCtorEq] at ha
      subst ha
      simp only [CriticalArea.contains, Bool.not_eq_true', decide_eq_false_iff_not, not_le] at hrej ⊢
      exact hs.trans_lt hrej

/-- **C72, right-tailed criteria** (missing: it is false for the other two, see below).  Two
samples of one size, the same Kolmogorov-Smirnov criterion, level, decision method and history:
when the sample at the smaller distance is rejected, so is the one at the larger. -/
theorem C72_right_partial (code dist : String) (params : Option (List (String × K))) (F : K → K)
    (xs ys : List K) (hlen : xs.length = ys.length) (α : K) (m : DecisionMethod σ K) (w w₁ w₂ : σ)
    (res res' : TestResult K) (d d' : K)
    (hne : ∀ r L w', (m = .pValue r ∨ m = .criticalValue r) →
      (r (ksStatistic code dist params .right F) xs.length).exec w = (.ok (some L), w') → L ≠ [])
    (hd : ksOf .right F xs = .ok d) (hd' : ksOf .right F ys = .ok d') (hdd : d ≤ d')
    (h : (gofTest (ksStatistic code dist params .right F) xs α m).exec w = (.ok res, w₁))
    (h' : (gofTest (ksStatistic code dist params .right F) ys α m).exec w = (.ok res', w₂))
    (hrej : res.rejected = true) : res'.rejected = true := by
  obtain ⟨s, hs, h⟩ := gofTest_ok h
  obtain ⟨s', hs', h'⟩ := gofTest_ok h'
  have e : s = d := by simpa [ksStatistic, hd] using hs.symm
  have e' : s' = d' := by simpa [ksStatistic, hd'] using hs'.symm
  subst e e'
  rw [← hlen] at h'
  exact (decide_monotone hne h h' hdd).1 rfl hrej

/-- **C72, left-tailed criteria.** The direction is the opposite one: when the sample at the
*larger* distance is rejected, so is the one at the smaller. -/
theorem C72_left_reversed (code dist : String) (params : Option (List (String × K))) (F : K → K)
    (xs ys : List K) (hlen : xs.length = ys.length) (α : K) (m : DecisionMethod σ K) (w w₁ w₂ : σ)
    (res res' : TestResult K) (d d' : K)
    (hne : ∀ r L w', (m = .pValue r ∨ m = .criticalValue r) →
      (r (ksStatistic code dist params .left F) xs.length).exec w = (.ok (some L), w') → L ≠ [])
    (hd : ksOf .left F xs = .ok d) (hd' : ksOf .left F ys = .ok d') (hdd : d ≤ d')
    (h : (gofTest (ksStatistic code dist params .left F) xs α m).exec w = (.ok res, w₁))
    (h' : (gofTest (ksStatistic code dist params .left F) ys α m).exec w = (.ok res', w₂))
    (hrej : res'.rejected = true) : res.rejected = true := by
  obtain ⟨s, hs, h⟩ := gofTest_ok h
  obtain ⟨s', hs', h'⟩ := gofTest_ok h'
  have e : s = d := by simpa [ksStatistic, hd] using hs.symm
  have e' : s' = d' := by simpa [ksStatistic, hd'] using hs'.symm
  subst e e'
  rw [← hlen] at h'
  exact (decide_monotone hne h h' hdd).2 rfl hrej

/-- The uniform distribution function on `[0,1]`, over the rationals. -/
def unitCdfQ (x : ℚ) : ℚ := max 0 (min x 1)

/-- The Kolmogorov-Smirnov criterion of the uniform distribution on `[0,1]`. -/
def ksUnit (t : AlternativeType) : Statistic ℚ :=
  ksStatistic "KS_UNIFORM_GOODNESS_OF_FIT" "UNIFORM" (some [("a", 0), ("b", 1)]) t unitCdfQ

/-- Run the test on the uniform criterion with a fixed limit distribution. -/
def runUnit (p : Bool) (t : AlternativeType) (L rvs : List ℚ) (α : ℚ) : Except PyErr (TestResult ℚ) :=
  ((gofTest (ksUnit t) rvs α (if p then .pValue (constResolver L) else .criticalValue (constResolver L))).exec ()).1

/-- A case of `C72_right_partial`: `[1/2, 1/4]` at distance 1/2 is rejected, and so is
`[1/8, 1/4]` at distance 3/4. -/
example : ksOf .right unitCdfQ [1 / 2, 1 / 4] = .ok (1 / 2) ∧
    ksOf .right unitCdfQ [1 / 8, 1 / 4] = .ok (3 / 4) ∧
    (runUnit true .right [1 / 8, 1 / 4, 1 / 8, 1 / 2] [1 / 2, 1 / 4] (1 / 4)).map (·.rejected) = .ok true ∧
    (runUnit true .right [1 / 8, 1 / 4, 1 / 8, 1 / 2] [1 / 8, 1 / 4] (1 / 4)).map (·.rejected) = .ok true := by
  decide +kernel

/-- A case of `C72_left_reversed`: distance 1/2 is rejected, and so is distance 1/4. -/
example : ksOf .left unitCdfQ [1 / 2] = .ok (1 / 2) ∧ ksOf .left unitCdfQ [1 / 4] = .ok (1 / 4) ∧
    (runUnit true .left [1 / 2, 5 / 8, 3 / 4, 1] [1 / 2] (1 / 4)).map (·.rejected) = .ok true ∧
    (runUnit true .left [1 / 2, 5 / 8, 3 / 4, 1] [1 / 4] (1 / 4)).map (·.rejected) = .ok true := by
  decide +kernel

/-- **C72, refuted** for two-tailed criteria, with both methods: the sample `[1/2]`, whose
distance 1/2 is the smallest a sample of one observation can have, is rejected; `[1/4]`, at
distance 3/4, is not.  Limit distribution `[5/8, 3/4, 7/8, 1]`, level 1/4. -/
theorem C72_refuted_two_tailed : ∀ p : Bool,
    ksOf .twoTailed unitCdfQ [1 / 2] = .ok (1 / 2) ∧ ksOf .twoTailed unitCdfQ [1 / 4] = .ok (3 / 4) ∧
    (runUnit p .twoTailed [5 / 8, 3 / 4, 7 / 8, 1] [1 / 2] (1 / 4)).map (·.rejected) = .ok true ∧
    (runUnit p .twoTailed [5 / 8, 3 / 4, 7 / 8, 1] [1 / 4] (1 / 4)).map (·.rejected) = .ok false := by
  decide +kernel

/-- **C72, refuted** for left-tailed criteria, with both methods: distance 1/4 is rejected,
distance 1, the largest possible, is not. -/
theorem C72_refuted_left : ∀ p : Bool,
    ksOf .left unitCdfQ [1 / 4] = .ok (1 / 4) ∧ ksOf .left unitCdfQ [1] = .ok 1 ∧
    (runUnit p .left [5 / 8, 3 / 4, 7 / 8, 1] [1 / 4] (1 / 4)).map (·.rejected) = .ok true ∧
    (runUnit p .left [5 / 8, 3 / 4, 7 / 8, 1] [1] (1 / 4)).map (·.rejected) = .ok false := by
  decide +kernel

end Pysatl.Props
