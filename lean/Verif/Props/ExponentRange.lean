import Verif.Props.Exponent
import Verif.Props.KsEvidence
import Verif.Lemmas.Likelihood
import Mathlib.Analysis.SpecialFunctions.Trigonometric.Bounds
import Mathlib.Algebra.Order.Chebyshev

/-! # C62, C77 (refutations), C80-C82: what the exponentiality statistics measure -/

namespace Pysatl.Props

open Pysatl Pysatl.Decision Pysatl.Graph Pysatl.Edf Pysatl.Exponent Pysatl.Spec

/-- C62 does not extend to the two Hegazy-Green statistics, which take no scale either: doubling
the one-observation sample `1` changes both. -/
theorem C62_refuted_hegazyGreen :
    ExpStat.value .hegazyGreen1 ([1].map (2 * ·)) ≠ ExpStat.value .hegazyGreen1 [1] ∧
    ExpStat.value .hegazyGreen2 ([1].map (2 * ·)) ≠ ExpStat.value .hegazyGreen2 [1] := by
  have hs : hgScore 1 0 = Real.log 2 := by
    rw [hgScore, show (1 : ℝ) - (((0 : ℕ) : ℝ) + 1) / (((1 : ℕ) : ℝ) + 1) = 2⁻¹ by norm_num,
      Real.log_inv, neg_neg]
  have h1 := Real.log_two_lt_d9
  constructor
  · simp only [ExpStat.value, hegazyGreen1, sort, List.map_cons, List.map_nil, List.length_cons,
      List.length_nil, zero_add, one_ne_zero, if_false, List.insertionSort_cons,
      List.insertionSort_nil, List.orderedInsert_nil, List.mapIdx_cons, List.mapIdx_nil,
      List.sum_cons, List.sum_nil, hs, ne_eq, Except.ok.injEq]
    rw [abs_of_pos (by linarith), abs_of_pos (by linarith)]
    norm_num
  · simp only [ExpStat.value, hegazyGreen2, sort, List.map_cons, List.map_nil, List.length_cons,
      List.length_nil, zero_add, one_ne_zero, if_false, List.insertionSort_cons,
      List.insertionSort_nil, List.orderedInsert_nil, List.mapIdx_cons, List.mapIdx_nil,
      List.sum_cons, List.sum_nil, hs, ne_eq, Except.ok.injEq]
    intro h
    norm_num at h
    nlinarith

/-! ### C77 -/

/-- The classes that call `rvs.sort()`. -/
def SortsInPlace : ExpStat → Prop
  | .epstein | .frozini | .kimberMichael | .kochar | .lorenz _ | .shapiroWilk | .hegazyGreen2 => True
  | _ => False

/-- C77 for the exponentiality statistics: seventeen of them leave the caller's sample as it was;
the other seven change every sample that is not already in ascending order (so for them C77 is
false).  In every case the observations stay the same up to order. -/
theorem C77_exponential_partial (s : ExpStat) (rvs : List ℝ) :
    (s.sampleAfter rvs).Perm rvs ∧ (¬ SortsInPlace s → s.sampleAfter rvs = rvs) ∧
      (SortsInPlace s → (s.sampleAfter rvs = rvs ↔ rvs.Pairwise (· ≤ ·))) := by
  have hsort : sort rvs = rvs ↔ rvs.Pairwise (· ≤ ·) :=
    ⟨fun h => h ▸ sort_pairwise rvs, fun h => List.Perm.eq_of_pairwise
      (le := (· ≤ ·)) (fun a b _ _ h1 h2 => le_antisymm h1 h2) (sort_pairwise rvs) h (sort_perm rvs)⟩
  cases s <;> simp only [SortsInPlace, ExpStat.sampleAfter, hsort, sort_perm, List.Perm.refl,
    not_true_eq_false, not_false_eq_true, false_implies, true_implies, and_self, iff_self]

/-- C77 is false: Epstein's statistic leaves the caller's `[2, 1]` as `[1, 2]`. -/
theorem C77_refuted_exponential : ExpStat.sampleAfter .epstein [2, 1] ≠ [2, 1] := by
  intro h
  have := ((C77_exponential_partial .epstein [2, 1]).2.2 trivial).1 h
  norm_num at this

/-! ### C80 -/

/-- The sample that fits perfectly in the sense of Hegazy and Green: each observation equals its
score. -/
noncomputable def perfectSample (n : ℕ) : List ℝ := (List.range n).map fun i : ℕ => hgScore n i

theorem hgScore_mono {n i j : ℕ} (hij : i ≤ j) (hj : j < n) : hgScore n i ≤ hgScore n j := by
  unfold hgScore
  have hn : (0 : ℝ) < (n : ℝ) + 1 := by positivity
  have h1 : ((i : ℝ) + 1) / (n + 1) ≤ ((j : ℝ) + 1) / (n + 1) := by
    gcongr
  have h2 : ((j : ℝ) + 1) / (n + 1) < 1 := by
    rw [div_lt_one hn]
    have : (j : ℝ) < n := by exact_mod_cast hj
    linarith
  have := Real.log_le_log (by linarith) (show 1 - ((j : ℝ) + 1) / (n + 1) ≤ 1 - ((i : ℝ) + 1) / (n + 1) by linarith)
  linarith

theorem sort_perfectSample (n : ℕ) : sort (perfectSample n) = perfectSample n := by
  refine List.Perm.eq_of_pairwise (le := (· ≤ ·)) (fun a b _ _ h1 h2 => le_antisymm h1 h2)
    (sort_pairwise _) ?_ (sort_perm _)
  rw [List.pairwise_iff_getElem]
  intro i j hi hj hij
  simp only [perfectSample, List.length_map, List.length_range] at hi hj
  simp only [perfectSample, List.getElem_map, List.getElem_range]
  exact hgScore_mono hij.le hj

theorem perfectSample_get (n : ℕ) (i : Fin (perfectSample n).length) :
    (perfectSample n)[i] = hgScore n i := by
  change (perfectSample n)[i.1] = _
  unfold perfectSample
  rw [List.getElem_map, List.getElem_range]

theorem perfect_value {n : ℕ} (hn : n ≠ 0) :
    ExpStat.value .hegazyGreen1 (perfectSample n) = .ok 0 ∧
    ExpStat.value .hegazyGreen2 (perfectSample n) = .ok 0 := by
  have hl : (perfectSample n).length = n := by simp [perfectSample]
  have e1 : ((perfectSample n).mapIdx fun i x => |x - hgScore n i|).sum = 0 := by
    rw [sum_mapIdx]
    refine Finset.sum_eq_zero fun i _ => ?_
    rw [perfectSample_get]; simp
  have e2 : ((perfectSample n).mapIdx fun i x => (x - hgScore n i) ^ 2).sum = 0 := by
    rw [sum_mapIdx]
    refine Finset.sum_eq_zero fun i _ => ?_
    rw [perfectSample_get]; simp
  constructor
  · simp only [ExpStat.value, hegazyGreen1, sort_perfectSample, hl, if_neg hn, e1, mul_zero]
  · simp only [ExpStat.value, hegazyGreen2, sort_perfectSample, hl, if_neg hn, e2, mul_zero]

theorem hegazyGreen_nonneg {rvs : List ℝ} {v : ℝ} :
    (ExpStat.value .hegazyGreen1 rvs = .ok v → 0 ≤ v) ∧
    (ExpStat.value .hegazyGreen2 rvs = .ok v → 0 ≤ v) := by
  have key : ∀ f : ℕ → ℝ → ℝ, (∀ i x, 0 ≤ f i x) →
      0 ≤ ((rvs.length : ℝ)⁻¹ * ((sort rvs).mapIdx f).sum) := fun f hf => by
    refine mul_nonneg (inv_nonneg.2 (Nat.cast_nonneg _)) (List.sum_nonneg fun y hy => ?_)
    obtain ⟨i, hi, rfl⟩ := List.mem_mapIdx.1 hy
    exact hf _ _
  constructor
  · intro h
    simp only [ExpStat.value, hegazyGreen1] at h
    split at h
    · cases h
    · cases h; exact key _ fun i x => abs_nonneg _
  · intro h
    simp only [ExpStat.value, hegazyGreen2] at h
    split at h
    · cases h
    · cases h; exact key _ fun i x => sq_nonneg _

/-- **C80 is false for Hegazy-Green.**  Both statistics are distances of the ordered sample to
fixed scores, but the criteria are left-tailed: whenever any sample of size `n` is rejected (by
p-value or by critical value, whatever the level and the limit distribution), the sample that sits
exactly on the scores is rejected too. -/
theorem C80_refuted_hegazyGreen {σ : Type} (s : ExpStat) (hs : s = .hegazyGreen1 ∨ s = .hegazyGreen2)
    (code : String) (params : Option (List (String × ℝ))) (xs : List ℝ) (α : ℝ)
    (m : DecisionMethod σ ℝ) (w w₁ w₂ : σ) (res res' : TestResult ℝ)
    (hne : ∀ r L w', (m = .pValue r ∨ m = .criticalValue r) →
      (r (s.statistic code params) xs.length).exec w = (.ok (some L), w') → L ≠ [])
    (h : (gofTest (s.statistic code params) (perfectSample xs.length) α m).exec w = (.ok res, w₁))
    (h' : (gofTest (s.statistic code params) xs α m).exec w = (.ok res', w₂))
    (hrej : res'.rejected = true) : res.rejected = true := by
  obtain ⟨v, hv, h⟩ := gofTest_ok h
  obtain ⟨v', hv', h'⟩ := gofTest_ok h'
  have hl : (perfectSample xs.length).length = xs.length := by simp [perfectSample]
  rw [hl] at h
  have hn : xs.length ≠ 0 := by
    intro h0
    rcases hs with rfl | rfl
    · simp [ExpStat.statistic, ExpStat.value, hegazyGreen1, h0] at hv'
    · simp [ExpStat.statistic, ExpStat.value, hegazyGreen2, h0] at hv'
  have hle : v ≤ v' := by
    rcases hs with rfl | rfl
    · have e := hv.symm.trans (perfect_value hn).1
      cases e
      exact hegazyGreen_nonneg.1 hv'
    · have e := hv.symm.trans (perfect_value hn).2
      cases e
      exact hegazyGreen_nonneg.2 hv'
  refine (decide_monotone hne h h' hle).2 ?_ hrej
  rcases hs with rfl | rfl <;> rfl

/-- The Kimber-Michael statistic is a distance as well (the largest gap of the stabilised
probability plot), and left-tailed: whenever a sample is rejected, so is every sample of the same
size with a smaller gap. -/
theorem C80_refuted_kimberMichael {σ : Type}
    (code : String) (params : Option (List (String × ℝ))) (xs ys : List ℝ)
    (hlen : xs.length = ys.length) (α : ℝ)
    (m : DecisionMethod σ ℝ) (w w₁ w₂ : σ) (res res' : TestResult ℝ) (d d' : ℝ)
    (hne : ∀ r L w', (m = .pValue r ∨ m = .criticalValue r) →
      (r (ExpStat.statistic .kimberMichael code params) xs.length).exec w = (.ok (some L), w') → L ≠ [])
    (hd : ExpStat.value .kimberMichael xs = .ok d) (hd' : ExpStat.value .kimberMichael ys = .ok d')
    (hdd : d ≤ d')
    (h : (gofTest (ExpStat.statistic .kimberMichael code params) xs α m).exec w = (.ok res, w₁))
    (h' : (gofTest (ExpStat.statistic .kimberMichael code params) ys α m).exec w = (.ok res', w₂))
    (hrej : res'.rejected = true) : res.rejected = true := by
  obtain ⟨v, hv, h⟩ := gofTest_ok h
  obtain ⟨v', hv', h'⟩ := gofTest_ok h'
  have e := hv.symm.trans hd
  cases e
  have e := hv'.symm.trans hd'
  cases e
  rw [← hlen] at h'
  exact (decide_monotone hne h h' hdd).2 rfl hrej

/-- **C80 (partial)**: the distance-type criteria that are right-tailed.  Of two samples of one
size, if the one with the smaller statistic is rejected so is the one with the larger. -/
theorem C80_right_partial {σ : Type} (s : ExpStat)
    (hs : s = .frozini ∨ (∃ p, s = .atkinson p) ∨ (∃ l, s = .cvm l))
    (code : String) (params : Option (List (String × ℝ))) (xs ys : List ℝ)
    (hlen : xs.length = ys.length) (α : ℝ)
    (m : DecisionMethod σ ℝ) (w w₁ w₂ : σ) (res res' : TestResult ℝ) (d d' : ℝ)
    (hne : ∀ r L w', (m = .pValue r ∨ m = .criticalValue r) →
      (r (s.statistic code params) xs.length).exec w = (.ok (some L), w') → L ≠ [])
    (hd : s.value xs = .ok d) (hd' : s.value ys = .ok d') (hdd : d ≤ d')
    (h : (gofTest (s.statistic code params) xs α m).exec w = (.ok res, w₁))
    (h' : (gofTest (s.statistic code params) ys α m).exec w = (.ok res', w₂))
    (hrej : res.rejected = true) : res'.rejected = true := by
  obtain ⟨v, hv, h⟩ := gofTest_ok h
  obtain ⟨v', hv', h'⟩ := gofTest_ok h'
  have e := hv.symm.trans hd
  cases e
  have e := hv'.symm.trans hd'
  cases e
  rw [← hlen] at h'
  refine (decide_monotone hne h h' hdd).1 ?_ hrej
  rcases hs with rfl | ⟨p, rfl⟩ | ⟨l, rfl⟩ <;> rfl

end Pysatl.Props
