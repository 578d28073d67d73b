import Verif.Props.LikelihoodSupport

/-!
# Property C133: likelihood of samples without spread

The documentation of the likelihood functions names the value returned when all observations are
equal: 0, or infinity for the Pareto and Laplace families.  The theorems show that this value is
returned for exactly these samples.
-/

namespace Pysatl.Props

open Pysatl Pysatl.Graph Pysatl.Likelihood Pysatl.Spec

theorem eq_of_not_varies {d : List ℝ} (h : ¬ Varies d) {x y : ℝ} (hx : x ∈ d) (hy : y ∈ d) : x = y := by
  by_contra hne
  exact h ⟨x, hx, y, hy, hne⟩

theorem allEqualFirst_const {d : List ℝ} (hne : d ≠ []) (h : ¬ Varies d) : allEqualFirst d = .ok true := by
  cases d with
  | nil => exact absurd rfl hne
  | cons z d =>
    simp only [allEqualFirst, Except.ok.injEq, List.all_eq_true, decide_eq_true_eq]
    exact fun x hx => eq_of_not_varies h hx (by simp)

theorem exp_ne_zero_num (x : ℝ) : ((Real.exp x : ℝ) : Num) ≠ 0 := by
  have h := (Real.exp_pos x).ne'
  exact_mod_cast h

theorem sum_sq_dev_eq_zero {d : List ℝ} (hne : d ≠ []) :
    (d.map fun x => (x - d.sum / d.length) ^ 2).sum / (d.length : ℝ) = 0 ↔ ¬ Varies d := by
  have hl : (d.length : ℝ) ≠ 0 := by simpa using hne
  rw [div_eq_zero_iff, or_iff_left hl]
  constructor
  · intro h ⟨x, hx, y, hy, hxy⟩
    have key : ∀ z ∈ d, z = d.sum / d.length := by
      intro z hz
      have h1 : (z - d.sum / d.length) ^ 2 ≤ (d.map fun x => (x - d.sum / d.length) ^ 2).sum :=
        List.single_le_sum (by simpa using fun a _ => sq_nonneg _) _ (List.mem_map.2 ⟨z, hz, rfl⟩)
      have h2 : (z - d.sum / d.length) ^ 2 = 0 := le_antisymm (h1.trans h.le) (sq_nonneg _)
      linarith [pow_eq_zero_iff (two_ne_zero) |>.1 h2]
    exact hxy ((key x hx).trans (key y hy).symm)
  · intro h
    obtain ⟨c, hc⟩ := List.exists_mem_of_ne_nil d hne
    have e : d = List.replicate d.length c :=
      List.eq_replicate_iff.2 ⟨rfl, fun x hx => eq_of_not_varies h hx hc⟩
    have hs : d.sum / d.length = c := by
      rw [e, List.sum_replicate, List.length_replicate, nsmul_eq_mul]
      field_simp
    rw [hs]
    apply List.sum_eq_zero
    intro y hy
    obtain ⟨x, hx, rfl⟩ := List.mem_map.1 hy
    rw [eq_of_not_varies h hx hc]
    simp

/-- **C133, uniform.** Zero exactly for samples without spread. -/
theorem C133_uniform {d : List ℝ} (hne : d ≠ []) : uniformContinuous d = .ok 0 ↔ ¬ Varies d := by
  obtain ⟨a, ha, ham, hal⟩ := min?_spec hne
  obtain ⟨b, hb, hbm, hbl⟩ := max?_spec hne
  simp only [uniformContinuous, npMin, ha, npMax, hb, bind, Except.bind, pure, Except.pure]
  by_cases h : Varies d
  · have hab : a ≠ b := by
      intro e
      obtain ⟨x, hx, y, hy, hxy⟩ := h
      have h1 : x = a := le_antisymm ((hbl x hx).trans e.ge) (hal x hx)
      have h2 : y = a := le_antisymm ((hbl y hy).trans e.ge) (hal y hy)
      exact hxy (h1.trans h2.symm)
    have hlt : a < b := lt_of_le_of_ne (hal b hbm) hab
    rw [if_neg hab, mathLog_pos (sub_pos.2 hlt)]
    simp only [Except.ok.injEq, exp_ne_zero_num, h, not_true]
  · rw [if_pos (eq_of_not_varies h ham hbm)]
    simp [h]

/-- **C133, normal.** -/
theorem C133_normal {d : List ℝ} (hne : d ≠ []) : Likelihood.normal d = .ok 0 ↔ ¬ Varies d := by
  have hl : (d.length : ℝ) ≠ 0 := by simpa using hne
  have hv := sum_sq_dev_eq_zero hne
  simp only [Likelihood.normal, if_neg hl, bind, Except.bind, pure, Except.pure]
  by_cases h : Varies d
  · have hv0 : (d.map fun x => (x - d.sum / d.length) ^ 2).sum / (d.length : ℝ) ≠ 0 := fun h' => hv.1 h' h
    have hpos : 0 < (d.map fun x => (x - d.sum / d.length) ^ 2).sum / (d.length : ℝ) :=
      lt_of_le_of_ne (div_nonneg (List.sum_nonneg (by simpa using fun a _ => sq_nonneg _))
        (Nat.cast_nonneg _)) hv0.symm
    rw [if_neg hv0, sumLogs_ok (fun x _ => by positivity)]
    simp only [Except.ok.injEq, exp_ne_zero_num, h, not_true]
  · rw [if_pos (hv.2 h)]
    simp [h]

/-- **C133, log-normal.** -/
theorem C133_lognormal {d : List ℝ} (hne : d ≠ []) (hpos : ∀ x ∈ d, 0 < x) :
    lognormal d = .ok 0 ↔ ¬ Varies d := by
  have hl : (d.length : ℝ) ≠ 0 := by simpa using hne
  have hany : (d.any fun x => decide (x ≤ 0)) = false := by simpa using hpos
  have hvl : Varies (d.map Real.log) ↔ Varies d := by
    constructor
    · rintro ⟨x, hx, y, hy, hxy⟩
      obtain ⟨a, ha, rfl⟩ := List.mem_map.1 hx
      obtain ⟨b, hb, rfl⟩ := List.mem_map.1 hy
      exact ⟨a, ha, b, hb, fun e => hxy (by rw [e])⟩
    · rintro ⟨a, ha, b, hb, hab⟩
      exact ⟨_, List.mem_map.2 ⟨a, ha, rfl⟩, _, List.mem_map.2 ⟨b, hb, rfl⟩,
        fun e => hab (Real.log_injOn_pos (hpos a ha) (hpos b hb) e)⟩
  have hv := sum_sq_dev_eq_zero (d := d.map Real.log) (by simpa using hne)
  rw [hvl, List.length_map] at hv
  simp only [lognormal, hany, if_neg hl, bind, Except.bind, pure, Except.pure, Bool.false_eq_true, if_false]
  generalize hV : ((d.map Real.log).map fun x => (x - (d.map Real.log).sum / d.length) ^ 2).sum / (d.length : ℝ) = V at hv ⊢
  by_cases h : Varies d
  · have hv0 : V ≠ 0 := fun h' => hv.1 h' h
    have hVpos : 0 < V := by
      refine lt_of_le_of_ne ?_ hv0.symm
      rw [← hV]
      refine div_nonneg (List.sum_nonneg ?_) (Nat.cast_nonneg _)
      intro y hy
      obtain ⟨x, -, rfl⟩ := List.mem_map.1 hy
      exact sq_nonneg _
    rw [if_neg hv0, sumLogs_ok (fun x hx => by have := hpos x hx; positivity)]
    simp only [Except.ok.injEq, exp_ne_zero_num, h, not_true]
  · rw [if_pos (hv.2 h)]
    simp [h]

/-- **C133, exponential.** Among non-negative samples, zero exactly for those that are all zero. -/
theorem C133_exponential {d : List ℝ} (hne : d ≠ []) (hpos : ∀ x ∈ d, 0 ≤ x) :
    exponential d = .ok 0 ↔ ∀ x ∈ d, x = 0 := by
  have hany : (d.any fun x => decide (x < 0)) = false := by simpa using hpos
  simp only [exponential, hany, bind, Except.bind, pure, Except.pure, Bool.false_eq_true, if_false]
  by_cases h : ∀ x ∈ d, x = 0
  · have : (d.all fun x => decide (x = 0)) = true := by simpa using h
    simp only [this, if_true, true_iff]
    exact h
  · have h' : (d.all fun x => decide (x = 0)) = false := by simpa using h
    push Not at h
    obtain ⟨x, hx, hx0⟩ := h
    have hs : 0 < d.sum := lt_of_lt_of_le (lt_of_le_of_ne (hpos x hx) (Ne.symm hx0))
      (List.single_le_sum hpos x hx)
    have hlam : 0 < (d.length : ℝ) / d.sum := div_pos (by
      have := List.length_pos_iff.2 hne; exact_mod_cast this) hs
    rw [h', sumLogs_ok (fun x _ => mul_pos hlam (Real.exp_pos _))]
    simp only [Bool.false_eq_true, if_false, Except.ok.injEq, exp_ne_zero_num, false_iff]
    exact fun H => hx0 (H x hx)

/-- **C133, gamma.** -/
theorem C133_gamma (fit : List ℝ → ℝ × ℝ) {d : List ℝ} (hne : d ≠ []) (hpos : ∀ x ∈ d, 0 < x) :
    gamma fit d = .ok 0 ↔ ¬ Varies d := by
  by_cases h : Varies d
  · simp [gamma, anyNonpos_pos hpos, allEqualFirst_varies h, bind, Except.bind, pure, Except.pure, h, expSum,
      exp_ne_zero_num]
  · simp [gamma, anyNonpos_pos hpos, allEqualFirst_const hne h, bind, Except.bind, pure, Except.pure, h]

/-- **C133, beta.** -/
theorem C133_beta (fit : List ℝ → ℝ × ℝ) {d : List ℝ} (hne : d ≠ []) (hpos : ∀ x ∈ d, 0 < x ∧ x < 1) :
    beta fit d = .ok 0 ↔ ¬ Varies d := by
  have hany : (d.any fun x => decide (x ≤ 0) || decide (1 ≤ x)) = false := by simpa using hpos
  have hl : d.length ≠ 0 := by simpa using hne
  by_cases h : Varies d
  · simp only [beta, if_neg hl, hany, allEqualFirst_varies h, bind, Except.bind, pure, Except.pure, h, if_false,
      exp_ne_zero_num, Bool.false_eq_true, Except.ok.injEq, not_true]
  · simp [beta, hne, hany, allEqualFirst_const hne h, bind, Except.bind, pure, Except.pure, h]

/-- **C133, Cauchy.** -/
theorem C133_cauchy (fit : List ℝ → ℝ × ℝ) {d : List ℝ} (hne : d ≠ []) :
    cauchy fit d = .ok 0 ↔ ¬ Varies d ∨ (fit d).2 ≤ 0 := by
  by_cases h : Varies d
  · by_cases hs : (fit d).2 ≤ 0
    · simp [cauchy, allEqualFirst_varies h, bind, Except.bind, pure, Except.pure, h, hs]
    · simp [cauchy, allEqualFirst_varies h, bind, Except.bind, pure, Except.pure, h, hs, expSum, exp_ne_zero_num]
  · simp [cauchy, allEqualFirst_const hne h, bind, Except.bind, pure, Except.pure, h]

/-- **C133, Student.** -/
theorem C133_student (fit : List ℝ → ℝ × ℝ × ℝ) {d : List ℝ} (hne : d ≠ []) :
    tDistribution fit d = .ok 0 ↔ ¬ Varies d := by
  by_cases h : Varies d
  · simp [tDistribution, allEqualFirst_varies h, bind, Except.bind, pure, Except.pure, h, expSum, exp_ne_zero_num]
  · simp [tDistribution, allEqualFirst_const hne h, bind, Except.bind, pure, Except.pure, h]

/-- **C133, Fisher.** -/
theorem C133_fisher (fit : List ℝ → ℝ × ℝ × ℝ) {d : List ℝ} (hne : d ≠ []) (hpos : ∀ x ∈ d, 0 < x) :
    fisher fit d = .ok 0 ↔ ¬ Varies d := by
  by_cases h : Varies d
  · simp [fisher, anyNonpos_pos hpos, allEqualFirst_varies h, bind, Except.bind, pure, Except.pure, h, expSum,
      exp_ne_zero_num]
  · simp [fisher, anyNonpos_pos hpos, allEqualFirst_const hne h, bind, Except.bind, pure, Except.pure, h]

/-- **C133, Wigner.** -/
theorem C133_wigner (argmin : (ℝ → ℝ) → ℝ → ℝ → ℝ) {d : List ℝ} (hne : d ≠ []) :
    wigner argmin d = .ok 0 ↔ ¬ Varies d := by
  obtain ⟨m, hm, -, -⟩ := max?_spec (d := d.map fun x => |x|) (by simpa using hne)
  cases d with
  | nil => exact absurd rfl hne
  | cons z t =>
    by_cases h : Varies (z :: t)
    · have := allEqualFirst_varies h
      simp only [allEqualFirst, Except.ok.injEq] at this
      simp only [wigner, this, maxAbs, npMax, hm, bind, Except.bind, pure, Except.pure, Bool.false_eq_true,
        if_false, Except.ok.injEq, exp_ne_zero_num, h, not_true]
    · have := allEqualFirst_const hne h
      simp only [allEqualFirst, Except.ok.injEq] at this
      simp only [wigner, this, pure, Except.pure, if_true, h, not_false_eq_true]

/-- **C133, Pareto.** Infinity exactly for positive samples without spread. -/
theorem C133_pareto {d : List ℝ} (hne : d ≠ []) (hpos : ∀ x ∈ d, 0 < x) :
    pareto d = .ok ⊤ ↔ ¬ Varies d := by
  have hany : (d.any fun x => decide (x ≤ 0)) = false := by simpa using hpos
  obtain ⟨m, hm, hmm, hml⟩ := min?_spec hne
  have hm0 := hpos m hmm
  have hnn : ∀ x ∈ d, 0 ≤ Real.log (x / m) := fun x hx =>
    Real.log_nonneg ((one_le_div hm0).2 (hml x hx))
  have hS : (d.map fun x => Real.log (x / m)).sum = 0 ↔ ¬ Varies d := by
    constructor
    · rintro h ⟨x, hx, y, hy, hxy⟩
      have key : ∀ z ∈ d, z = m := by
        intro z hz
        have h1 : Real.log (z / m) ≤ (d.map fun x => Real.log (x / m)).sum :=
          List.single_le_sum (by simpa using hnn) _ (List.mem_map.2 ⟨z, hz, rfl⟩)
        have h2 : Real.log (z / m) = 0 := le_antisymm (h1.trans h.le) (hnn z hz)
        have h3 : z / m = 1 := Real.eq_one_of_pos_of_log_eq_zero (div_pos (hpos z hz) hm0) h2
        exact (div_eq_one_iff_eq hm0.ne').1 h3
      exact hxy ((key x hx).trans (key y hy).symm)
    · intro h
      apply List.sum_eq_zero
      intro y hy
      obtain ⟨x, hx, rfl⟩ := List.mem_map.1 hy
      rw [eq_of_not_varies h hx hmm, div_self hm0.ne', Real.log_one]
  simp only [pareto, hany, npMin, hm, bind, Except.bind, pure, Except.pure, Bool.false_eq_true, if_false]
  by_cases h : Varies d
  · rw [if_neg (fun e => hS.1 e h)]
    simp only [Except.ok.injEq, WithTop.coe_ne_top, h, not_true]
  · rw [if_pos (hS.2 h)]
    simp only [h, not_false_eq_true]

/-- **C133, Laplace.** Infinity exactly for samples without spread. -/
theorem C133_laplace {d : List ℝ} (hne : d ≠ []) : laplace d = .ok ⊤ ↔ ¬ Varies d := by
  have hl : (d.length : ℝ) ≠ 0 := by simpa using hne
  have hS : (d.map fun x => |x - median d|).sum / (d.length : ℝ) = 0 ↔ ¬ Varies d := by
    rw [div_eq_zero_iff, or_iff_left hl]
    constructor
    · rintro h ⟨x, hx, y, hy, hxy⟩
      have key : ∀ z ∈ d, z = median d := by
        intro z hz
        have h1 : |z - median d| ≤ (d.map fun x => |x - median d|).sum :=
          List.single_le_sum (by simpa using fun a _ => abs_nonneg _) _ (List.mem_map.2 ⟨z, hz, rfl⟩)
        exact sub_eq_zero.1 (abs_eq_zero.1 (le_antisymm (h1.trans h.le) (abs_nonneg _)))
      exact hxy ((key x hx).trans (key y hy).symm)
    · intro h
      obtain ⟨c, hc⟩ := List.exists_mem_of_ne_nil d hne
      refine le_antisymm ((median_min hne c).trans (le_of_eq ?_)) (List.sum_nonneg (by simpa using fun a _ => abs_nonneg _))
      apply List.sum_eq_zero
      intro y hy
      obtain ⟨x, hx, rfl⟩ := List.mem_map.1 hy
      rw [eq_of_not_varies h hx hc, sub_self, abs_zero]
  simp only [laplace, if_neg hne, bind, Except.bind, pure, Except.pure]
  by_cases h : Varies d
  · rw [if_neg (fun e => hS.1 e h)]
    simp only [Except.ok.injEq, WithTop.coe_ne_top, h, not_true]
  · rw [if_pos (hS.2 h)]
    simp only [h, not_false_eq_true]

example : ¬ Varies [(3 : ℝ), 3] ∧ Varies [(3 : ℝ), 4] ∧ ∀ x ∈ [(3 : ℝ), 3], 0 < x := by
  refine ⟨?_, ⟨3, by simp, 4, by simp, by norm_num⟩, by simp⟩
  rintro ⟨x, hx, y, hy, hxy⟩
  simp_all

end Pysatl.Props
