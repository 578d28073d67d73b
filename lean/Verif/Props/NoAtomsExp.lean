import Verif.Lemmas.AnalyticNullPos
import Verif.Props.SensitiveExp
import Verif.Props.CalibrationCvFamilies
import Verif.Props.Mirror
import Mathlib.Analysis.SpecialFunctions.Log.Deriv
import Mathlib.Analysis.SpecialFunctions.Pow.Deriv
import Mathlib.Analysis.SpecialFunctions.Complex.Analytic

/-! # Criteria of exponentiality whose values have no atoms -/

namespace Pysatl.Props

open Pysatl.Decision Pysatl.Graph Pysatl.Edf Pysatl.Exponent Pysatl.Spec
open Pysatl.Gen Pysatl.LogNormal Pysatl.Resolver
open MeasureTheory ProbabilityTheory

variable {n : ℕ} {r : ℝ}

/-- The samples of positive numbers. -/
def Orthant (n : ℕ) : Set (Fin n → ℝ) := {x | ∀ i, 0 < x i}

theorem exp_null {ι : Type} [Finite ι] {G : ι → (Fin n → ℝ) → ℝ} (hG : ∀ s, AnalyticOnNhd ℝ (G s) (Orthant n))
    (hne : ∀ s, ∃ x, (∀ i, 0 < x i) ∧ G s x ≠ 0) (hr : 0 < r) {E : Set (Fin n → ℝ)}
    (h : ∀ x ∈ E, (∀ i, 0 < x i) → (List.ofFn x).Nodup → ∃ s, ∃ σ : Equiv.Perm (Fin n), G s (x ∘ σ) = 0) :
    iid n (expMeasure r) E = 0 := by
  have : IsProbabilityMeasure (expMeasure r) := isProbabilityMeasure_expMeasure hr
  have hg := exponential_good hr n
  rw [ae_iff] at hg
  refine measure_mono_null (fun x hx => ?_) (measure_union_null hg (analytic_pos_perm_null (μ := expMeasure r) hG hne))
  by_cases hx' : (∀ t ∈ List.ofFn x, 0 < t) ∧ (List.ofFn x).Nodup
  · have hpos : ∀ i, 0 < x i := fun i => hx'.1 _ (List.mem_ofFn.2 ⟨i, rfl⟩)
    exact .inr ⟨hpos, h x hx hpos hx'.2⟩
  · exact .inl hx'

theorem exists_ofFn {xs : List ℝ} (h : xs.length = n) (hp : ∀ t ∈ xs, 0 < t) :
    ∃ x : Fin n → ℝ, xs = List.ofFn x ∧ ∀ i, 0 < x i := by
  subst h
  exact ⟨xs.get, (List.ofFn_get xs).symm, fun i => hp _ (List.get_mem xs i)⟩

/-- A criterion that tells samples apart and whose values are the zeros of functions analytic at positive samples. -/
theorem exp_null_of_tells {f : List ℝ → Except PyErr ℝ} (ht : TellsApart (fun xs => ∀ x ∈ xs, 0 < x) f n)
    {G : ℝ → (Fin n → ℝ) → ℝ} (hG : ∀ c, AnalyticOnNhd ℝ (G c) (Orthant n))
    (h : ∀ x : Fin n → ℝ, (∀ i, 0 < x i) → ∃ v, f (List.ofFn x) = .ok v ∧ ∀ c, G c x = 0 ↔ v = c) (hr : 0 < r) (c : ℝ) :
    iid n (expMeasure r) {x | f (List.ofFn x) = .ok c} = 0 := by
  refine exp_null (ι := Unit) (G := fun _ => G c) (fun _ => hG c) (fun _ => ?_) hr fun x hx hp _ => ⟨(), 1, ?_⟩
  · obtain ⟨xs, ys, v, w, ⟨lx, vx⟩, ⟨ly, vy⟩, ex, ey, hvw⟩ := ht
    obtain ⟨x, rfl, px⟩ := exists_ofFn lx vx
    obtain ⟨y, rfl, py⟩ := exists_ofFn ly vy
    obtain ⟨v', ev, hv⟩ := h x px
    obtain ⟨w', ew, hw⟩ := h y py
    rw [ex] at ev; rw [ey] at ew
    cases ev; cases ew
    by_cases hc : v = c
    · exact ⟨y, py, fun h0 => hvw (hc.trans ((hw c).1 h0).symm)⟩
    · exact ⟨x, px, fun h0 => hc ((hv c).1 h0)⟩
  · obtain ⟨v, hv, h0⟩ := h x hp
    have hx' : f (List.ofFn x) = .ok c := hx
    rw [hx'] at hv
    cases hv
    exact (h0 c).2 rfl

/-- The case of a statistic that is itself analytic. -/
theorem exp_null_of_analytic {f : List ℝ → Except PyErr ℝ} (ht : TellsApart (fun xs => ∀ x ∈ xs, 0 < x) f n)
    {g : List ℝ → ℝ} (hf : ∀ xs, f xs = .ok (g xs)) (hG : AnalyticOnNhd ℝ (fun x : Fin n → ℝ => g (List.ofFn x)) (Orthant n))
    (hr : 0 < r) (c : ℝ) : iid n (expMeasure r) {x | f (List.ofFn x) = .ok c} = 0 :=
  exp_null_of_tells ht (G := fun c x => g (List.ofFn x) - c) (fun _ x hx => (hG x hx).sub analyticAt_const)
    (fun x _ => ⟨_, hf _, fun _ => sub_eq_zero⟩) hr c

/-! ### Functions of the ratios to the mean -/

theorem an_coord (i : Fin n) (x : Fin n → ℝ) : AnalyticAt ℝ (fun x : Fin n → ℝ => x i) x :=
  (ContinuousLinearMap.proj (R := ℝ) (φ := fun _ : Fin n => ℝ) i).analyticAt x

theorem mean_ofFn (x : Fin n → ℝ) : mean (List.ofFn x) = (∑ i, x i) / n := by
  rw [mean, List.sum_ofFn, List.length_ofFn]

theorem an_mean (x : Fin n → ℝ) : AnalyticAt ℝ (fun x : Fin n → ℝ => mean (List.ofFn x)) x := by
  simp only [mean_ofFn]
  exact (Finset.analyticAt_fun_sum _ fun i _ => an_coord i x).div_const

theorem mean_pos_ofFn (hn : 0 < n) {x : Fin n → ℝ} (hx : ∀ i, 0 < x i) : 0 < mean (List.ofFn x) := by
  rw [mean_ofFn]
  have : Nonempty (Fin n) := ⟨⟨0, hn⟩⟩
  exact div_pos (Finset.sum_pos (fun i _ => hx i) Finset.univ_nonempty) (by exact_mod_cast hn)

theorem an_ratio (hn : 0 < n) (i : Fin n) {x : Fin n → ℝ} (hx : x ∈ Orthant n) :
    AnalyticAt ℝ (fun x : Fin n → ℝ => x i / mean (List.ofFn x)) x :=
  (an_coord i x).div (an_mean x) (mean_pos_ofFn hn hx).ne'

theorem an_log {f : (Fin n → ℝ) → ℝ} {x : Fin n → ℝ} (h : AnalyticAt ℝ f x) (hp : 0 < f x) :
    AnalyticAt ℝ (fun y => Real.log (f y)) x := AnalyticAt.comp (g := Real.log) (analyticAt_log hp) h

theorem an_rpow {f : (Fin n → ℝ) → ℝ} {x : Fin n → ℝ} (p : ℝ) (h : AnalyticAt ℝ f x) (hp : 0 < f x) :
    AnalyticAt ℝ (fun y => f y ^ p) x := by
  have ha : AnalyticAt ℝ (fun y => Real.exp (Real.log (f y) * p)) x :=
    AnalyticAt.comp (g := Real.exp) analyticAt_rexp ((an_log h hp).mul analyticAt_const)
  refine ha.congr ?_
  filter_upwards [h.continuousAt.eventually (lt_mem_nhds hp)] with y hy
  rw [Real.rpow_def_of_pos hy]

theorem no_ties_eppsPulley (hn : 2 ≤ n) (hr : 0 < r) (c : ℝ) :
    iid n (expMeasure r) {x | ExpStat.eppsPulley.value (List.ofFn x) = .ok c} = 0 := by
  refine exp_null_of_analytic (C96_exponential (s := .eppsPulley) hn) (g := eppsPulley) (fun _ => rfl) (fun x hx => ?_) hr c
  simp only [eppsPulley, List.map_ofFn, List.sum_ofFn, Function.comp_def, List.length_ofFn]
  refine (analyticAt_const.mul (Finset.analyticAt_fun_sum _ fun i _ => ?_)).div_const
  exact (analyticAt_rexp.comp (an_ratio (by omega) i hx).neg).sub analyticAt_const

theorem no_ties_coxOakes (hn : 2 ≤ n) (hr : 0 < r) (c : ℝ) :
    iid n (expMeasure r) {x | ExpStat.coxOakes.value (List.ofFn x) = .ok c} = 0 := by
  refine exp_null_of_analytic (C96_exponential (s := .coxOakes) hn) (g := coxOakes) (fun _ => rfl) (fun x hx => ?_) hr c
  simp only [coxOakes, List.map_ofFn, List.sum_ofFn, Function.comp_def, List.length_ofFn]
  refine (Finset.analyticAt_fun_sum _ fun i _ => ?_).add analyticAt_const
  have h := an_ratio (by omega) i hx
  exact (an_log h (div_pos (hx i) (mean_pos_ofFn (by omega) hx))).mul (analyticAt_const.sub h)

theorem no_ties_moran (hn : 2 ≤ n) (hr : 0 < r) (c : ℝ) :
    iid n (expMeasure r) {x | ExpStat.moran.value (List.ofFn x) = .ok c} = 0 := by
  refine exp_null_of_analytic (C96_exponential (s := .moran) hn) (g := moran) (fun _ => rfl) (fun x hx => ?_) hr c
  simp only [moran, List.map_ofFn, mean_ofFn, Function.comp_def]
  refine analyticAt_const.add (Finset.analyticAt_fun_sum _ fun i _ => ?_).div_const
  have h := an_ratio (by omega) i hx
  have := an_log h (div_pos (hx i) (mean_pos_ofFn (by omega) hx))
  simpa only [mean_ofFn] using this

theorem no_ties_we (hn : 2 ≤ n) (hr : 0 < r) (c : ℝ) :
    iid n (expMeasure r) {x | ExpStat.we.value (List.ofFn x) = .ok c} = 0 := by
  refine exp_null_of_analytic (C96_exponential (s := .we) hn) (g := we) (fun _ => rfl) (fun x hx => ?_) hr c
  have hm := mean_pos_ofFn (by omega) hx
  have hn0 : (0 : ℝ) < n := by exact_mod_cast (by omega : 0 < n)
  simp only [we, Graph.variance, List.map_ofFn, Function.comp_def, List.sum_ofFn, List.length_ofFn]
  have ha := an_mean x
  have hs : AnalyticAt ℝ (fun x : Fin n → ℝ => ∑ i, (x i - mean (List.ofFn x)) ^ 2) x :=
    Finset.analyticAt_fun_sum _ fun i _ => ((an_coord i x).sub ha).pow 2
  exact (analyticAt_const.mul hs.div_const).div (analyticAt_const.mul (ha.pow 2)) (by positivity)

theorem no_ties_atkinson {p : ℝ} (h0 : 0 < p) (h1 : p < 1) (hn : 2 ≤ n) (hr : 0 < r) (c : ℝ) :
    iid n (expMeasure r) {x | (ExpStat.atkinson p).value (List.ofFn x) = .ok c} = 0 := by
  have hn0 : (0 : ℝ) < n := by exact_mod_cast (by omega : 0 < n)
  let R : (Fin n → ℝ) → ℝ := fun x => mean ((List.ofFn x).map fun x => x ^ p) ^ (1 / p) / mean (List.ofFn x) -
    Real.Gamma (1 + p) ^ (1 / p)
  refine exp_null_of_tells (C96_exponential (s := .atkinson p) ⟨h0, h1, hn⟩)
    (G := fun c x => if 0 ≤ c then n * R x ^ 2 - c ^ 2 else 1) (fun c x hx => ?_) (fun x hx => ⟨√n * |R x|, ?_, fun c => ?_⟩) hr c
  · by_cases hc : 0 ≤ c
    · simp only [if_pos hc]
      have hp : AnalyticAt ℝ (fun x : Fin n → ℝ => mean ((List.ofFn x).map fun x => x ^ p)) x := by
        simp only [List.map_ofFn, mean_ofFn, Function.comp_def]
        exact (Finset.analyticAt_fun_sum _ fun i _ => an_rpow p (an_coord i x) (hx i)).div_const
      have hR : AnalyticAt ℝ R x := by
        refine ((an_rpow (1 / p) hp ?_).div (an_mean x) (mean_pos_ofFn (by omega) hx).ne').sub analyticAt_const
        rw [List.map_ofFn]
        exact mean_pos_ofFn (by omega) fun i => Real.rpow_pos_of_pos (hx i) p
      exact (analyticAt_const.mul (hR.pow 2)).sub analyticAt_const
    · simp only [if_neg hc]
      exact analyticAt_const
  · simp only [ExpStat.value, atkinson, List.length_ofFn]
    rfl
  · split_ifs with hc
    · rw [sub_eq_zero, ← sq_eq_sq₀ (by positivity) hc, mul_pow, Real.sq_sqrt hn0.le, sq_abs]
    · exact ⟨fun h => absurd h one_ne_zero, fun h => absurd (h ▸ by positivity) hc⟩

/-! ### Sums of absolute values -/

/-- A sign. -/
def sg (b : Bool) : ℝ := if b then 1 else -1

theorem abs_eq_sg (t : ℝ) : |t| = sg (decide (0 ≤ t)) * t := by
  by_cases h : 0 ≤ t
  · simp [sg, h, abs_of_nonneg h]
  · simp [sg, h, abs_of_neg (not_le.1 h)]

theorem sg_sq (b : Bool) : sg b * sg b = 1 := by cases b <;> simp [sg]

theorem no_ties_pietra (hn : 2 ≤ n) (hr : 0 < r) (c : ℝ) :
    iid n (expMeasure r) {x | ExpStat.pietra.value (List.ofFn x) = .ok c} = 0 := by
  have hn0 : (0 : ℝ) < n := by exact_mod_cast (by omega : 0 < n)
  have hval : ∀ x : Fin n → ℝ, pietra (List.ofFn x) = (∑ i, |x i - mean (List.ofFn x)|) / (2 * n * mean (List.ofFn x)) := fun x => by
    simp only [pietra, List.map_ofFn, List.sum_ofFn, Function.comp_def, List.length_ofFn]
  by_cases hc : c = 0
  · have hg := exponential_good hr n
    rw [ae_iff] at hg
    refine measure_mono_null (fun x hx => ?_) hg
    rintro ⟨hpos, hd⟩
    have hx' : (Except.ok (pietra (List.ofFn x)) : Except PyErr ℝ) = .ok c := hx
    have hm := mean_pos_ofFn (by omega) fun i => hpos (x i) (List.mem_ofFn.2 ⟨i, rfl⟩)
    have h0 := Except.ok.inj hx'
    rw [hval, hc, div_eq_zero_iff, or_iff_left (by positivity), Finset.sum_eq_zero_iff_of_nonneg fun _ _ => abs_nonneg _] at h0
    have e : ∀ i, x i = mean (List.ofFn x) := fun i => sub_eq_zero.1 (abs_eq_zero.1 (h0 i (Finset.mem_univ i)))
    have := (List.nodup_ofFn.1 hd) ((e ⟨0, by omega⟩).trans (e ⟨1, by omega⟩).symm)
    simp at this
  · refine exp_null (ι := Fin n → Bool) (G := fun s x => ∑ i, sg (s i) * (x i - mean (List.ofFn x)) -
      c * (2 * n * mean (List.ofFn x))) (fun s x hx => ?_) (fun s => ?_) hr fun x hx hp _ => ⟨fun i => decide (0 ≤ x i - mean (List.ofFn x)), 1, ?_⟩
    · exact (Finset.analyticAt_fun_sum _ fun i _ => analyticAt_const.mul ((an_coord i x).sub (an_mean x))).sub
        (analyticAt_const.mul (analyticAt_const.mul (an_mean x)))
    · refine ⟨fun _ => 1, fun _ => one_pos, ?_⟩
      have hm : mean (List.ofFn fun _ : Fin n => (1 : ℝ)) = 1 := by rw [mean_ofFn]; simp [hn0.ne']
      simp only [hm, sub_self, mul_zero, Finset.sum_const_zero, mul_one, zero_sub, neg_ne_zero]
      positivity
    · have hx' : (Except.ok (pietra (List.ofFn x)) : Except PyErr ℝ) = .ok c := hx
      have h0 := Except.ok.inj hx'
      have hm := mean_pos_ofFn (by omega) hp
      rw [hval, div_eq_iff (by positivity)] at h0
      simp only [Equiv.Perm.coe_one, Function.comp_id, ← abs_eq_sg]
      linarith

theorem mean_sort_ofFn {x : Fin n → ℝ} {σ : Equiv.Perm (Fin n)} : mean (List.ofFn (x ∘ σ)) = mean (List.ofFn x) := by
  rw [mean_ofFn, mean_ofFn]
  congr 1
  exact Equiv.sum_comp σ x

/-- Equal numbers except for two. -/
noncomputable def pairAt (i j : Fin n) (a b : ℝ) : Fin n → ℝ := fun k => if k = i then a else if k = j then b else 1

theorem sum_pairAt {i j : Fin n} (h : i ≠ j) (a b : ℝ) (f : Fin n → ℝ → ℝ) :
    ∑ k, f k (pairAt i j a b k) = (∑ k, f k 1) + (f i a - f i 1) + (f j b - f j 1) := by
  have : ∀ k, f k (pairAt i j a b k) = f k 1 + (if k = i then f i a - f i 1 else 0) + (if k = j then f j b - f j 1 else 0) := by
    intro k
    unfold pairAt
    by_cases h1 : k = i
    · subst h1; simp [h]
    · by_cases h2 : k = j
      · subst h2; simp [h.symm]
      · simp [h1, h2]
  simp only [this, Finset.sum_add_distrib, Finset.sum_ite_eq', Finset.mem_univ, if_true]

theorem mean_pairAt {i j : Fin n} (h : i ≠ j) (a b : ℝ) : mean (List.ofFn (pairAt i j a b)) = (n + (a - 1) + (b - 1)) / n := by
  rw [mean_ofFn, sum_pairAt h a b fun _ t => t]
  simp

theorem pairAt_pos {i j : Fin n} {a b : ℝ} (ha : 0 < a) (hb : 0 < b) (k : Fin n) : 0 < pairAt i j a b k := by
  unfold pairAt; split_ifs <;> norm_num [ha, hb]

theorem no_ties_frozini (hn : 2 ≤ n) (hr : 0 < r) (c : ℝ) :
    iid n (expMeasure r) {x | ExpStat.frozini.value (List.ofFn x) = .ok c} = 0 := by
  have hn0 : (0 : ℝ) < n := by exact_mod_cast (by omega : 0 < n)
  let T : (Fin n → ℝ) → Fin n → ℝ := fun x i => 1 - Real.exp (-(x i / mean (List.ofFn x))) - ((i : ℝ) + 1 - 1 / 2) / n
  refine exp_null (ι := Fin n → Bool) (G := fun s x => 1 / √n * ∑ i, sg (s i) * T x i - c) (fun s x hx => ?_) (fun s => ?_) hr
    fun x hx hp _ => ?_
  · refine (analyticAt_const.mul (Finset.analyticAt_fun_sum _ fun i _ => analyticAt_const.mul ?_)).sub analyticAt_const
    exact (analyticAt_const.sub (analyticAt_rexp.comp (an_ratio (by omega) i hx).neg)).sub analyticAt_const
  · by_contra hcon
    push Not at hcon
    have hij : (⟨0, by omega⟩ : Fin n) ≠ ⟨1, by omega⟩ := by simp
    set i : Fin n := ⟨0, by omega⟩
    set j : Fin n := ⟨1, by omega⟩
    have key : ∀ a : ℝ, 0 < a → a < 2 → 1 / √(n : ℝ) * ((∑ k, sg (s k) * (1 - Real.exp (-1) - ((k : ℝ) + 1 - 1 / 2) / n)) +
        sg (s i) * (Real.exp (-1) - Real.exp (-a)) + sg (s j) * (Real.exp (-1) - Real.exp (-(2 - a)))) = c := by
      intro a h0 h2
      have h := hcon (pairAt i j a (2 - a)) (pairAt_pos h0 (by linarith))
      have hm : mean (List.ofFn (pairAt i j a (2 - a))) = 1 := by
        rw [mean_pairAt hij, div_eq_one_iff_eq hn0.ne']; ring
      simp only [T, hm, div_one] at h
      rw [sum_pairAt hij a (2 - a) fun k t => sg (s k) * (1 - Real.exp (-t) - ((k : ℝ) + 1 - 1 / 2) / n)] at h
      rw [← sub_eq_zero, ← h]
      ring
    have hs : (1 / √(n : ℝ)) ≠ 0 := by positivity
    have k1 := key 1 one_pos (by norm_num)
    have k2 := key (1 / 2) (by norm_num) (by norm_num)
    have e2 := mul_left_cancel₀ hs (k1.trans k2.symm)
    rw [show (2 - 1 : ℝ) = 1 by norm_num, show (2 - 1 / 2 : ℝ) = 3 / 2 by norm_num] at e2
    have x1 : Real.exp (-1) = Real.exp (-(1 / 2)) * Real.exp (-(1 / 2)) := by rw [← Real.exp_add]; norm_num
    have x3 : Real.exp (-(3 / 2)) = Real.exp (-(1 / 2)) * Real.exp (-(1 / 2)) * Real.exp (-(1 / 2)) := by
      rw [← Real.exp_add, ← Real.exp_add]; norm_num
    have hu : Real.exp (-(1 / 2)) < 1 := by rw [Real.exp_lt_one_iff]; norm_num
    have hu0 := Real.exp_pos (-(1 / 2))
    rw [x1, x3] at e2
    generalize Real.exp (-(1 / 2)) = u at *
    have f : u * (u - 1) * (sg (s i) - sg (s j) * u) = 0 := by linarith
    rcases mul_eq_zero.1 f with h | h
    · rcases mul_eq_zero.1 h with h | h <;> linarith
    · have h' : sg (s i) = sg (s j) * u := by linarith
      have h2 := sg_sq (s i)
      rw [h', show sg (s j) * u * (sg (s j) * u) = sg (s j) * sg (s j) * (u * u) by ring, sg_sq, one_mul] at h2
      nlinarith
  · obtain ⟨σ, hσ⟩ := exists_sort_perm x
    refine ⟨fun i => decide (0 ≤ T (x ∘ σ) i), σ, ?_⟩
    have hx' : (Except.ok (frozini (List.ofFn x)) : Except PyErr ℝ) = .ok c := hx
    have h0 := Except.ok.inj hx'
    simp only [← abs_eq_sg]
    rw [sub_eq_zero, ← h0]
    simp only [frozini, hσ, List.length_ofFn]
    congr 1
    rw [← List.sum_ofFn]
    congr 1
    exact List.ext_getElem (by simp) fun i h1 h2 => by simp [T, neg_div]

/-! ### The largest deviation -/

theorem sin_of_angle {w q : ℝ} (h0 : 0 ≤ w) (h1 : w ≤ 1) (h : angle w = q) : w = Real.sin (Real.pi / 2 * q) ^ 2 := by
  rw [← h, angle, show Real.pi / 2 * (2 / Real.pi * Real.arcsin √w) = Real.arcsin √w by field_simp,
    Real.sin_arcsin (by linarith [Real.sqrt_nonneg w]) (Real.sqrt_le_one.2 h1), Real.sq_sqrt h0]

theorem no_ties_kimberMichael (hn : 2 ≤ n) (hr : 0 < r) (c : ℝ) :
    iid n (expMeasure r) {x | ExpStat.kimberMichael.value (List.ofFn x) = .ok c} = 0 := by
  have hn0 : (0 : ℝ) < n := by exact_mod_cast (by omega : 0 < n)
  refine exp_null (ι := Fin n × Bool) (G := fun s x => Real.exp (-(x s.1 / mean (List.ofFn x))) -
    (1 - Real.sin (Real.pi / 2 * (angle (((s.1 : ℝ) + 1 - 1 / 2) / n) - sg s.2 * c)) ^ 2)) (fun s x hx => ?_) (fun s => ?_) hr
    fun x hx hp _ => ?_
  · exact (analyticAt_rexp.comp (an_ratio (by omega) s.1 hx).neg).sub analyticAt_const
  · by_contra hcon
    push Not at hcon
    obtain ⟨j, hj⟩ : ∃ j : Fin n, s.1 ≠ j := by
      by_cases h : s.1 = ⟨0, by omega⟩
      · exact ⟨⟨1, by omega⟩, by rw [h]; simp⟩
      · exact ⟨_, h⟩
    have h1 := hcon (pairAt s.1 j 1 1) (pairAt_pos one_pos one_pos)
    have h2 := hcon (pairAt s.1 j 1 2) (pairAt_pos one_pos two_pos)
    have h3 := (sub_eq_zero.1 h1).trans (sub_eq_zero.1 h2).symm
    rw [Real.exp_eq_exp, neg_inj, mean_pairAt hj, mean_pairAt hj] at h3
    have e : ∀ b, pairAt s.1 j 1 b s.1 = 1 := fun b => by simp [pairAt]
    rw [e, e] at h3
    field_simp at h3
    linarith
  · obtain ⟨σ, hσ⟩ := exists_sort_perm x
    have hx' : kimberMichael (List.ofFn x) = .ok c := hx
    simp only [kimberMichael, hσ, List.length_ofFn] at hx'
    obtain ⟨hm, -⟩ := npMax_eq_ok.1 hx'
    obtain ⟨i, hi, he⟩ := List.getElem_of_mem hm
    rw [List.length_mapIdx, List.length_ofFn] at hi
    have hm0 := mean_pos_ofFn (by omega) fun i => hp (σ i)
    have hpos : 0 ≤ (x ∘ σ) ⟨i, hi⟩ / mean (List.ofFn (x ∘ σ)) := (div_pos (hp _) hm0).le
    have hw0 : 0 ≤ 1 - Real.exp (-((x ∘ σ) ⟨i, hi⟩ / mean (List.ofFn (x ∘ σ)))) := by
      rw [sub_nonneg, Real.exp_le_one_iff]; linarith
    have hw1 : 1 - Real.exp (-((x ∘ σ) ⟨i, hi⟩ / mean (List.ofFn (x ∘ σ)))) ≤ 1 := by
      linarith [Real.exp_pos (-((x ∘ σ) ⟨i, hi⟩ / mean (List.ofFn (x ∘ σ))))]
    rw [List.getElem_mapIdx, List.getElem_ofFn] at he
    change |angle (((i : ℝ) + 1 - 1 / 2) / n) - angle (1 - Real.exp (-((x ∘ σ) ⟨i, hi⟩ / mean (List.ofFn (x ∘ σ)))))| = c at he
    rw [abs_eq_sg] at he
    refine ⟨⟨⟨i, hi⟩, decide (0 ≤ angle (((i : ℝ) + 1 - 1 / 2) / n) -
      angle (1 - Real.exp (-((x ∘ σ) ⟨i, hi⟩ / mean (List.ofFn (x ∘ σ))))))⟩, σ, ?_⟩
    · generalize decide (0 ≤ angle (((i : ℝ) + 1 - 1 / 2) / n) - angle (1 - Real.exp (-((x ∘ σ) ⟨i, hi⟩ / mean (List.ofFn (x ∘ σ)))))) = b at he ⊢
      have := sin_of_angle hw0 hw1 (q := angle (((i : ℝ) + 1 - 1 / 2) / n) - sg b * c) (by
        rw [← he, ← mul_assoc, sg_sq]; ring)
      simp only []
      linarith

/-! ### Shapiro-Wilk -/

theorem no_ties_shapiroWilkExp (hn : 3 ≤ n) (hr : 0 < r) (c : ℝ) :
    iid n (expMeasure r) {x | ExpStat.shapiroWilk.value (List.ofFn x) = .ok c} = 0 := by
  have : IsProbabilityMeasure (expMeasure r) := isProbabilityMeasure_expMeasure hr
  have hn0 : (0 : ℝ) < n := by exact_mod_cast (by omega : 0 < n)
  have hn1 : (0 : ℝ) < (n : ℝ) - 1 := by
    have : (3 : ℝ) ≤ n := by exact_mod_cast hn
    linarith
  refine null_union (dot_quadric_null (μ := expMeasure r) hn (c := fun i => 1 / n * 1 + -1 * (if i < 1 then 1 else 0))
    (K := c * (n - 1) / n) (.inl ⟨1, by omega, by simp; omega⟩)) (sumsq_null (μ := expMeasure r) hn) fun x hx => ?_
  simp only [Set.mem_union, Set.mem_ofPred_eq] at hx ⊢
  by_cases h0 : ((List.ofFn x).map fun t => (t - mean (List.ofFn x)) ^ 2).sum = 0
  · exact .inr h0
  · left
    have hx' : Exponent.shapiroWilk (List.ofFn x) = .ok c := hx
    have hmean : mean (sort (List.ofFn x)) = mean (List.ofFn x) := by
      rw [mean, mean, (sort_perm _).sum_eq, (sort_perm _).length_eq]
    have hS : ((sort (List.ofFn x)).map fun t => (t - mean (List.ofFn x)) ^ 2).sum =
        ((List.ofFn x).map fun t => (t - mean (List.ofFn x)) ^ 2).sum := ((sort_perm _).map _).sum_eq
    have hl : (sort (List.ofFn x)).length = n := by rw [(sort_perm _).length_eq, List.length_ofFn]
    rw [Normal.dot_lin, Normal.dot_one, dot_take]
    rcases hs : sort (List.ofFn x) with _ | ⟨a, l⟩
    · rw [hs] at hl; simp at hl; omega
    · simp only [Exponent.shapiroWilk, hs] at hx'
      rw [← hs, hmean, hS, List.length_ofFn] at hx'
      have he := Except.ok.inj hx'
      rw [div_eq_iff (by positivity)] at he
      have hsum : 1 / (n : ℝ) * (a :: l).sum = mean (List.ofFn x) := by
        rw [← hmean, ← hs, mean, hl]; ring
      rw [hsum]
      simp only [List.take_succ_cons, List.take_zero, List.sum_cons, List.sum_nil, add_zero]
      rw [show mean (List.ofFn x) + -1 * a = mean (List.ofFn x) - a by ring]
      field_simp
      linarith

/-! ### Functions of the normalised spacings -/

theorem ofSpacings_normSpacings : ∀ (c : ℝ) (l : List ℝ), ofSpacings c (normSpacings (c :: l)) = l
  | c, [] => by simp [normSpacings, npDiff, ofSpacings]
  | c, b :: l => by
    rw [normSpacings_cons_cons, ofSpacings, normSpacings_length, List.length_cons, Nat.add_sub_cancel]
    have h : c + ((l.length : ℝ) + 1) * (b - c) / ((l.length : ℝ) + 1) = b := by
      have : ((l.length : ℝ) + 1) ≠ 0 := by positivity
      field_simp
      ring
    rw [h, ofSpacings_normSpacings]

/-- The normalised spacings of the observations in their order. -/
noncomputable def spacing (y : Fin n → ℝ) (i : Fin n) : ℝ :=
  ((n - i : ℕ) : ℝ) * (y i - if h : (i : ℕ) = 0 then 0 else y ⟨i - 1, by omega⟩)

theorem normSpacings_ofFn (y : Fin n → ℝ) : normSpacings (0 :: List.ofFn y) = List.ofFn (spacing y) := by
  refine List.ext_getElem (by simp [normSpacings, npDiff_length_exp]) fun i h1 h2 => ?_
  have hi : i < n := by simpa using h2
  simp only [normSpacings, List.getElem_mapIdx, List.getElem_ofFn, spacing, List.length_cons, List.length_ofFn,
    Nat.add_sub_cancel]
  rw [npDiff_eq_getElem _ _ (by simpa using hi)]
  congr 2
  · simp
  · by_cases h : i = 0
    · subst h; simp
    · obtain ⟨k, rfl⟩ : ∃ k, i = k + 1 := ⟨i - 1, by omega⟩
      simp

theorem an_spacing (i : Fin n) (y : Fin n → ℝ) : AnalyticAt ℝ (fun y : Fin n → ℝ => spacing y i) y := by
  unfold spacing
  refine analyticAt_const.mul ((an_coord i y).sub ?_)
  by_cases h : (i : ℕ) = 0
  · simp only [dif_pos h]; exact analyticAt_const
  · simp only [dif_neg h]; exact an_coord _ y

theorem spaced_null {s : ExpStat} (ht : SpacedApart s.value n) {G : ℝ → (Fin n → ℝ) → ℝ}
    (hG : ∀ c, AnalyticOnNhd ℝ (G c) Set.univ)
    (h : ∀ d : Fin n → ℝ, (∀ i, 0 < d i) → ∃ v, s.value (ofSpacings 0 (List.ofFn d)) = .ok v ∧ ∀ c, G c d = 0 ↔ v = c)
    (hr : 0 < r) (c : ℝ) : iid n (expMeasure r) {x | s.value (List.ofFn x) = .ok c} = 0 := by
  refine exp_null (ι := Unit) (G := fun _ x => G c (spacing x)) (fun _ x _ => ?_) (fun _ => ?_) hr fun x hx hp hd => ?_
  · exact (hG c (spacing x) trivial).comp (g := G c) (f := fun x : Fin n → ℝ => spacing x) (AnalyticAt.pi fun i => an_spacing i x)
  · have key : ∀ ds : List ℝ, ds.length = n → (∀ d ∈ ds, 0 < d) → ∃ y : Fin n → ℝ, (∀ i, 0 < y i) ∧ ds = List.ofFn (spacing y) := by
      intro ds hl hp
      obtain ⟨y, hy, hy0⟩ := exists_ofFn ((length_ofSpacings 0 ds).trans hl) (ofSpacings_gt hp)
      exact ⟨y, hy0, by rw [← normSpacings_ofFn, ← hy, normSpacings_ofSpacings]⟩
    obtain ⟨ds, es, v, w, pd, pe, ld, le, hv, hw, hvw⟩ := ht
    obtain ⟨x, px, rfl⟩ := key ds ld pd
    obtain ⟨y, py, rfl⟩ := key es le pe
    obtain ⟨v', ev, hv'⟩ := h (spacing x) fun i => pd _ (List.mem_ofFn.2 ⟨i, rfl⟩)
    obtain ⟨w', ew, hw'⟩ := h (spacing y) fun i => pe _ (List.mem_ofFn.2 ⟨i, rfl⟩)
    rw [hv] at ev; rw [hw] at ew
    cases ev; cases ew
    by_cases hc : v = c
    · exact ⟨y, py, fun h0 => hvw (hc.trans ((hw' c).1 h0).symm)⟩
    · exact ⟨x, px, fun h0 => hc ((hv' c).1 h0)⟩
  · obtain ⟨σ, hσ⟩ := exists_sort_perm x
    refine ⟨(), σ, ?_⟩
    have hx' : s.value (List.ofFn x) = .ok c := hx
    rw [C61_exponential s (sort_perm (List.ofFn x)).symm, hσ] at hx'
    have hlt : (List.ofFn (x ∘ σ)).Pairwise (· < ·) := by
      rw [← hσ]
      have h1 := sort_pairwise (List.ofFn x)
      have h2 : (sort (List.ofFn x)).Pairwise (· ≠ ·) := (sort_perm (List.ofFn x)).nodup_iff.2 hd
      exact (h1.and h2).imp fun h => lt_of_le_of_ne h.1 h.2
    have hlt0 : (0 :: List.ofFn (x ∘ σ)).Pairwise (· < ·) := List.pairwise_cons.2 ⟨fun t ht => by
      obtain ⟨i, rfl⟩ := List.mem_ofFn.1 ht
      exact hp (σ i), hlt⟩
    have hpos : ∀ i, 0 < spacing (x ∘ σ) i := fun i => by
      have hm : spacing (x ∘ σ) i ∈ normSpacings (0 :: List.ofFn (x ∘ σ)) := by
        rw [normSpacings_ofFn]; exact List.mem_ofFn.2 ⟨i, rfl⟩
      exact normSpacings_pos hlt0 _ hm
    obtain ⟨v, hv, h0⟩ := h _ hpos
    rw [← normSpacings_ofFn, ofSpacings_normSpacings, hx'] at hv
    cases hv
    exact (h0 c).2 rfl

theorem take_sum_ofFn (k : ℕ) (d : Fin n → ℝ) : ((List.ofFn d).take k).sum = ∑ i : Fin n, (if (i : ℕ) < k then 1 else 0) * d i := by
  rw [← dot_take, dot_ofFn]

theorem an_take (k : ℕ) (d : Fin n → ℝ) : AnalyticAt ℝ (fun d : Fin n → ℝ => ((List.ofFn d).take k).sum) d := by
  simp only [take_sum_ofFn]
  exact Finset.analyticAt_fun_sum _ fun i _ => analyticAt_const.mul (an_coord i d)

theorem an_drop (k : ℕ) (d : Fin n → ℝ) : AnalyticAt ℝ (fun d : Fin n → ℝ => ((List.ofFn d).drop k).sum) d := by
  have h : (fun d : Fin n → ℝ => ((List.ofFn d).drop k).sum) = fun d => (∑ i, d i) - ((List.ofFn d).take k).sum := by
    funext d
    rw [← List.sum_ofFn, ← List.sum_take_add_sum_drop (List.ofFn d) k]
    ring
  rw [h]
  exact (Finset.analyticAt_fun_sum _ fun i _ => an_coord i d).sub (an_take k d)

theorem pos_ofFn {d : Fin n → ℝ} (h : ∀ i, 0 < d i) : ∀ t ∈ List.ofFn d, 0 < t := fun t ht => by
  obtain ⟨i, rfl⟩ := List.mem_ofFn.1 ht
  exact h i

theorem no_ties_gnedenko {k : Option ℕ} (hk : 0 < k.getD (pyRoundDiv n 2)) (hn : k.getD (pyRoundDiv n 2) < n) (hr : 0 < r) (c : ℝ) :
    iid n (expMeasure r) {x | (ExpStat.gnedenko k).value (List.ofFn x) = .ok c} = 0 := by
  refine spaced_null (spaced_gnedenko hk hn) (G := fun c d => ((n : ℝ) - (k.getD (pyRoundDiv n 2) : ℕ)) *
    ((List.ofFn d).take (k.getD (pyRoundDiv n 2))).sum - c * ((k.getD (pyRoundDiv n 2) : ℕ) *
      ((List.ofFn d).drop (k.getD (pyRoundDiv n 2))).sum)) (fun c d _ => ?_) (fun d hd => ⟨(((List.ofFn d).take (k.getD (pyRoundDiv n 2))).sum / (k.getD (pyRoundDiv n 2) : ℕ)) /
    (((List.ofFn d).drop (k.getD (pyRoundDiv n 2))).sum / ((n : ℝ) - (k.getD (pyRoundDiv n 2) : ℕ))), ?_, fun c => ?_⟩) hr c
  · exact (analyticAt_const.mul (an_take _ d)).sub (analyticAt_const.mul (analyticAt_const.mul (an_drop _ d)))
  · simp only [ExpStat.value, Exponent.gnedenko, length_ofSpacings, List.length_ofFn, sort_zero_ofSpacings (pos_ofFn hd),
      normSpacings_ofSpacings]
    rw [if_neg (by omega)]
  · generalize k.getD (pyRoundDiv n 2) = m at *
    have hm : (0 : ℝ) < m := by exact_mod_cast hk
    have hm' : (0 : ℝ) < (n : ℝ) - m := sub_pos.2 (by exact_mod_cast hn)
    have hB : 0 < ((List.ofFn d).drop m).sum := List.sum_pos _ (fun t ht => pos_ofFn hd t (List.mem_of_mem_drop ht)) (by
      rw [Ne, List.drop_eq_nil_iff, List.length_ofFn]; omega)
    generalize ((List.ofFn d).drop m).sum = B at *
    generalize ((List.ofFn d).take m).sum = A at *
    rw [div_eq_iff (by positivity)]
    constructor
    · intro h
      field_simp
      linarith
    · intro h
      field_simp at h
      linarith

theorem no_ties_harris {k : Option ℕ} (hk : 0 < k.getD (pyRoundDiv n 4)) (hn : 2 * k.getD (pyRoundDiv n 4) < n) (hr : 0 < r) (c : ℝ) :
    iid n (expMeasure r) {x | (ExpStat.harris k).value (List.ofFn x) = .ok c} = 0 := by
  have hmid : ∀ (m : ℕ) (l : List ℝ), 2 * m < n → l.length = n → ((l.take (n - m)).drop m).sum = (l.take (n - m)).sum - (l.take m).sum := by
    intro m l h hl
    have := List.sum_take_add_sum_drop (l.take (n - m)) m
    rw [List.take_take, min_eq_left (by omega)] at this
    linarith
  refine spaced_null (spaced_harris hk hn) (G := fun c d => ((n : ℝ) - 2 * (k.getD (pyRoundDiv n 4) : ℕ)) *
    (((List.ofFn d).take (k.getD (pyRoundDiv n 4))).sum + ((List.ofFn d).drop (n - k.getD (pyRoundDiv n 4))).sum) -
      c * (2 * (k.getD (pyRoundDiv n 4) : ℕ) * (((List.ofFn d).take (n - k.getD (pyRoundDiv n 4))).sum -
      ((List.ofFn d).take (k.getD (pyRoundDiv n 4))).sum))) (fun c d _ => ?_) (fun d hd => ⟨((((List.ofFn d).take (k.getD (pyRoundDiv n 4))).sum +
    ((List.ofFn d).drop (n - k.getD (pyRoundDiv n 4))).sum) / (2 * (k.getD (pyRoundDiv n 4) : ℕ))) /
    ((((List.ofFn d).take (n - k.getD (pyRoundDiv n 4))).drop (k.getD (pyRoundDiv n 4))).sum / ((n : ℝ) - 2 * (k.getD (pyRoundDiv n 4) : ℕ))),
    ?_, fun c => ?_⟩) hr c
  · exact (analyticAt_const.mul ((an_take _ d).add (an_drop _ d))).sub
      (analyticAt_const.mul (analyticAt_const.mul ((an_take _ d).sub (an_take _ d))))
  · simp only [ExpStat.value, Exponent.harris, length_ofSpacings, List.length_ofFn, sort_zero_ofSpacings (pos_ofFn hd),
      normSpacings_ofSpacings, lastSlice, midSlice]
    rw [if_neg (by omega), if_neg (by omega)]
  · generalize k.getD (pyRoundDiv n 4) = m at *
    have hm : (0 : ℝ) < m := by exact_mod_cast hk
    have hm' : (0 : ℝ) < (n : ℝ) - 2 * m := sub_pos.2 (by exact_mod_cast hn)
    have hB : 0 < (((List.ofFn d).take (n - m)).drop m).sum := List.sum_pos _ (fun t ht =>
      pos_ofFn hd t (List.mem_of_mem_take (List.mem_of_mem_drop ht))) (by
        rw [Ne, List.drop_eq_nil_iff, List.length_take, List.length_ofFn]; omega)
    rw [← hmid m _ hn List.length_ofFn]
    generalize (((List.ofFn d).take (n - m)).drop m).sum = B at *
    generalize ((List.ofFn d).take m).sum = A at *
    generalize ((List.ofFn d).drop (n - m)).sum = A' at *
    rw [div_eq_iff (by positivity)]
    constructor
    · intro h
      field_simp
      linarith
    · intro h
      field_simp at h
      linarith

theorem no_ties_epstein (hn : 2 ≤ n) (hr : 0 < r) (c : ℝ) :
    iid n (expMeasure r) {x | ExpStat.epstein.value (List.ofFn x) = .ok c} = 0 := by
  have hn0 : (0 : ℝ) < n := by exact_mod_cast (by omega : 0 < n)
  have hK : 0 < 1 + ((n : ℝ) + 1) / (6 * n) := by positivity
  refine spaced_null (spaced_epstein hn) (G := fun c d => ((∑ i, d i) / n) ^ n -
    Real.exp (c * (1 + ((n : ℝ) + 1) / (6 * n)) / 2) * ∏ i, d i) (fun c d _ => ?_) (fun d hd => ⟨2 * n * (Real.log ((∑ i, d i) / n) - (∑ i, Real.log (d i)) / n) /
    (1 + ((n : ℝ) + 1) / (6 * n)), ?_, fun c => ?_⟩) hr c
  · refine (((Finset.analyticAt_fun_sum _ fun i _ => an_coord i d).div_const).pow n).sub (analyticAt_const.mul ?_)
    exact Finset.analyticAt_fun_prod _ fun i _ => an_coord i d
  · simp only [ExpStat.value, Exponent.epstein, length_ofSpacings, List.length_ofFn, sort_ofSpacings (pos_ofFn hd),
      normSpacings_ofSpacings, List.map_ofFn, List.sum_ofFn, Function.comp_def]
    rw [if_neg (by omega)]
  · have : Nonempty (Fin n) := ⟨⟨0, by omega⟩⟩
    have hS : 0 < (∑ i, d i) / n := div_pos (Finset.sum_pos (fun i _ => hd i) Finset.univ_nonempty) hn0
    have hP : 0 < ∏ i, d i := Finset.prod_pos fun i _ => hd i
    rw [← Real.log_prod fun i _ => (hd i).ne', div_eq_iff hK.ne']
    generalize (∑ i, d i) / (n : ℝ) = S at *
    generalize (∏ i, d i) = P at *
    generalize 1 + ((n : ℝ) + 1) / (6 * n) = K at *
    rw [sub_eq_zero, ← Real.log_injOn_pos.eq_iff (Set.mem_Ioi.2 (by positivity)) (Set.mem_Ioi.2 (by positivity)), Real.log_pow,
      Real.log_mul (Real.exp_pos _).ne' hP.ne', Real.log_exp, show 2 * (n : ℝ) * (Real.log S - Real.log P / n) =
        2 * (n * Real.log S - Real.log P) by field_simp]
    constructor <;> intro h <;> linarith

/-! ### Levels without a condition on ties -/

/-- The exponentiality criteria whose values have no atoms, and from which sample size on.  The remaining scale free criteria count
pairs or triples of observations and take finitely many values. -/
def Atomless : ExpStat → ℕ → Prop
  | .eppsPulley, n | .coxOakes, n | .epstein, n | .frozini, n | .gini, n | .kimberMichael, n | .kochar, n | .moran, n
  | .pietra, n | .we, n | .wongWong, n => 2 ≤ n
  | .shapiroWilk, n => 3 ≤ n
  | .atkinson p, n => 0 < p ∧ p < 1 ∧ 2 ≤ n
  | .gnedenko r, n => 0 < r.getD (pyRoundDiv n 2) ∧ r.getD (pyRoundDiv n 2) < n
  | .harris r, n => 0 < r.getD (pyRoundDiv n 4) ∧ 2 * r.getD (pyRoundDiv n 4) < n
  | .lorenz p, n => 1 ≤ ⌊(n : ℝ) * p⌋₊ ∧ ⌊(n : ℝ) * p⌋₊ < n
  | _, _ => False

theorem Atomless.pos {s : ExpStat} (h : Atomless s n) : 0 < n := by
  cases s <;> simp only [Atomless] at h <;> omega

theorem Atomless.scaleFree {s : ExpStat} (h : Atomless s n) : ScaleFree s := by
  cases s <;> first | trivial | exact h.1.ne' | exact h.elim

/-- **C123, values have no atoms**: on exponential samples no value of these criteria has positive probability. -/
theorem C123_no_atoms_exponential {s : ExpStat} (h : Atomless s n) (hr : 0 < r) (c : ℝ) :
    iid n (expMeasure r) {x | s.value (List.ofFn x) = .ok c} = 0 := by
  have : IsProbabilityMeasure (expMeasure r) := isProbabilityMeasure_expMeasure hr
  cases s with
  | eppsPulley => exact no_ties_eppsPulley h hr c
  | coxOakes => exact no_ties_coxOakes h hr c
  | epstein => exact no_ties_epstein h hr c
  | frozini => exact no_ties_frozini h hr c
  | gini => exact no_ties_gini h c
  | kimberMichael => exact no_ties_kimberMichael h hr c
  | kochar => exact no_ties_kochar h c
  | moran => exact no_ties_moran h hr c
  | pietra => exact no_ties_pietra h hr c
  | we => exact no_ties_we h hr c
  | wongWong => exact no_ties_wongWong h c
  | shapiroWilk => exact no_ties_shapiroWilkExp h hr c
  | atkinson p => exact no_ties_atkinson h.1 h.2.1 h.2.2 hr c
  | gnedenko k => exact no_ties_gnedenko h.1 h.2 hr c
  | harris k => exact no_ties_harris h.1 h.2 hr c
  | lorenz p => exact no_ties_lorenz h.1 h.2 c
  | _ => exact h.elim

/-- **C123, level of the test, exponential family, without a condition on ties.** -/
theorem C123_level_free_exponential {s : ExpStat} {B : ℕ} (h : Atomless s n) (hB : 0 < B) (code : String)
    (params : Option (List (String × ℝ))) (classes : List GeneratorClass) (hp : classes.Perm generatorClasses)
    {r₀ : ℝ} (hr : 0 < r) (hr₀ : 0 < r₀) (α : ℝ) :
    ∃ G M, getAvailableGenerator classes .exponential (some [("lam", r₀)]) = .ok G ∧ G.generate n = .ok M ∧
      ((iid n (expMeasure r)).prod (Measure.pi fun _ : Fin B => M))
        {ω | TestRejects (s.statistic code params) α ω.1 ω.2} ≤
        (rankBound s.alternative α B : ENNReal) / (B + 1 : ℕ) :=
  C123_level_exponential h.scaleFree code params classes hp hr hr₀ h.pos hB (fun _ => C123_no_atoms_exponential h hr₀) α

/-- **C126, level of the comparison with the critical value, exponential family, without a condition on ties.** -/
theorem C126_free_exponential {s : ExpStat} {B : ℕ} (h : Atomless s n) (hB : 0 < B) (code : String)
    (params : Option (List (String × ℝ))) (classes : List GeneratorClass) (hp : classes.Perm generatorClasses)
    {r₀ : ℝ} (hr : 0 < r) (hr₀ : 0 < r₀) {α : ℝ} (h0 : 0 ≤ α) (h1 : α ≤ 1) :
    ∃ G M, getAvailableGenerator classes .exponential (some [("lam", r₀)]) = .ok G ∧ G.generate n = .ok M ∧
      ((iid n (expMeasure r)).prod (Measure.pi fun _ : Fin B => M))
        {ω | CvRejects (s.statistic code params) α ω.1 ω.2} ≤
        (criticalBound s.alternative α B : ENNReal) / (B + 1 : ℕ) :=
  C126_exponential h.scaleFree code params classes hp hr hr₀ h.pos hB (C123_no_atoms_exponential h hr₀) h0 h1

example : Atomless (.atkinson 0.99) 20 := ⟨by norm_num, by norm_num, by norm_num⟩

example : Atomless (.harris none) 20 := by simp [Atomless, pyRoundDiv]

example : Atomless (.gnedenko none) 21 := by simp [Atomless, pyRoundDiv]

example : ∃ G M, getAvailableGenerator generatorClasses .exponential (some [("lam", 1)]) = .ok G ∧ G.generate 20 = .ok M ∧
    ((iid 20 (expMeasure 5)).prod (Measure.pi fun _ : Fin 999 => M))
      {ω | TestRejects (ExpStat.epstein.statistic "EPSTEIN" none) (1 / 20) ω.1 ω.2} ≤
      (rankBound ExpStat.epstein.alternative (1 / 20) 999 : ENNReal) / (999 + 1 : ℕ) :=
  C123_level_free_exponential (s := .epstein) (n := 20) (show 2 ≤ 20 by norm_num) (by norm_num) _ _ _ (List.Perm.refl _) (by norm_num) one_pos _

end Pysatl.Props
