import Verif.Props.NullLaw
import Verif.Model.NormalTail
import Mathlib.MeasureTheory.Function.SpecialFunctions.Basic
import Mathlib.MeasureTheory.Function.SpecialFunctions.Inner
import Mathlib.MeasureTheory.Function.SpecialFunctions.Arctan

/-! # Measurability of statistics as functions of the sample -/

namespace Pysatl.Props

open Pysatl.Decision Pysatl.Graph Pysatl.Edf Pysatl.Exponent Pysatl.Normal
open Pysatl.Spec
open MeasureTheory

variable {α : Type} [MeasurableSpace α] {f f' : α → List ℝ}

theorem range_map_mapIdx (m : ℕ) (g : ℕ → ℝ) (φ : ℕ → ℝ → ℝ) :
    ((List.range m).map g).mapIdx φ = (List.range m).map fun i => φ i (g i) :=
  List.ext_getElem (by simp) fun i h1 h2 => by simp

theorem at_range_map (m : ℕ) (g : ℕ → ℝ) (i : ℕ) :
    at_ ((List.range m).map g) i = if i < m then g i else 0 := by
  by_cases h : i < m
  · simp [at_, h]
  · simp [at_, h]

theorem mean_range_map (m : ℕ) (g : ℕ → ℝ) :
    mean ((List.range m).map g) = (∑ i ∈ Finset.range m, g i) / m := by
  rw [mean, sum_list_range, List.length_map, List.length_range]

theorem ListMeas.at (h : ListMeas f) (i : ℕ) : Measurable fun a => at_ (f a) i := by
  obtain ⟨m, g, hg, e⟩ := h
  simp only [e, at_range_map]
  split_ifs
  · exact hg i
  · exact measurable_const

theorem ListMeas.of_at {m : ℕ} (hl : ∀ a, (f a).length = m) (h : ∀ i, Measurable fun a => at_ (f a) i) :
    ListMeas f := by
  refine ⟨m, fun i a => at_ (f a) i, h, fun a => List.ext_getElem (by simp [hl]) fun i h1 h2 => ?_⟩
  simp [at_, h1]

theorem ListMeas.sort (h : ListMeas f) : ListMeas fun a => sort (f a) := by
  obtain ⟨m, g, hg, e⟩ := h
  have hv : Measurable fun a => fun i : Fin m => g i a := measurable_pi_lambda _ fun i => hg i
  have hf : ∀ a, f a = List.ofFn fun i : Fin m => g i a := fun a => by
    rw [e]
    exact List.ext_getElem (by simp) fun i h1 h2 => by simp
  refine ListMeas.of_at (m := m) (fun a => by rw [(sort_perm _).length_eq, e]; simp) fun i => ?_
  refine measurable_of_Iic fun c => ?_
  have hS : MeasurableSet {v : Fin m → ℝ | List.ofFn v ∈ {l : List ℝ | at_ l i ≤ c}} :=
    ((listMeas_ofFn m).at i) measurableSet_Iic
  have := hv (measurable_sort hS)
  convert this using 1
  ext a
  simp [hf]

theorem ListMeas.take (h : ListMeas f) (k : ℕ) : ListMeas fun a => (f a).take k := by
  obtain ⟨m, g, hg, e⟩ := h
  refine ⟨min k m, g, hg, fun a => ?_⟩
  beta_reduce
  rw [e]
  exact List.ext_getElem (by simp) fun i h1 h2 => by simp

theorem ListMeas.drop (h : ListMeas f) (k : ℕ) : ListMeas fun a => (f a).drop k := by
  obtain ⟨m, g, hg, e⟩ := h
  refine ⟨m - k, fun i => g (k + i), fun i => hg _, fun a => ?_⟩
  beta_reduce
  rw [e]
  exact List.ext_getElem (by simp) fun i h1 h2 => by simp

theorem ListMeas.dot (h : ListMeas f) (c : ℕ → ℝ) : Measurable fun a => dot c (f a) := by
  obtain ⟨m, g, hg, e⟩ := h
  simp only [Normal.dot, e, range_map_mapIdx, sum_list_range]
  fun_prop

theorem ListMeas.moment (h : ListMeas f) (k : ℕ) : Measurable fun a => moment k (f a) := by
  obtain ⟨m, g, hg, e⟩ := h
  simp only [Normal.moment, e, List.map_map, Function.comp_def, mean_range_map]
  fun_prop

theorem ListMeas.var1 (h : ListMeas f) : Measurable fun a => var1 (f a) := by
  obtain ⟨m, g, hg, e⟩ := h
  simp only [Normal.var1, e, List.map_map, Function.comp_def, mean_range_map, sum_list_range,
    List.length_map, List.length_range]
  fun_prop

theorem ListMeas.sumsq (h : ListMeas f) : Measurable fun a => ((f a).map fun x => (x - mean (f a)) ^ 2).sum := by
  obtain ⟨m, g, hg, e⟩ := h
  simp only [e, List.map_map, Function.comp_def, mean_range_map, sum_list_range]
  fun_prop

theorem ListMeas.standardised (h : ListMeas f) : ListMeas fun a => standardised (f a) := by
  have h1 := measurable_mean h
  have h2 := h.var1
  obtain ⟨m, g, hg, e⟩ := h
  refine ⟨m, fun i a => (g i a - mean (f a)) / sd1 (f a), fun i => ?_, fun a => ?_⟩
  · unfold sd1
    exact ((hg i).sub h1).div h2.sqrt
  · simp only [Normal.standardised]
    conv_lhs => rw [show f a = f a from rfl]
    generalize mean (f a) = u, sd1 (f a) = v
    rw [e, List.map_map]; rfl

theorem ListMeas.skew (h : ListMeas f) : Measurable fun a => skew (f a) := by
  unfold Normal.skew
  exact (h.moment 3).div ((h.moment 2).pow_const _)

theorem ListMeas.kurt (h : ListMeas f) : Measurable fun a => kurt (f a) := by
  unfold Normal.kurt
  exact (h.moment 4).div ((h.moment 2).pow_const _)

theorem ListMeas.median (h : ListMeas f) : Measurable fun a => median (f a) := by
  obtain ⟨m, hm⟩ := h.length
  simp only [Normal.median, hm]
  split_ifs
  · exact ((h.at _).add (h.at _)).div_const _
  · exact h.at _

/-- `max` and `min` of a list. -/
theorem outcomeMeas_npMax (h : ListMeas f) : OutcomeMeas fun a => npMax (f a) := by
  obtain ⟨g, hg, h1 | h1⟩ := measurable_npMax h
  · simp only [h1]; exact outcomeMeas_ok hg
  · simp only [h1]; exact outcomeMeas_error

theorem outcomeMeas_const (c : Except PyErr ℝ) : OutcomeMeas fun _ : α => c := by
  cases c
  · exact outcomeMeas_error
  · exact outcomeMeas_ok measurable_const

theorem ListMeas.mapP (h : ListMeas f) {φ : α → ℝ → ℝ}
    (hφ : ∀ g : α → ℝ, Measurable g → Measurable fun a => φ a (g a)) : ListMeas fun a => (f a).map (φ a) := by
  obtain ⟨m, g, hg, e⟩ := h
  exact ⟨m, fun i a => φ a (g i a), fun i => hφ _ (hg i), fun a => by beta_reduce; rw [e, List.map_map]; rfl⟩

theorem ListMeas.mapIdxP (h : ListMeas f) {φ : α → ℕ → ℝ → ℝ}
    (hφ : ∀ i, ∀ g : α → ℝ, Measurable g → Measurable fun a => φ a i (g a)) :
    ListMeas fun a => (f a).mapIdx (φ a) := by
  obtain ⟨m, g, hg, e⟩ := h
  exact ⟨m, fun i a => φ a i (g i a), fun i => hφ i _ (hg i), fun a => by
    beta_reduce; rw [e, range_map_mapIdx]⟩

theorem listMeas_range (n : ℕ) (c : ℕ → ℝ) : ListMeas fun _ : α => (List.range n).map c :=
  ⟨n, fun i _ => c i, fun _ => measurable_const, fun _ => rfl⟩

theorem measurable_pyMin (h : ListMeas f) :
    ∃ (g : α → ℝ), Measurable g ∧ ((∀ a, pyMin (f a) = .ok (g a)) ∨ ∀ a, pyMin (f a) = .error .valueError) := by
  obtain ⟨m, hm⟩ := h.length
  rcases Nat.eq_zero_or_pos m with rfl | hpos
  · refine ⟨0, measurable_const, .inr fun a => ?_⟩
    rw [List.length_eq_zero_iff.1 (hm a)]; rfl
  · have hne : ∀ a, f a ≠ [] := fun a => List.length_pos_iff.1 (by rw [hm]; exact hpos)
    have hex : ∀ a, ∃ d, (f a).min? = some d := fun a => by
      cases hd : (f a).min? with
      | none => exact absurd (List.min?_eq_none_iff.1 hd) (hne a)
      | some d => exact ⟨d, rfl⟩
    choose g hg using hex
    refine ⟨g, measurable_of_Ici fun c => ?_, .inl fun a => by simp [pyMin, hg]⟩
    have : g ⁻¹' Set.Ici c = {a | ∀ x ∈ f a, c ≤ x} := by
      ext a
      obtain ⟨h1, h2⟩ := List.min?_eq_some_iff.1 (hg a)
      exact ⟨fun hle x hx => hle.trans (h2 x hx), fun hall => hall _ h1⟩
    rw [this]
    exact h.all measurableSet_Ici

/-- The functions of scipy are measurable. -/
structure NormLibMeasurable (lib : NormLib) : Prop where
  cdf : Measurable lib.cdf
  pdf : Measurable lib.pdf
  ppf : Measurable lib.ppf
  logcdf : Measurable lib.logcdf
  logsf : Measurable lib.logsf
  betaCdf : ∀ a b, Measurable fun x => lib.betaCdf x a b

section Normal
variable {lib : NormLib}

theorem measurable_andersonDarling (hl : NormLibMeasurable lib) (h : ListMeas f) :
    Measurable fun a => Normal.andersonDarling lib (f a) := by
  have h1 := measurable_mean h
  have h2 := h.var1.sqrt
  have hw : ListMeas fun a => (sort (f a)).map fun y => (y - mean (f a)) / sd1 (f a) :=
    h.sort.mapP fun g hg => (hg.sub h1).div h2
  unfold Normal.andersonDarling
  exact measurable_ad (hw.map hl.logcdf) (hw.map hl.logsf)

theorem measurable_pearsonr (h : ListMeas f) (h' : ListMeas f') : OutcomeMeas fun a => pearsonr (f a) (f' a) := by
  have h1 := h.sumsq
  have h2 := h'.sumsq
  obtain ⟨m, g, hg, e⟩ := h
  obtain ⟨m', g', hg', e'⟩ := h'
  have hz : ∀ a, List.zipWith (fun x y => (x - mean (f a)) * (y - mean (f' a))) (f a) (f' a) =
      (List.range (min m m')).map fun i => (g i a - mean (f a)) * (g' i a - mean (f' a)) := by
    intro a
    generalize mean (f a) = u, mean (f' a) = v
    rw [e, e']
    exact List.ext_getElem (by simp) fun i h1 h2 => by simp
  have hm := measurable_mean ⟨m, g, hg, e⟩
  have hm' := measurable_mean ⟨m', g', hg', e'⟩
  have hlen : ∀ a, (f' a).length = m' := fun a => by rw [e']; simp
  simp only [pearsonr, hlen, hz, sum_list_range]
  split_ifs
  · exact outcomeMeas_error
  · refine outcomeMeas_ok (Measurable.div ?_ (h1.sqrt.mul h2.sqrt))
    exact Finset.measurable_sum _ fun i _ => ((hg i).sub hm).mul ((hg' i).sub hm')

theorem measurable_ryanJoiner (hl : NormLibMeasurable lib) (h : ListMeas f) (w : Bool) (al : RjAlpha) :
    OutcomeMeas fun a => Normal.ryanJoiner lib w al (f a) := by
  obtain ⟨m, hm⟩ := h.length
  have hms : ∀ a, (sort (f a)).length = m := fun a => by rw [(sort_perm _).length_eq, hm]
  simp only [Normal.ryanJoiner, hm]
  refine measurable_pearsonr ⟨m, _, fun i => ?_, fun a => rfl⟩ h.sort
  refine hl.ppf.comp ?_
  cases w with
  | false => simp
  | true =>
    simp only [if_true, groupMean, hms, Finset.sum_filter, Finset.card_filter]
    have hs : ∀ j, MeasurableSet {a | at_ (sort (f a)) j = at_ (sort (f a)) i} := fun j =>
      measurableSet_eq_fun (h.sort.at j) (h.sort.at i)
    push_cast
    refine Measurable.div ?_ ?_
    · exact Finset.measurable_sum _ fun j _ => Measurable.ite (hs j) measurable_const measurable_const
    · exact Finset.measurable_sum _ fun j _ => Measurable.ite (hs j) measurable_const measurable_const

theorem measurable_var1' (h : ListMeas f) : Measurable fun a => var1' (f a) := by
  have h1 := measurable_mean h
  obtain ⟨m, hm⟩ := h.length
  have h2 := (h.map (φ := fun x => x ^ 2) (by fun_prop)).sum
  simp only [var1', hm]
  exact ((measurable_const.mul ((h2.div_const _).sub (h1.pow_const 2))).div_const _)

theorem measurable_variance (h : ListMeas f) : Measurable fun a => Graph.variance (f a) := by
  obtain ⟨m, hm⟩ := h.length
  simp only [Graph.variance, hm]
  exact h.sumsq.div_const _

theorem measurable_skewZ (n : ℝ) : Measurable (skewZ n) := by
  have h1 : Measurable fun b : ℝ => if b * √(((n + 1) * (n + 3)) / (6 * (n - 2))) = 0 then (1 : ℝ) else
      b * √(((n + 1) * (n + 3)) / (6 * (n - 2))) :=
    Measurable.ite (measurableSet_eq_fun (by fun_prop) measurable_const) measurable_const (by fun_prop)
  have h2 : ∀ d a : ℝ, Measurable fun y : ℝ => d * Real.log (y / a + √((y / a) ^ 2 + 1)) := fun d a => by
    fun_prop
  exact (h2 _ _).comp h1

theorem measurable_sign : Measurable Real.sign := by
  have : Real.sign = fun r => if r < 0 then -1 else if 0 < r then 1 else 0 := by
    funext r; rfl
  rw [this]
  exact Measurable.ite measurableSet_Iio measurable_const
    (Measurable.ite measurableSet_Ioi measurable_const measurable_const)

theorem measurable_kurtosisZ (n : ℝ) : Measurable (kurtosisZ n) := by
  have := measurable_sign
  unfold kurtosisZ
  fun_prop

theorem measurable_dhZ1 (n : ℝ) : Measurable fun s => dhZ1 s n := by
  unfold dhZ1
  fun_prop

theorem measurable_dhZ2 (n : ℝ) : Measurable fun p : ℝ × ℝ => dhZ2 p.1 p.2 n := by
  unfold dhZ2
  fun_prop

theorem ListMeas.trimmed (h : ListMeas f) (t r : ℕ) : Measurable fun a => trimmedMoment t r (f a) := by
  obtain ⟨m, hm⟩ := h.length
  simp only [trimmedMoment, hm]
  exact (Finset.measurable_sum _ fun i _ => (h.sort.at _).mul_const _).div_const _

theorem measurable_hoskingStat (t n : ℕ) {u v w : α → ℝ} (hu : Measurable u) (hv : Measurable v)
    (hw : Measurable w) : Measurable fun a => hoskingStat t n (u a) (v a) (w a) := by
  unfold hoskingStat
  fun_prop

theorem ListMeas.phiz (hl : NormLibMeasurable lib) (h : ListMeas f) : ListMeas fun a => phiz lib (f a) :=
  (h.standardised.map hl.cdf).sort

/-- The statistic object returns the value of the class. -/
theorem execute_some (s : NormStat) (code : String) (params : Option (List (String × ℝ))) {xs : List ℝ}
    {v : Except PyErr ℝ} (h : s.value lib xs = v.map some) : (s.statistic lib code params).execute xs = v := by
  show (s.value lib xs >>= _) = v
  rw [h]
  cases v <;> rfl

theorem execute_guarded (s : NormStat) (code : String) (params : Option (List (String × ℝ))) {xs : List ℝ}
    {v : Except PyErr ℝ} (h : s.value lib xs = guarded xs v) :
    (s.statistic lib code params).execute xs = if 3 < xs.length then v else .error .typeError := by
  show (s.value lib xs >>= _) = _
  rw [h, guarded]
  split_ifs
  · cases v <;> rfl
  · rfl

/-- Every normality statistic is a measurable function of the sample. -/
theorem outcomeMeas_normal (hl : NormLibMeasurable lib) (s : NormStat) (code : String)
    (params : Option (List (String × ℝ))) (h : ListMeas f) :
    OutcomeMeas fun a => (s.statistic lib code params).execute (f a) := by
  obtain ⟨m, hm⟩ := h.length
  have hms : ∀ a, (sort (f a)).length = m := fun a => by rw [(sort_perm _).length_eq, hm]
  have hsome : ∀ {v : α → Except PyErr ℝ}, (∀ a, s.value lib (f a) = (v a).map some) → OutcomeMeas v →
      OutcomeMeas fun a => (s.statistic lib code params).execute (f a) := by
    intro v hv hm
    simpa only [execute_some s code params (hv _)] using hm
  have hguard : ∀ {v : α → Except PyErr ℝ}, (∀ a, s.value lib (f a) = guarded (f a) (v a)) → OutcomeMeas v →
      OutcomeMeas fun a => (s.statistic lib code params).execute (f a) := by
    intro v hv hmv
    simp only [execute_guarded s code params (hv _), hm]
    split_ifs
    · exact hmv
    · exact outcomeMeas_error
  have hmean := measurable_mean h
  have hsd := h.var1.sqrt
  have hstd := h.standardised
  have hskew : OutcomeMeas fun a => skewTest (f a) := by
    simp only [skewTest, hm]
    split_ifs
    · exact outcomeMeas_error
    · exact outcomeMeas_ok ((measurable_skewZ _).comp h.sort.skew)
  have hkurt : OutcomeMeas fun a => kurtosisTest (f a) := by
    simp only [kurtosisTest, hm]
    split_ifs
    · exact outcomeMeas_error
    · exact outcomeMeas_ok ((measurable_kurtosisZ _).comp h.sort.kurt)
  have hadd : ∀ φ : ℝ → ℝ, Measurable φ → Measurable fun a => ((f a).map fun x => φ (x - mean (f a))).sum :=
    fun φ hφ => (h.mapP (φ := fun a x => φ (x - mean (f a))) fun g hg => hφ.comp (f := fun a => g a - mean (f a)) (hg.sub hmean)).sum
  cases s with
  | ks t =>
    refine hsome (fun a => rfl) ?_
    exact outcomeMeas_edf (h.sort.map hl.cdf) (.ks t)
  | andersonDarling => exact hsome (fun a => rfl) (outcomeMeas_ok (measurable_andersonDarling hl h))
  | shapiroWilk =>
    refine hsome (fun a => rfl) ?_
    simp only [Normal.shapiroWilk, hm]
    split_ifs
    · exact outcomeMeas_error
    · exact outcomeMeas_error
    · exact outcomeMeas_ok (((h.sort.dot _).pow_const 2).div h.sumsq)
  | cvm => exact hsome (fun a => rfl) (outcomeMeas_edf (h.sort.map hl.cdf) .cvm)
  | lilliefors => exact hsome (fun a => rfl) (outcomeMeas_edf (hstd.sort.map hl.cdf) (.ks .twoTailed))
  | jarqueBera =>
    refine hsome (fun a => rfl) ?_
    simp only [Normal.jarqueBera, hm]
    split_ifs
    · exact outcomeMeas_error
    · have hd : ListMeas fun a => (f a).map fun x => x - mean (f a) := h.mapP fun g hg => hg.sub hmean
      have h1 := hd.skew
      have h2 := hd.kurt
      exact outcomeMeas_ok (measurable_const.mul ((h1.pow_const 2).add
        (((h2.sub_const 3).pow_const 2).div_const 4)))
  | skew => exact hsome (fun a => rfl) hskew
  | kurtosis => exact hsome (fun a => rfl) hkurt
  | dap =>
    refine hsome (fun a => rfl) ?_
    simp only [dap, skewTest, kurtosisTest, hm]
    by_cases h8 : m < 8
    · simp only [h8, if_true, bind, Except.bind]; exact outcomeMeas_error
    · have h5 : ¬ m < 5 := by omega
      simp only [h8, h5, if_false, bind, Except.bind, pure, Except.pure]
      have h1 := (measurable_skewZ m).comp h.sort.skew
      have h2 := (measurable_kurtosisZ m).comp h.sort.kurt
      exact outcomeMeas_ok ((h1.mul h1).add (h2.mul h2))
  | filli =>
    refine hsome (fun a => rfl) ?_
    simp only [Normal.filli, hm]
    split_ifs
    · exact outcomeMeas_error
    · exact measurable_pearsonr (listMeas_range m _) h.sort
  | looneyGulledge =>
    refine hsome (fun a => rfl) ?_
    simp only [Normal.looneyGulledge, hm]
    exact measurable_pearsonr (listMeas_range m _) h.sort
  | ryanJoiner w al => exact hsome (fun a => rfl) (measurable_ryanJoiner hl h w al)
  | shapiroFrancia =>
    refine hsome (fun a => rfl) (outcomeMeas_ok ?_)
    simp only [Normal.shapiroFrancia, hm]
    exact ((h.sort.dot _).pow_const 2).div (h.sort.sumsq.mul_const _)
  | eppsPulley =>
    refine hsome (fun a => rfl) (outcomeMeas_ok ?_)
    have h1 := measurable_mean h.sort
    have h2 := measurable_variance h.sort
    have h3 : Measurable fun a => ((sort (f a)).map fun v =>
        Real.exp (-(v - mean (sort (f a))) ^ 2 / (4 * Graph.variance (sort (f a))))).sum :=
      (h.sort.mapP fun g hg => (((hg.sub h1).pow_const 2).neg.div (h2.const_mul 4)).exp).sum
    have h4 : ∀ j k, Measurable fun a => Real.exp (-(at_ (sort (f a)) j - at_ (sort (f a)) k) ^ 2 /
        (2 * Graph.variance (sort (f a)))) := fun j k =>
      ((((h.sort.at j).sub (h.sort.at k)).pow_const 2).neg.div (h2.const_mul 2)).exp
    simp only [Normal.eppsPulley, hm]
    exact (measurable_const.add (measurable_const.mul (Finset.measurable_sum _ fun k _ =>
      Finset.measurable_sum _ fun j _ => h4 j k))).sub (measurable_const.mul h3)
  | hosking1 =>
    refine hguard (fun a => rfl) (outcomeMeas_ok ?_)
    simp only [Normal.hosking1, hm]
    have h0 := h.sort.sum
    have hd := h.sort.dot
    refine measurable_hoskingStat 0 m ?_ ?_ ?_
    · exact (((hd _).div_const _).const_mul 2).sub (h0.div_const _)
    · exact ((((hd _).div_const _).const_mul 6).sub (((hd _).div_const _).const_mul 6)).add (h0.div_const _)
    · exact (((((hd _).div_const _).const_mul 20).sub (((hd _).div_const _).const_mul 30)).add
        (((hd _).div_const _).const_mul 12)).sub (h0.div_const _)
  | hosking2 =>
    refine hsome (v := fun a => .ok (if 3 < (f a).length then hoskingTrimmed 1 (f a) else 0)) (fun a => rfl)
      (outcomeMeas_ok ?_)
    simp only [hoskingTrimmed, hm]
    split_ifs
    · exact measurable_hoskingStat _ _ (h.trimmed _ _) (h.trimmed _ _) (h.trimmed _ _)
    · exact measurable_const
  | hosking3 =>
    refine hguard (fun a => rfl) (outcomeMeas_ok ?_)
    simp only [hoskingTrimmed, hm]
    exact measurable_hoskingStat _ _ (h.trimmed _ _) (h.trimmed _ _) (h.trimmed _ _)
  | hosking4 =>
    refine hguard (fun a => rfl) (outcomeMeas_ok ?_)
    simp only [hoskingTrimmed, hm]
    exact measurable_hoskingStat _ _ (h.trimmed _ _) (h.trimmed _ _) (h.trimmed _ _)
  | zhangWuC =>
    refine hguard (fun a => rfl) (outcomeMeas_ok ?_)
    simp only [Normal.zhangWuC, hm]
    exact ((ListMeas.phiz hl h).mapIdxP fun i g hg => by fun_prop).sum
  | zhangWuA =>
    refine hguard (fun a => rfl) (outcomeMeas_ok ?_)
    simp only [Normal.zhangWuA, hm]
    exact ((((ListMeas.phiz hl h).mapIdxP fun i g hg => by fun_prop).sum.neg).const_mul 10).sub_const 32
  | glenLeemisBarr =>
    refine hguard (fun a => rfl) (outcomeMeas_ok ?_)
    simp only [Normal.glenLeemisBarr, hm]
    have h1 : ListMeas fun a => sort ((phiz lib (f a)).mapIdx fun i p => lib.betaCdf p (i + 1) (m - (i + 1) + 1)) :=
      ((ListMeas.phiz hl h).mapIdxP fun i g hg => (hl.betaCdf _ _).comp hg).sort
    exact measurable_const.sub ((h1.mapIdxP fun i g hg => by fun_prop).sum.div_const _)
  | doornikHansen =>
    refine hsome (fun a => rfl) (outcomeMeas_ok ?_)
    simp only [Normal.doornikHansen, hm]
    have h1 : Measurable fun a => moment 3 (f a) / moment 2 (f a) ^ (1.5 : ℝ) :=
      (h.moment 3).div ((h.moment 2).pow_const _)
    have h2 : Measurable fun a => moment 4 (f a) / moment 2 (f a) ^ 2 := (h.moment 4).div ((h.moment 2).pow_const _)
    exact (((measurable_dhZ1 m).comp h1).pow_const 2).add
      (((measurable_dhZ2 m).comp (h1.prodMk h2)).pow_const 2)
  | robustJarqueBera =>
    refine hsome (fun a => rfl) (outcomeMeas_ok ?_)
    simp only [Normal.robustJarqueBera, hm]
    have h1 := h.sort.median
    have h2 : Measurable fun a => ((f a).map fun x => |x - median (sort (f a))|).sum :=
      (h.mapP fun g hg => by have := hg.sub h1; exact continuous_abs.measurable.comp this).sum
    have h3 := h2.const_mul (√(Real.pi / 2) / (m : ℝ))
    have h4 := h.sort.moment 3
    have h5 := h.sort.moment 4
    exact (((h4.div (h3.pow_const 3)).pow_const 2).const_mul _).add
      ((((h5.div (h3.pow_const 4)).sub_const 3).pow_const 2).const_mul _)
  | bontempsMeddahi1 =>
    refine hguard (fun a => rfl) (outcomeMeas_ok ?_)
    have h1 := (measurable_var1' h).sqrt
    have hz : ListMeas fun a => (f a).map fun x => (x - mean (f a)) / √(var1' (f a)) :=
      h.mapP fun g hg => (hg.sub hmean).div h1
    simp only [Normal.bontempsMeddahi1, hm]
    exact (((hz.map (by unfold he3; fun_prop)).sum.pow_const 2).add
      ((hz.map (by unfold he4; fun_prop)).sum.pow_const 2)).div_const _
  | bontempsMeddahi2 =>
    refine hguard (fun a => rfl) (outcomeMeas_ok ?_)
    simp only [Normal.bontempsMeddahi2, hm]
    exact (((((hstd.map (by unfold he3; fun_prop)).sum.pow_const 2).add
      ((hstd.map (by unfold he4; fun_prop)).sum.pow_const 2)).add
      ((hstd.map (by unfold he5; fun_prop)).sum.pow_const 2)).add
      ((hstd.map (by unfold he6; fun_prop)).sum.pow_const 2)).div_const _
  | bonettSeier =>
    refine hguard (fun a => rfl) (outcomeMeas_ok ?_)
    have h1 := hadd (fun v => v ^ 2) (by fun_prop)
    have h2 := hadd (fun v => |v|) (by fun_prop)
    simp only [Normal.bonettSeier, hm]
    exact ((((((h1.div_const _).sqrt.log).sub (h2.div_const _).log).const_mul _).sub_const 3).const_mul _).div_const _
  | martinezIglewicz =>
    refine hguard (fun a => rfl) (outcomeMeas_ok ?_)
    have h1 := h.sort.median
    have ha : ListMeas fun a => (f a).map fun x => x - median (sort (f a)) := h.mapP fun g hg => hg.sub h1
    have h2 := ((ha.map (φ := fun v => |v|) (by fun_prop)).sort.median).const_mul 9
    have hr : ∀ g : α → ℝ, Measurable g → Measurable fun a =>
        (g a / (9 * median (sort (((f a).map fun x => x - median (sort (f a))).map fun v => |v|)))) ^ 2 :=
      fun g hg => (hg.div h2).pow_const 2
    simp only [Normal.martinezIglewicz, hm]
    refine Measurable.div ((ha.map (φ := fun v => v ^ 2) (by fun_prop)).sum.div_const _) (Measurable.div ?_ ?_)
    · exact ((ha.mapP fun g hg => (hg.pow_const 2).mul (((measurable_const.sub (hr g hg))).pow_const 4)).sum).const_mul _
    · exact ((ha.mapP fun g hg => (measurable_const.sub (hr g hg)).mul
        (measurable_const.sub ((hr g hg).const_mul 5))).sum).pow_const 2
  | cabanaCabana1 =>
    refine hguard (fun a => rfl) ?_
    have hlen : ∀ a, (standardised (f a)).length = m := fun a => by simp [Normal.standardised, hm]
    have e3 := (hstd.map (φ := he3) (by unfold he3; fun_prop)).sum
    have e4 := (hstd.map (φ := he4) (by unfold he4; fun_prop)).sum
    have e5 := (hstd.map (φ := he5) (by unfold he5; fun_prop)).sum
    have e6 := (hstd.map (φ := he6) (by unfold he6; fun_prop)).sum
    have e7 := (hstd.map (φ := he7) (by unfold he7; fun_prop)).sum
    have e8 := (hstd.map (φ := he8) (by unfold he8; fun_prop)).sum
    have hc := hl.cdf
    have hp := hl.pdf
    simp only [cc1, hlen]
    exact outcomeMeas_npMax (hstd.mapP fun g hg => by fun_prop)
  | cabanaCabana2 =>
    refine hguard (fun a => rfl) ?_
    have hv := measurable_variance h
    have hz : ListMeas fun a => cc2Standardised (f a) := by
      simp only [cc2Standardised, hm]
      exact h.mapP fun g hg => (hg.sub hmean).div ((hv.const_mul _).div_const _).sqrt
    have hlen : ∀ a, (cc2Standardised (f a)).length = m := fun a => by simp [cc2Standardised, hm]
    have e3 := (hz.map (φ := fun v => he3 v / √6) (by unfold he3; fun_prop)).sum
    have e4 := (hz.map (φ := fun v => he4 v / (2 * √6)) (by unfold he4; fun_prop)).sum
    have e5 := (hz.map (φ := fun v => he5 v / (2 * √30)) (by unfold he5; fun_prop)).sum
    have e6 := (hz.map (φ := fun v => he6 v / (12 * √5)) (by unfold he6; fun_prop)).sum
    have e7 := (hz.map (φ := fun v => he7 v / (12 * √35)) (by unfold he7; fun_prop)).sum
    have e8 := (hz.map (φ := fun v => he8 v / (24 * √70)) (by unfold he8; fun_prop)).sum
    have hc := hl.cdf
    have hp := hl.pdf
    simp only [cc2, hlen]
    refine outcomeMeas_npMax (hz.mapP fun g hg => ?_)
    unfold he3 he4 he5 he6 he7 he8 at *
    fun_prop
  | chenShapiro =>
    refine hguard (fun a => rfl) (outcomeMeas_ok ?_)
    simp only [Normal.chenShapiro, hm]
    have h1 : Measurable fun a => ((npDiff (sort (f a))).mapIdx fun i d =>
        d / (lib.ppf (blom m (i + 1)) - lib.ppf (blom m i))).sum :=
      (h.sort.npDiff.mapIdxP fun i g hg => hg.div_const _).sum
    exact (measurable_const.sub (h1.div (hsd.const_mul _))).const_mul _
  | zhangQ =>
    refine hguard (fun a => rfl) ?_
    simp only [Normal.zhangQ, hm]
    split_ifs
    · exact outcomeMeas_error
    · exact outcomeMeas_ok ((h.sort.dot _).div (h.sort.dot _)).log
  | coin =>
    refine hguard (fun a => rfl) (outcomeMeas_ok ?_)
    have h1 := (measurable_var1' h).sqrt
    have hz : ListMeas fun a => sort ((f a).map fun x => (x - mean (f a)) / √(var1' (f a))) :=
      (h.mapP fun g hg => (hg.sub hmean).div h1).sort
    simp only [Normal.coin, hm]
    exact ((((hz.dot _).const_mul _).sub ((hz.dot _).const_mul _)).div_const _).pow_const 2
  | dagostino =>
    refine hguard (fun a => rfl) (outcomeMeas_ok ?_)
    have h1 := measurable_mean h.sort
    have h2 := (h.sort.map (φ := fun x => x ^ 2) (by fun_prop)).sum
    simp only [Normal.dagostino, hm]
    exact ((((h.sort.dot _).div (((h2.div_const _).sub (h1.pow_const 2)).sqrt.const_mul _)).sub_const _).const_mul
      _).div_const _
  | zhangQStar =>
    refine hguard (fun a => rfl) ?_
    simp only [Normal.zhangQStar, hm]
    split_ifs
    · exact outcomeMeas_error
    · exact outcomeMeas_ok ((h.sort.reverse.dot _).neg.div (h.sort.reverse.dot _).neg).log
  | swrg =>
    refine hguard (fun a => rfl) (outcomeMeas_ok ?_)
    simp only [Normal.swrg, hm]
    exact ((h.sort.dot _).pow_const 2).div h.sort.sumsq
  | gmg =>
    refine hguard (fun a => rfl) (outcomeMeas_ok ?_)
    have h1 := h.sort.median
    have h2 : Measurable fun a => ((f a).map fun x => |x - median (sort (f a))|).sum :=
      (h.mapP fun g hg => by have := hg.sub h1; exact continuous_abs.measurable.comp this).sum
    simp only [Normal.gmg, hm]
    exact (h.sumsq.div_const _).sqrt.div ((h2.const_mul _).div_const _)
  | spiegelhalter =>
    refine hguard (fun a => rfl) ?_
    obtain ⟨mx, hmx, h1 | h1⟩ := measurable_npMax h
    · obtain ⟨mn, hmn, h2 | h2⟩ := measurable_pyMin h
      · simp only [Normal.spiegelhalter, h1, h2, bind, Except.bind, pure, Except.pure, hm]
        have h3 := hadd (fun v => |v|) (by fun_prop)
        have hu : Measurable fun a => (mx a - mn a) / √(var1 (f a)) := (hmx.sub hmn).div hsd
        have hg : Measurable fun a => ((f a).map fun x => |x - mean (f a)|).sum /
            (√(var1 (f a)) * √(m : ℝ) * √((m : ℝ) - 1)) := h3.div ((hsd.mul_const _).mul_const _)
        exact outcomeMeas_ok ((((hu.const_mul _).pow_const _).add (hg.pow_const _)).pow_const _)
      · simp only [Normal.spiegelhalter, h1, h2, bind, Except.bind]
        exact outcomeMeas_error
    · simp only [Normal.spiegelhalter, h1, bind, Except.bind]
      exact outcomeMeas_error
  | desgagneLafaye =>
    refine hguard (fun a => rfl) (outcomeMeas_ok ?_)
    have h2 := (h.map (φ := fun x => x ^ 2) (by fun_prop)).sum
    have hv : Measurable fun a => √(((f a).map (· ^ 2)).sum / (m : ℝ) - mean (f a) ^ 2) :=
      ((h2.div_const _).sub (hmean.pow_const 2)).sqrt
    have hy : ListMeas fun a => (f a).map fun x => (x - mean (f a)) /
        √(((f a).map (· ^ 2)).sum / (m : ℝ) - mean (f a) ^ 2) := h.mapP fun g hg => (hg.sub hmean).div hv
    have r1 := (hy.map (φ := fun t => t ^ 2 * Real.log |t|) (by fun_prop)).sum
    have r2 := (hy.map (φ := fun t => Real.log (1 + |t|)) (by fun_prop)).sum
    have r3 := (hy.map (φ := fun t => Real.log (Real.log (2.71828182846 + |t|))) (by fun_prop)).sum
    simp only [Normal.desgagneLafaye, hm]
    fun_prop

end Normal

/-! ### Exponentiality statistics -/

theorem ListMeas.normSpacings (h : ListMeas f) : ListMeas fun a => normSpacings (f a) := by
  obtain ⟨m, hm⟩ := h.length
  simp only [Exponent.normSpacings, hm]
  exact h.npDiff.mapIdxP fun i g hg => hg.const_mul _

theorem measurable_count {g h : α → ℝ} (hg : Measurable g) (hh : Measurable h) :
    Measurable fun a => ((if g a < h a then (1 : ℕ) else 0 : ℕ) : ℝ) := by
  have : (fun a => ((if g a < h a then (1 : ℕ) else 0 : ℕ) : ℝ)) = fun a => if g a < h a then (1 : ℝ) else 0 := by
    funext a; split_ifs <;> simp
  rw [this]
  exact Measurable.ite (measurableSet_lt hg hh) measurable_const measurable_const

theorem measurable_count_and {p : Prop} [Decidable p] {g h : α → ℝ} (hg : Measurable g) (hh : Measurable h) :
    Measurable fun a => ((if p ∧ g a < h a then (1 : ℕ) else 0 : ℕ) : ℝ) := by
  by_cases hp : p
  · simp only [hp, true_and]; exact measurable_count hg hh
  · simp only [hp, false_and, if_false]; exact measurable_const

theorem measurable_exponCdf (lam : ℝ) : Measurable (exponCdf lam) :=
  Measurable.ite measurableSet_Iic measurable_const (by fun_prop)

/-- Every exponentiality statistic is a measurable function of the sample. -/
theorem outcomeMeas_exponential (s : ExpStat) (h : ListMeas f) : OutcomeMeas fun a => s.value (f a) := by
  obtain ⟨m, hm⟩ := h.length
  have hmean := measurable_mean h
  have hsm := measurable_mean h.sort
  have hrel : ∀ φ : ℝ → ℝ, Measurable φ → Measurable fun a => ((f a).map fun x => φ (x / mean (f a))).sum :=
    fun φ hφ => (h.mapP (φ := fun a x => φ (x / mean (f a))) fun g hg =>
      hφ.comp (f := fun a => g a / mean (f a)) (hg.div hmean)).sum
  have hsp := (ListMeas.sort (h.cons 0)).normSpacings
  have hspl : ∀ a, (normSpacings (sort (0 :: f a))).length = m := fun a => by
    simp [Exponent.normSpacings, npDiff_eq_zipWith, (sort_perm _).length_eq, hm]
  cases s with
  | eppsPulley =>
    refine outcomeMeas_ok ?_
    simp only [Exponent.eppsPulley, hm, List.map_map, Function.comp_def]
    exact ((hrel (fun v => Real.exp (-v) - 1 / 2) (by fun_prop)).const_mul _).div_const _
  | ks t => exact outcomeMeas_edf (h.sort.map (measurable_exponCdf 1)) (.ks t)
  | ahsanullah =>
    show OutcomeMeas fun a => Exponent.ahsanullah (f a)
    simp only [Exponent.ahsanullah, hm]
    split_ifs
    · exact outcomeMeas_error
    · refine outcomeMeas_ok (Measurable.div_const (Measurable.sub ?_ ?_) _)
      · simp only [ahsH, hm, Nat.cast_sum]
        refine Finset.measurable_sum _ fun k _ => Finset.measurable_sum _ fun i _ => Finset.measurable_sum _ fun j _ => ?_
        exact measurable_count (continuous_abs.measurable.comp ((h.at i).sub (h.at j))) (h.at k)
      · simp only [ahsG, hm, Nat.cast_sum]
        refine Finset.measurable_sum _ fun k _ => Finset.measurable_sum _ fun i _ => Finset.measurable_sum _ fun j _ => ?_
        exact measurable_count (((h.at i).min (h.at j)).const_mul 2) (h.at k)
  | atkinson p =>
    refine outcomeMeas_ok ?_
    have h1 := measurable_mean (h.map (φ := fun x => x ^ p) (by fun_prop))
    simp only [Exponent.atkinson, hm]
    exact (continuous_abs.measurable.comp (((h1.pow_const (1 / p)).div hmean).sub_const _)).const_mul _
  | coxOakes =>
    refine outcomeMeas_ok ?_
    simp only [Exponent.coxOakes, hm, List.map_map, Function.comp_def]
    exact (hrel (fun v => Real.log v * (1 - v)) (by fun_prop)).add_const _
  | cvm lam => exact outcomeMeas_edf (h.sort.map (measurable_exponCdf lam)) .cvm
  | deshpande b =>
    show OutcomeMeas fun a => Exponent.deshpande b (f a)
    simp only [Exponent.deshpande, hm]
    split_ifs
    · exact outcomeMeas_error
    · refine outcomeMeas_ok (Measurable.div_const ?_ _)
      simp only [desCount, hm, Nat.cast_sum]
      refine Finset.measurable_sum _ fun i _ => Finset.measurable_sum _ fun j _ => ?_
      exact measurable_count_and ((h.at _).const_mul _) (h.at _)
  | epstein =>
    show OutcomeMeas fun a => Exponent.epstein (f a)
    have hd := (h.sort.cons 0).normSpacings
    have h2 := (hd.map (φ := Real.log) Real.measurable_log).sum
    have h1 := hd.sum
    simp only [Exponent.epstein, hm]
    split_ifs
    · exact outcomeMeas_error
    · exact outcomeMeas_ok ((((h1.div_const _).log.sub (h2.div_const _)).const_mul _).div_const _)
  | frozini =>
    refine outcomeMeas_ok ?_
    simp only [Exponent.frozini, hm]
    refine Measurable.const_mul (ListMeas.sum (h.sort.mapIdxP fun i g hg => ?_)) _
    fun_prop
  | gini =>
    refine outcomeMeas_ok ?_
    simp only [Exponent.gini, hm]
    exact Measurable.div (ListMeas.sum (h.sort.npDiff.mapIdxP fun i g hg => hg.mul_const _)) (h.sort.sum.const_mul _)
  | gnedenko r =>
    show OutcomeMeas fun a => Exponent.gnedenko r (f a)
    simp only [Exponent.gnedenko, hm]
    split_ifs
    · exact outcomeMeas_error
    · exact outcomeMeas_ok (((hsp.take _).sum.div_const _).div ((hsp.drop _).sum.div_const _))
  | harris r =>
    refine outcomeMeas_ok ?_
    simp only [Exponent.harris, hm, lastSlice, midSlice, hspl]
    split_ifs
    · exact (((hsp.take _).sum.add hsp.sum).div_const _).div (by simp)
    · exact (((hsp.take _).sum.add (hsp.drop _).sum).div_const _).div (((hsp.take _).drop _).sum.div_const _)
  | hegazyGreen1 =>
    show OutcomeMeas fun a => Exponent.hegazyGreen1 (f a)
    simp only [Exponent.hegazyGreen1, hm]
    split_ifs
    · exact outcomeMeas_error
    · exact outcomeMeas_ok ((h.sort.mapIdxP fun i g hg => continuous_abs.measurable.comp
        (f := fun a => g a - hgScore m i) (hg.sub_const _)).sum.const_mul _)
  | hollanderProschan =>
    show OutcomeMeas fun a => Exponent.hollanderProschan (f a)
    simp only [Exponent.hollanderProschan, hm]
    split_ifs
    · exact outcomeMeas_error
    · refine outcomeMeas_ok (Measurable.const_mul ?_ _)
      simp only [hpCount, hm, Nat.cast_sum]
      refine Finset.measurable_sum _ fun i _ => Finset.measurable_sum _ fun j _ => Finset.measurable_sum _ fun k _ => ?_
      simp only [← and_assoc]
      exact measurable_count_and ((h.at _).add (h.at _)) (h.at _)
  | kimberMichael =>
    show OutcomeMeas fun a => Exponent.kimberMichael (f a)
    have ha := Real.measurable_arcsin
    simp only [Exponent.kimberMichael, hm]
    refine outcomeMeas_npMax (h.sort.mapIdxP fun i g hg => ?_)
    fun_prop
  | kochar =>
    refine outcomeMeas_ok ?_
    simp only [Exponent.kochar, hm]
    exact Measurable.div (Measurable.const_mul (ListMeas.sum (h.sort.mapIdxP fun i g hg => hg.const_mul _)) _)
      h.sort.sum
  | lorenz p =>
    show OutcomeMeas fun a => Exponent.lorenz p (f a)
    simp only [Exponent.lorenz, hm, ← List.length_eq_zero_iff]
    split_ifs
    · exact outcomeMeas_error
    · exact outcomeMeas_ok ((h.sort.take _).sum.div h.sort.sum)
  | moran =>
    refine outcomeMeas_ok ?_
    have h1 : Measurable fun a => mean ((f a).map fun x => Real.log (x / mean (f a))) :=
      measurable_mean (h.mapP fun g hg => (hg.div hmean).log)
    exact h1.const_add _
  | pietra =>
    refine outcomeMeas_ok ?_
    simp only [Exponent.pietra, hm]
    exact Measurable.div (h.mapP fun g hg => continuous_abs.measurable.comp
      (f := fun a => g a - mean (f a)) (hg.sub hmean)).sum (hmean.const_mul _)
  | shapiroWilk =>
    show OutcomeMeas fun a => Exponent.shapiroWilk (f a)
    have h0 := h.sort.at 0
    have h1 := h.sort.sumsq
    rcases Nat.eq_zero_or_pos m with h0' | hpos
    · have : ∀ a, Exponent.shapiroWilk (f a) = .error .indexError := fun a => by
        rw [List.length_eq_zero_iff.1 ((hm a).trans h0')]; simp [Exponent.shapiroWilk, Graph.sort]
      simp only [this]
      exact outcomeMeas_error
    · have : ∀ a, Exponent.shapiroWilk (f a) = .ok ((m : ℝ) * (mean (sort (f a)) - at_ (sort (f a)) 0) ^ 2 /
          (((m : ℝ) - 1) * ((sort (f a)).map fun x => (x - mean (sort (f a))) ^ 2).sum)) := fun a => by
        have hl : (sort (f a)).length = m := by rw [(sort_perm _).length_eq, hm]
        simp only [Exponent.shapiroWilk, hm]
        cases hs : sort (f a) with
        | nil => rw [hs] at hl; simp at hl; omega
        | cons x l => simp [at_]
      simp only [this]
      exact outcomeMeas_ok ((((hsm.sub h0).pow_const 2).const_mul _).div (h1.const_mul _))
  | rossberg =>
    show OutcomeMeas fun a => Exponent.rossberg (f a)
    simp only [Exponent.rossberg, hm]
    split_ifs
    · exact outcomeMeas_error
    · exact outcomeMeas_error
    · refine outcomeMeas_ok (Measurable.div_const (Measurable.sub ?_ ?_) _)
      · refine Finset.measurable_sum _ fun l _ => Measurable.const_mul ?_ _
        simp only [rsH, hm, Nat.cast_sum, rsCond]
        refine Finset.measurable_sum _ fun i _ => Finset.measurable_sum _ fun j _ => Finset.measurable_sum _ fun k _ => ?_
        have hi := h.at i
        have hj := h.at j
        have hk := h.at k
        exact measurable_count (by fun_prop) (h.at l)
      · refine Finset.measurable_sum _ fun l _ => Measurable.const_mul ?_ _
        simp only [rsG, hm, Nat.cast_sum]
        refine Finset.measurable_sum _ fun i _ => Finset.measurable_sum _ fun j _ => ?_
        exact measurable_count ((h.at i).min (h.at j)) (h.at l)
  | we =>
    refine outcomeMeas_ok ?_
    have h1 := measurable_variance h
    simp only [Exponent.we, hm]
    exact (h1.const_mul _).div ((hmean.pow_const 2).const_mul _)
  | wongWong =>
    show OutcomeMeas fun a => Exponent.wongWong (f a)
    obtain ⟨mx, hmx, h1 | h1⟩ := measurable_npMax h
    · obtain ⟨mn, hmn, h2 | h2⟩ := measurable_pyMin h
      · simp only [Exponent.wongWong, h1, h2, bind, Except.bind, pure, Except.pure]
        exact outcomeMeas_ok (hmx.div hmn)
      · simp only [Exponent.wongWong, h1, h2, bind, Except.bind]
        exact outcomeMeas_error
    · simp only [Exponent.wongWong, h1, bind, Except.bind]
      exact outcomeMeas_error
  | hegazyGreen2 =>
    show OutcomeMeas fun a => Exponent.hegazyGreen2 (f a)
    simp only [Exponent.hegazyGreen2, hm]
    split_ifs
    · exact outcomeMeas_error
    · exact outcomeMeas_ok ((h.sort.mapIdxP fun i g hg => (hg.sub_const (hgScore m i)).pow_const 2).sum.const_mul _)

end Pysatl.Props
