import Verif.Props.CalibrationFamilies
import Verif.Props.CalibrationCritical
import Verif.Props.CalibrationSimple

/-! # C126 for whole families, and what does not hold -/

namespace Pysatl.Props

open Pysatl.Decision Pysatl.Resolver Pysatl.Spec Pysatl.Edf Pysatl.Graph Pysatl.Gen
open Pysatl.Normal Pysatl.Exponent Pysatl.LogNormal Pysatl.Uniform
open MeasureTheory ProbabilityTheory

/-- **C126, normal family**, all location and scale free criteria: the data come from any `N(m, v)`, the critical values
from the generator for `N(m₀, v₀)`. -/
theorem C126_normal {lib : NormLib} (hlib : lib.Symmetric) (hl : NormLibMeasurable lib) {s : NormStat}
    (hs : LocationScaleFree s) (code : String) (params : Option (List (String × ℝ)))
    (classes : List GeneratorClass) (hp : classes.Perm generatorClasses)
    (m m₀ : ℝ) {v v₀ : ℝ} (hv : 0 < v) (hv₀ : 0 < v₀) {n B : ℕ} (hn : 0 < n) (hB : 0 < B)
    (hties : ∀ c : ℝ, iid n (gaussianReal m₀ v₀.toNNReal) {x | s.value lib (List.ofFn x) = .ok (some c)} = 0) {α : ℝ}
    (h0 : 0 ≤ α) (h1 : α ≤ 1) :
    ∃ G M, getAvailableGenerator classes .normal (some [("mean", m₀), ("var", v₀)]) = .ok G ∧
      G.generate n = .ok M ∧
      ((iid n (gaussianReal m v.toNNReal)).prod (Measure.pi fun _ : Fin B => M))
        {ω | CvRejects (s.statistic lib code params) α ω.1 ω.2} ≤
        (criticalBound s.alternative α B : ENNReal) / (B + 1 : ℕ) := by
  obtain ⟨G, hG, hgen⟩ := C111_normal classes hp m₀ v₀ hv₀.le n
  obtain ⟨G', M, hG', hgen', h⟩ := C123_level_normal hlib hl hs code params classes hp m m₀ hv hv₀ hn hB
    (fun _ => hties) (pLevel s.alternative α B)
  obtain rfl : G = G' := Except.ok.inj (hG.symm.trans hG')
  obtain rfl := Except.ok.inj (hgen'.symm.trans hgen)
  refine ⟨G, _, hG, hgen, (critical_le hn hB (outcomeMeas_normal hl s code params (listMeas_ofFn _)) (fun c => ?_)
    h0 h1).trans ?_⟩
  · refine measure_mono_null (fun x hx => ?_) (hties c)
    have hx' : (s.value lib (List.ofFn x) >>= fun o => match o with
      | some v => (Except.ok v : Except PyErr ℝ)
      | none => .error .typeError) = .ok c := hx
    show s.value lib (List.ofFn x) = .ok (some c)
    rcases hval : s.value lib (List.ofFn x) with e | o
    · rw [hval] at hx'; cases hx'
    · rw [hval] at hx'
      cases o with
      | none => cases hx'
      | some w =>
        have : (Except.ok w : Except PyErr ℝ) = .ok c := hx'
        rw [Except.ok.inj this]
  · rw [← rankBound_pLevel _ _ hB]
    exact h

/-- **C126, exponential family**, all scale free criteria. -/
theorem C126_exponential {s : ExpStat} (hs : ScaleFree s) (code : String)
    (params : Option (List (String × ℝ))) (classes : List GeneratorClass) (hp : classes.Perm generatorClasses)
    {r r₀ : ℝ} (hr : 0 < r) (hr₀ : 0 < r₀) {n B : ℕ} (hn : 0 < n) (hB : 0 < B)
    (hties : ∀ c : ℝ, iid n (expMeasure r₀) {x | s.value (List.ofFn x) = .ok c} = 0) {α : ℝ}
    (h0 : 0 ≤ α) (h1 : α ≤ 1) :
    ∃ G M, getAvailableGenerator classes .exponential (some [("lam", r₀)]) = .ok G ∧ G.generate n = .ok M ∧
      ((iid n (expMeasure r)).prod (Measure.pi fun _ : Fin B => M))
        {ω | CvRejects (s.statistic code params) α ω.1 ω.2} ≤
        (criticalBound s.alternative α B : ENNReal) / (B + 1 : ℕ) := by
  have : IsProbabilityMeasure (expMeasure r₀) := isProbabilityMeasure_expMeasure hr₀
  have : IsProbabilityMeasure (expMeasure r) := isProbabilityMeasure_expMeasure hr
  obtain ⟨G, hG, hgen⟩ := C111_exponential classes hp r₀ hr₀ n
  obtain ⟨G', M, hG', hgen', h⟩ := C123_level_exponential hs code params classes hp hr hr₀ hn hB
    (fun _ => hties) (pLevel s.alternative α B)
  obtain rfl : G = G' := Except.ok.inj (hG.symm.trans hG')
  obtain rfl := Except.ok.inj (hgen'.symm.trans hgen)
  refine ⟨G, _, hG, hgen, (critical_le hn hB (outcomeMeas_exponential s (listMeas_ofFn _)) hties h0 h1).trans ?_⟩
  rw [← rankBound_pLevel _ _ hB]
  exact h

/-- **C126, log-normal family**, the criteria derived from the normality criteria. -/
theorem C126_lognormal {lib : NormLib} (hlib : lib.Symmetric) (hl : NormLibMeasurable lib) {cls : NormStat}
    (hc : Wrapped cls) {s scale : ℝ} (hs : 0 < s) (code : String) (params : Option (List (String × ℝ)))
    (classes : List GeneratorClass) (hp : classes.Perm generatorClasses)
    (mu mu₀ : ℝ) {sigma sigma₀ : ℝ} (hσ : 0 < sigma) (hσ₀ : 0 < sigma₀) {n B : ℕ} (hn : 0 < n) (hB : 0 < B)
    (hties : ∀ c : ℝ, iid n (logNormalLaw mu₀ sigma₀)
      {x | wrapped lib cls s scale (List.ofFn x) = .ok (some c)} = 0) {α : ℝ} (h0 : 0 ≤ α) (h1 : α ≤ 1) :
    ∃ G M, getAvailableGenerator classes .logNormal (some [("s", sigma₀), ("mu", mu₀)]) = .ok G ∧
      G.generate n = .ok M ∧
      ((iid n (logNormalLaw mu sigma)).prod (Measure.pi fun _ : Fin B => M))
        {ω | CvRejects (wrappedStatistic lib cls s scale code params) α ω.1 ω.2} ≤
        (criticalBound (wrappedAlternative cls) α B : ENNReal) / (B + 1 : ℕ) := by
  obtain ⟨G, hG, hgen⟩ := C111_logNormal classes hp sigma₀ mu₀ hσ₀ n
  obtain ⟨G', M, hG', hgen', h⟩ := C123_level_lognormal hlib hl hc hs code params classes hp mu mu₀ hσ hσ₀ hn hB
    (fun _ => hties) (pLevel (wrappedAlternative cls) α B)
  obtain rfl : G = G' := Except.ok.inj (hG.symm.trans hG')
  obtain rfl := Except.ok.inj (hgen'.symm.trans hgen)
  refine ⟨G, _, hG, hgen, (critical_le hn hB (st := wrappedStatistic lib cls s scale code params) ?_ (fun c => ?_)
    h0 h1).trans ?_⟩
  · simp only [wrappedStatistic_execute]
    refine outcomeMeas_ite ?_ (outcomeMeas_normal hl cls code params
      (((listMeas_ofFn n).map Real.measurable_log).map (φ := fun l => (l - Real.log scale) / s) (by fun_prop)))
      outcomeMeas_error
    have := (listMeas_ofFn n).all (p := fun t => 0 < t) measurableSet_Ioi
    simpa using this
  · refine measure_mono_null (fun x hx => ?_) (hties c)
    have hx' : (wrapped lib cls s scale (List.ofFn x) >>= fun o => match o with
      | some (some v) => (Except.ok v : Except PyErr ℝ)
      | some none => .error .valueError
      | none => .error .typeError) = .ok c := hx
    show wrapped lib cls s scale (List.ofFn x) = .ok (some c)
    rcases hval : wrapped lib cls s scale (List.ofFn x) with e | o
    · rw [hval] at hx'; cases hx'
    · rw [hval] at hx'
      rcases o with _ | _ | w
      · cases hx'
      · cases hx'
      · have : (Except.ok w : Except PyErr ℝ) = .ok c := hx'
        rw [Except.ok.inj this]
        rfl
  · show _ ≤ (criticalBound (wrappedAlternative cls) α B : ENNReal) / (B + 1 : ℕ)
    rw [← rankBound_pLevel _ _ hB]
    exact h

/-- **C126, without a condition on ties**: D'Agostino's criterion from four observations on. -/
theorem C126_dagostino (code : String) (params : Option (List (String × ℝ)))
    (classes : List GeneratorClass) (hp : classes.Perm generatorClasses)
    (m m₀ : ℝ) {v v₀ : ℝ} (hv : 0 < v) (hv₀ : 0 < v₀) {n B : ℕ} (hn : 4 ≤ n) (hB : 0 < B) {α : ℝ}
    (h0 : 0 ≤ α) (h1 : α ≤ 1) :
    ∃ G M, getAvailableGenerator classes .normal (some [("mean", m₀), ("var", v₀)]) = .ok G ∧
      G.generate n = .ok M ∧
      ((iid n (gaussianReal m v.toNNReal)).prod (Measure.pi fun _ : Fin B => M))
        {ω | CvRejects (NormStat.dagostino.statistic scipyNorm code params) α ω.1 ω.2} ≤
        ((2 * (⌈α / 2 * ((B : ℝ) - 1)⌉₊ + 1) : ℕ) : ENNReal) / (B + 1 : ℕ) := by
  have : NullSingletonClass (gaussianReal m₀ v₀.toNNReal) := by
    have h : v₀.toNNReal ≠ 0 := by simpa using hv₀
    exact nullSingletonClass_gaussianReal h
  exact C126_normal (s := .dagostino) scipyNorm_symmetric scipyNorm_measurable trivial code params classes hp
    m m₀ hv hv₀ (by omega) hB (fun c => no_ties_dagostino scipyNorm (by omega) c) h0 h1

/-- **C126, without a condition on ties**: Gini, Kochar, Wong-Wong and Lorenz from two observations on. -/
theorem C126_gini_kochar {s : ExpStat} {n B : ℕ} (hs : TieFree n s) (code : String)
    (params : Option (List (String × ℝ))) (classes : List GeneratorClass) (hp : classes.Perm generatorClasses)
    {r r₀ : ℝ} (hr : 0 < r) (hr₀ : 0 < r₀) (hn : 2 ≤ n) (hB : 0 < B) {α : ℝ} (h0 : 0 ≤ α) (h1 : α ≤ 1) :
    ∃ G M, getAvailableGenerator classes .exponential (some [("lam", r₀)]) = .ok G ∧ G.generate n = .ok M ∧
      ((iid n (expMeasure r)).prod (Measure.pi fun _ : Fin B => M))
        {ω | CvRejects (s.statistic code params) α ω.1 ω.2} ≤
        (criticalBound s.alternative α B : ENNReal) / (B + 1 : ℕ) := by
  have : IsProbabilityMeasure (expMeasure r₀) := isProbabilityMeasure_expMeasure hr₀
  refine C126_exponential (by cases hs <;> trivial) code params classes hp hr hr₀ (by omega) hB (fun c => ?_) h0 h1
  cases hs with
  | gini => exact no_ties_gini hn c
  | kochar => exact no_ties_kochar hn c
  | wongWong => exact no_ties_wongWong hn c
  | lorenz h1 h2 => exact no_ties_lorenz h1 h2 c

example (hp : generatorClasses.Perm generatorClasses) := C126_gini_kochar (n := 12) (B := 999) .gini "GINI" none
  generatorClasses hp (r := 5) (r₀ := 1) (by norm_num) one_pos (by norm_num) (by norm_num) (α := 1 / 20) (by norm_num)
  (by norm_num)

example (hp : generatorClasses.Perm generatorClasses) := C126_dagostino "DAG" none generatorClasses hp 170 0 (v := 49)
  (v₀ := 1) (by norm_num) one_pos (n := 20) (B := 1000) (by norm_num) (by norm_num) (α := 1 / 20) (by norm_num)
  (by norm_num)

example : ∃ G M, (Gen.Family.uniform 2 5).simulator generatorClasses = .ok G ∧ G.generate 10 = .ok M ∧
    ((iid 10 (uniformLaw 2 5)).prod (Measure.pi fun _ : Fin 999 => M))
      {ω | CvRejects (UniStat.kuiper.statistic 2 5 "KUIPER_UNIFORM") (1 / 20) ω.1 ω.2} ≤
      (criticalBound .right (1 / 20) 999 : ENNReal) / (999 + 1 : ℕ) :=
  C126_level_uniform (s := .kuiper) rfl _ _ (List.Perm.refl _) (by norm_num) (by simp [EdfStat.least]) (by norm_num)
    (by norm_num) (by norm_num)

/-! ### Ties -/

/-- Below the level `1` the quantile of values of which not all are `M` is less than their upper bound `M`. -/
theorem uniqueQuantile_lt {L : List ℝ} {M q : ℝ} (hM : ∀ x ∈ L, x ≤ M) (hlt : ∃ x ∈ L, x < M) (h0 : 0 ≤ q) (h1 : q < 1) :
    uniqueQuantile L q < M := by
  obtain ⟨x, hx, hxM⟩ := hlt
  have hL : L ≠ [] := List.ne_nil_of_mem hx
  set v := ecdfQuantiles L with hv
  have hne : v ≠ [] := quantiles_ne_nil hL
  have hpos : 0 < v.length := List.length_pos_iff.2 hne
  have hs : v.Pairwise (· ≤ ·) := quantiles_sorted L
  have hnd : v.Nodup := (quantiles_perm L).nodup_iff.2 (List.nodup_dedup L)
  have hle : ∀ k, nth v k ≤ M := fun k => hM _ (mem_quantiles.1 (nth_mem hne k))
  rcases Nat.lt_or_ge 1 v.length with h2 | h2
  · set h : ℝ := q * ((v.length - 1 : ℕ) : ℝ) with hh
    have hc : (0 : ℝ) < ((v.length - 1 : ℕ) : ℝ) := by exact_mod_cast (by omega : 0 < v.length - 1)
    have hh0 : 0 ≤ h := by positivity
    have hh1 : h < ((v.length - 1 : ℕ) : ℝ) := by rw [hh]; nlinarith
    have hf : ⌊h⌋₊ < v.length - 1 := (Nat.floor_lt hh0).2 hh1
    have hlt : nth v ⌊h⌋₊ < M := by
      refine lt_of_lt_of_le ?_ (hle (v.length - 1))
      rw [nth_eq (by omega), nth_eq (by omega)]
      refine lt_of_le_of_ne (List.pairwise_iff_getElem.1 hs _ _ _ _ hf) fun e => ?_
      have := (hnd.getElem_inj_iff).1 e
      omega
    show lerp (nth v) h < M
    unfold lerp
    have f0 := frac_nonneg hh0
    have f1 := frac_lt_one h
    have := hle (⌊h⌋₊ + 1)
    generalize h - ⌊h⌋₊ = t at *
    nlinarith
  · have h3 : v.length = 1 := by omega
    show lerp (nth v) (q * ((v.length - 1 : ℕ) : ℝ)) < M
    rw [h3]
    have : q * ((1 - 1 : ℕ) : ℝ) = ((0 : ℕ) : ℝ) := by simp
    rw [this, lerp_natCast, nth_eq (by omega)]
    obtain ⟨k, hk, rfl⟩ := List.getElem_of_mem (mem_quantiles.2 hx : x ∈ v)
    obtain rfl : k = 0 := by
      rw [← hv] at hk
      omega
    exact hxM

theorem ahsanullah_box' {x : Fin 2 → ℝ} (h0 : x 0 ∈ Set.Ioc 0 (Real.log 2)) (h1 : x 1 ∈ Set.Ioi (2 * Real.log 2)) :
    Exponent.ahsanullah (List.ofFn x) = .ok (3 / 8) := by
  have hpos : 0 < Real.log 2 := Real.log_pos (by norm_num)
  rw [Set.mem_Ioc] at h0
  rw [Set.mem_Ioi] at h1
  have e : List.ofFn x = [x 0, x 1] := by simp
  have a1 : ¬ |x 0 - x 1| < x 0 := by rw [abs_sub_comm, abs_of_pos (by linarith)]; linarith
  have a2 : |x 0 - x 1| < x 1 := by rw [abs_lt]; constructor <;> linarith
  have a3 : ¬ |x 1 - x 0| < x 0 := by rw [abs_sub_comm]; exact a1
  have a4 : |x 1 - x 0| < x 1 := by rw [abs_sub_comm]; exact a2
  have p0 : 0 < x 0 := h0.1
  have p1 : 0 < x 1 := by linarith
  have b0 : ¬ 2 * x 0 < x 0 := by linarith
  have b1 : 2 * x 0 < x 1 := by linarith
  have b2 : ¬ 2 * x 1 < x 0 := by linarith
  have b3 : ¬ 2 * x 1 < x 1 := by linarith
  have m1 : min (x 0) (x 1) = x 0 := min_eq_left (by linarith)
  have m2 : min (x 1) (x 0) = x 0 := min_eq_right (by linarith)
  rw [e]
  simp only [Exponent.ahsanullah, ahsH, ahsG, List.length_cons, List.length_nil, Finset.sum_range_succ,
    Finset.sum_range_zero, at_, List.getD_cons_zero, List.getD_cons_succ, sub_self, abs_zero, min_self, m1, m2,
    if_pos p0, if_pos p1, if_neg a1, if_pos a2, if_neg a3, if_pos a4, if_neg b0, if_pos b1, if_neg b2, if_neg b3]
  norm_num

theorem exp_Ioc {a b : ℝ} (ha : 0 ≤ a) (hab : a ≤ b) :
    expMeasure 1 (Set.Ioc a b) = ENNReal.ofReal (Real.exp (-a) - Real.exp (-b)) := by
  have : IsProbabilityMeasure (expMeasure 1) := isProbabilityMeasure_expMeasure one_pos
  have h := (cdf (expMeasure 1)).measure_Ioc a b
  rw [measure_cdf] at h
  rw [h, cdf_expMeasure_eq one_pos, cdf_expMeasure_eq one_pos, if_pos (by linarith), if_pos ha]
  congr 1
  simp

/-- **C126, refuted (ties).** The Ahsanullah test of two exponential observations with critical values from 99
simulations at level `1/20` rejects with probability more than `6/100`, the bound for a statistic without ties:
repeated simulated values are counted once. -/
theorem C126_refuted_ties (code : String) (params : Option (List (String × ℝ))) :
    (criticalBound .right (1 / 20) 99 : ENNReal) / (99 + 1 : ℕ) <
      ((iid 2 (expMeasure 1)).prod (Measure.pi fun _ : Fin 99 => iid 2 (expMeasure 1)))
        {ω | CvRejects (ExpStat.ahsanullah.statistic code params) (1 / 20) ω.1 ω.2} := by
  have : IsProbabilityMeasure (expMeasure 1) := isProbabilityMeasure_expMeasure one_pos
  have hlog : 0 < Real.log 2 := Real.log_pos (by norm_num)
  have e1 : Real.exp (-Real.log 2) = 1 / 2 := by rw [Real.exp_neg, Real.exp_log (by norm_num)]; norm_num
  have e2 : Real.exp (-(2 * Real.log 2)) = 1 / 4 := by
    rw [show -(2 * Real.log 2) = -Real.log 2 + -Real.log 2 by ring, Real.exp_add, e1]; norm_num
  set S : Set ℝ := Set.Ioc (Real.log 2) (2 * Real.log 2) with hS
  set T : Fin 2 → Set ℝ := ![Set.Ioc 0 (Real.log 2), Set.Ioi (2 * Real.log 2)] with hT
  have hSm : expMeasure 1 S = ENNReal.ofReal (1 / 4) := by
    rw [hS, exp_Ioc hlog.le (by linarith), e1, e2]; norm_num
  have hTm : iid 2 (expMeasure 1) (Set.univ.pi T) = ENNReal.ofReal (1 / 8) := by
    have h0 : expMeasure 1 (Set.Ioc 0 (Real.log 2)) = ENNReal.ofReal (1 / 2) := by
      rw [exp_Ioc le_rfl hlog.le, e1]; norm_num
    have h1 : expMeasure 1 (Set.Ioi (2 * Real.log 2)) = ENNReal.ofReal (1 / 4) := by
      rw [← Set.compl_Iic, prob_compl_eq_one_sub measurableSet_Iic, ← ofReal_cdf, cdf_expMeasure_eq one_pos,
        if_pos (by linarith), one_mul, e2, ← ENNReal.ofReal_one, ← ENNReal.ofReal_sub _ (by norm_num)]
      norm_num
    rw [iid, Measure.pi_pi, Fin.prod_univ_two]
    show expMeasure 1 (Set.Ioc 0 (Real.log 2)) * expMeasure 1 (Set.Ioi (2 * Real.log 2)) = _
    rw [h0, h1, ← ENNReal.ofReal_mul (by norm_num)]
    norm_num
  have hTmeas : MeasurableSet (Set.univ.pi T) := by
    refine MeasurableSet.univ_pi fun i => ?_
    fin_cases i
    · exact measurableSet_Ioc
    · exact measurableSet_Ioi
  set Y : Set (Fin 99 → Fin 2 → ℝ) := (Set.univ.pi fun _ : Fin 99 => (Set.univ.pi T)ᶜ)ᶜ with hY
  have hYm : (Measure.pi fun _ : Fin 99 => iid 2 (expMeasure 1)) Y = ENNReal.ofReal (1 - (7 / 8) ^ 99) := by
    rw [hY, prob_compl_eq_one_sub (MeasurableSet.univ_pi fun _ => hTmeas.compl), Measure.pi_pi]
    simp only [prob_compl_eq_one_sub hTmeas, hTm, Finset.prod_const, Finset.card_univ, Fintype.card_fin]
    rw [← ENNReal.ofReal_one, ← ENNReal.ofReal_sub _ (by norm_num), ← ENNReal.ofReal_pow (by norm_num),
      ← ENNReal.ofReal_sub _ (by norm_num)]
    norm_num
  have hsub : (Set.univ.pi fun _ : Fin 2 => S) ×ˢ Y ⊆
      {ω | CvRejects (ExpStat.ahsanullah.statistic code params) (1 / 20) ω.1 ω.2} := by
    rintro ⟨x, y⟩ ⟨hx, hy⟩
    have hx' : ∀ i, x i ∈ S := fun i => hx i (Set.mem_univ i)
    have hval : ∀ z : Fin 2 → ℝ, (ExpStat.ahsanullah.statistic code params).execute (List.ofFn z) =
        Exponent.ahsanullah (List.ofFn z) := fun _ => rfl
    have hok : ∀ z : Fin 2 → ℝ, ∃ d, Exponent.ahsanullah (List.ofFn z) = .ok d := by
      intro z
      unfold Exponent.ahsanullah
      rw [if_neg (by simp)]
      exact ⟨_, rfl⟩
    obtain ⟨j, hj⟩ : ∃ j, y j ∈ Set.univ.pi T := by
      by_contra hc
      push Not at hc
      exact hy fun j _ => hc j
    show CvRejects _ _ x y
    rw [cvRejects_iff (by norm_num)]
    simp only [hval]
    have hbx : Exponent.ahsanullah (List.ofFn x) = .ok 1 := ahsanullah_box hx'
    have hby : Exponent.ahsanullah (List.ofFn (y j)) = .ok (3 / 8) :=
      ahsanullah_box' (hj 0 (Set.mem_univ 0)) (hj 1 (Set.mem_univ 1))
    rw [hbx]
    set L := List.ofFn fun j => outcomeVal (Exponent.ahsanullah (List.ofFn (y j))) with hL
    have hne : L ≠ [] := by
      rw [hL, Ne, List.ofFn_eq_nil_iff]; norm_num
    have hq : uniqueQuantile L (1 - 1 / 20) < 1 := by
      refine uniqueQuantile_lt (fun t ht => ?_) ⟨3 / 8, ?_, by norm_num⟩ (by norm_num) (by norm_num)
      · obtain ⟨i, rfl⟩ := (List.mem_ofFn' _ _).1 ht
        obtain ⟨d, hd⟩ := hok (y i)
        beta_reduce
        rw [hd]
        exact ahsanullah_le _ hd
      · refine (List.mem_ofFn' _ _).2 ⟨j, ?_⟩
        beta_reduce
        rw [hby]
        rfl
    refine ⟨⟨1, rfl⟩, fun j => hok _, .one (uniqueQuantile L (1 - 1 / 20)), .right (uniqueQuantile L (1 - 1 / 20)), ?_, rfl, ?_⟩
    · show (rightCriticalValue L (1 / 20) >>= fun c => Except.ok (CriticalValue.one c)) = _
      rw [rightCriticalValue, npQuantile_unique hne (by norm_num) (by norm_num)]
      rfl
    · show decide ((1 : ℝ) ≤ uniqueQuantile L (1 - 1 / 20)) = false
      rw [decide_eq_false hq.not_ge]
  refine lt_of_lt_of_le ?_ (measure_mono hsub)
  rw [Measure.prod_prod, hYm, iid, Measure.pi_pi]
  simp only [Finset.prod_const, Finset.card_univ, Fintype.card_fin, hSm]
  have hc : ⌈(1 / 20 : ℝ) * (((99 : ℕ) : ℝ) - 1)⌉₊ = 5 := by
    rw [Nat.ceil_eq_iff (by norm_num)]; norm_num
  rw [criticalBound, hc, ← ENNReal.ofReal_pow (by norm_num), ← ENNReal.ofReal_mul (by norm_num)]
  have : (((5 + 1 : ℕ) : ENNReal)) / ((99 + 1 : ℕ) : ENNReal) = ENNReal.ofReal (6 / 100) := by
    rw [ENNReal.ofReal_div_of_pos (by norm_num)]
    norm_num
  rw [this]
  exact (ENNReal.ofReal_lt_ofReal_iff (by norm_num)).2 (by norm_num)

end Pysatl.Props
