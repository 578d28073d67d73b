import Verif.Props.LogNormal
import Mathlib.Analysis.Calculus.LHopital
import Mathlib.Analysis.SpecialFunctions.Log.Deriv
import Mathlib.Analysis.SpecialFunctions.ExpDeriv
import Mathlib.Analysis.SpecialFunctions.Sqrt

/-! # Log-normality statistics based on Kullback-Leibler divergences -/

namespace Pysatl.Props

open Pysatl.Decision Pysatl.Graph Pysatl.Edf Pysatl.Exponent Pysatl.Normal Pysatl.LogNormal
open Pysatl.Spec
open Topology
open Filter (Tendsto)

/-! ### C65 -/

theorem klY_pow {c b : ℝ} (hc : 0 < c) (hb : 0 < b) {xs : List ℝ} (hx : ∀ x ∈ xs, 0 < x) :
    ∃ k : ℝ, 0 < k ∧ klY (xs.map fun x => c * x ^ b) = (klY xs).map fun y => k * y := by
  by_cases h : xs = []
  · subst h; exact ⟨1, one_pos, rfl⟩
  have hlog : (xs.map fun x => c * x ^ b).map Real.log =
      (xs.map Real.log).map (aff (Real.log c) b) := by
    rw [List.map_map, List.map_map]
    refine List.map_congr_left fun x hm => ?_
    simp only [Function.comp, aff]
    rw [Real.log_mul hc.ne' (Real.rpow_pos_of_pos (hx x hm) b).ne', Real.log_rpow (hx x hm)]
  have hmom : moment 2 ((xs.map fun x => c * x ^ b).map Real.log) =
      b ^ 2 * moment 2 (xs.map Real.log) := by
    rw [hlog, moment_aff _ _ _ (by simpa using h)]
  have hsd : √(moment 2 ((xs.map fun x => c * x ^ b).map Real.log)) =
      b * √(moment 2 (xs.map Real.log)) := by
    rw [hmom, sqrt_sq_mul hb]
  unfold klY
  simp only
  rw [hsd]
  set σ := √(moment 2 (xs.map Real.log))
  refine ⟨c ^ (1 / (b * σ)), Real.rpow_pos_of_pos hc _, ?_⟩
  rw [List.map_map, List.map_map]
  refine List.map_congr_left fun x hm => ?_
  simp only [Function.comp]
  have hxp := Real.rpow_pos_of_pos (hx x hm) b
  rw [Real.mul_rpow hc.le hxp.le, ← Real.rpow_mul (hx x hm).le]
  congr 2
  rw [← div_div, ← mul_div_assoc, mul_one_div_cancel hb.ne']

theorem klY_pos {xs : List ℝ} (hx : ∀ x ∈ xs, 0 < x) : ∀ y ∈ klY xs, 0 < y := by
  intro y hy
  obtain ⟨x, hm, rfl⟩ := List.mem_map.1 hy
  exact Real.rpow_pos_of_pos (hx x hm) _

theorem map_log_mul {k : ℝ} (hk : 0 < k) {Y : List ℝ} (hY : ∀ y ∈ Y, 0 < y) :
    (Y.map fun y => k * y).map Real.log = (Y.map Real.log).map (aff (Real.log k) 1) := by
  rw [List.map_map, List.map_map]
  refine List.map_congr_left fun y hm => ?_
  simp only [Function.comp, aff]
  rw [Real.log_mul hk.ne' (hY y hm).ne', one_mul]

/-- `C` is minus the third central moment of the logarithms. -/
theorem klC_eq {Y : List ℝ} (hne : Y ≠ []) : klC Y = -moment 3 (Y.map Real.log) := by
  have key : ∀ (m : ℝ) (l : List ℝ), (l.map fun x => (x - m) ^ 3).sum =
      (l.map (· ^ 3)).sum - 3 * m * (l.map (· ^ 2)).sum + 3 * m ^ 2 * l.sum - l.length * m ^ 3 := by
    intro m l
    induction l with
    | nil => simp
    | cons x l ih => simp only [List.map_cons, List.sum_cons, ih, List.length_cons]; push_cast; ring
  have hn : ((Y.map Real.log).length : ℝ) ≠ 0 := by simpa using hne
  unfold klC moment
  simp only
  generalize Y.map Real.log = L at hn ⊢
  unfold mean
  rw [List.length_map, List.length_map, List.length_map, key]
  generalize L.sum = A
  generalize (L.map (· ^ 2)).sum = B
  generalize (L.map (· ^ 3)).sum = C
  field_simp
  ring

theorem klC_mul {k : ℝ} (hk : 0 < k) {Y : List ℝ} (hY : ∀ y ∈ Y, 0 < y) :
    klC (Y.map fun y => k * y) = klC Y := by
  by_cases hne : Y = []
  · subst hne; rfl
  rw [klC_eq hne, klC_eq (by simpa using hne), map_log_mul hk hY,
    moment_aff _ _ _ (by simpa using hne)]
  ring

theorem mean_map_const_mul (k : ℝ) (f : ℝ → ℝ) (Y : List ℝ) :
    mean (Y.map fun y => k * f y) = k * mean (Y.map f) := by
  unfold mean
  rw [sum_map_mul, List.length_map, List.length_map, mul_div_assoc]

theorem mean_map_add (f g : ℝ → ℝ) (Y : List ℝ) :
    mean (Y.map fun y => f y + g y) = mean (Y.map f) + mean (Y.map g) := by
  unfold mean
  rw [List.length_map, List.length_map, List.length_map, ← add_div]
  congr 1
  induction Y with
  | nil => simp
  | cons y Y ih => simp only [List.map_cons, List.sum_cons, ih]; ring

theorem mean_pos {Y : List ℝ} (hne : Y ≠ []) (hY : ∀ y ∈ Y, 0 < y) : 0 < mean Y := by
  unfold mean
  have h1 : 0 < Y.sum := List.sum_pos _ hY hne
  have h2 : (0 : ℝ) < Y.length := by
    exact_mod_cast List.length_pos_of_ne_nil hne
  positivity

theorem klD_mul {k : ℝ} (hk : 0 < k) {Y : List ℝ} (hY : ∀ y ∈ Y, 0 < y) (r : ℝ) :
    klD (Y.map fun y => k * y) r = klD Y r := by
  by_cases hne : Y = []
  · subst hne; rfl
  have hk' : 0 < k ^ r := Real.rpow_pos_of_pos hk r
  have hM : 0 < mean (Y.map fun y => y ^ r) := mean_pos (by simpa using hne) (by
    intro z hz
    obtain ⟨y, hm, rfl⟩ := List.mem_map.1 hz
    exact Real.rpow_pos_of_pos (hY y hm) r)
  have e1 : ((Y.map fun y => k * y).map fun y => y ^ r) = Y.map fun y => k ^ r * y ^ r := by
    rw [List.map_map]
    refine List.map_congr_left fun y hm => ?_
    simp only [Function.comp]
    rw [Real.mul_rpow hk.le (hY y hm).le]
  have e2 : ((Y.map fun y => k * y).map fun y => y ^ r * Real.log y) =
      Y.map fun y => k ^ r * Real.log k * y ^ r + k ^ r * (y ^ r * Real.log y) := by
    rw [List.map_map]
    refine List.map_congr_left fun y hm => ?_
    simp only [Function.comp]
    rw [Real.mul_rpow hk.le (hY y hm).le, Real.log_mul hk.ne' (hY y hm).ne']
    ring
  unfold klD
  rw [klC_mul hk hY]
  split
  · rfl
  simp only
  rw [e1, e2, mean_map_add (fun y => k ^ r * Real.log k * y ^ r), mean_map_const_mul,
    mean_map_const_mul, mean_map_const_mul (k ^ r) (fun y => y ^ r * Real.log y), map_log_mul hk hY,
    mean_aff _ _ (by simpa using hne), Real.log_mul hk'.ne' hM.ne', Real.log_rpow hk]
  unfold aff
  generalize mean (Y.map fun y => y ^ r) = M at hM
  generalize mean (Y.map fun y => y ^ r * Real.log y) = N
  field_simp
  ring

/-- **C65** for the Kullback-Leibler statistics: they are unchanged by replacing every observation
`x` by `c x ^ b`, which turns one log-normal distribution into another, and they are infinite
exactly when an observation is not positive.  (The value of the supremum statistic is finite because
the grid has points where the standard deviation is positive.) -/
theorem C65_kullback (quad : (ℝ → ℝ) → ℝ) {c b : ℝ} (hc : 0 < c) (hb : 0 < b) (xs : List ℝ) :
    ((∀ x ∈ xs, 0 < x) → klSupremum (xs.map fun x => c * x ^ b) = klSupremum xs ∧
      klIntegral quad (xs.map fun x => c * x ^ b) = klIntegral quad xs) ∧
    (klSupremum xs = ⊤ ↔ ∃ x ∈ xs, x ≤ 0) ∧ (klIntegral quad xs = ⊤ ↔ ∃ x ∈ xs, x ≤ 0) := by
  refine ⟨fun hx => ?_, ⟨fun h => ?_, fun h => ?_⟩, ⟨fun h => ?_, fun h => ?_⟩⟩
  · have hpos : ∀ x ∈ xs.map fun x => c * x ^ b, 0 < x := by
      intro y hy
      obtain ⟨x, hm, rfl⟩ := List.mem_map.1 hy
      exact mul_pos hc (Real.rpow_pos_of_pos (hx x hm) b)
    obtain ⟨k, hk, hY⟩ := klY_pow hc hb hx
    have hD : klD (klY (xs.map fun x => c * x ^ b)) = klD (klY xs) := by
      funext r; rw [hY, klD_mul hk (klY_pos hx)]
    have hC : klC (klY (xs.map fun x => c * x ^ b)) = klC (klY xs) := by
      rw [hY, klC_mul hk (klY_pos hx)]
    have hI : klIntegrand (klY (xs.map fun x => c * x ^ b)) = klIntegrand (klY xs) := by
      funext r; unfold klIntegrand; rw [hD, hC]
    constructor
    · unfold klSupremum
      simp only
      rw [any_nonpos_false hpos, any_nonpos_false hx, hD, List.length_map]
    · unfold klIntegral
      rw [any_nonpos_false hpos, any_nonpos_false hx, hI, List.length_map]
  · by_contra hne
    push Not at hne
    unfold klSupremum at h
    simp only [any_nonpos_false hne, Bool.false_eq_true, if_false] at h
    split at h
    · rename_i hmax
      rw [List.max?_eq_none_iff, List.map_eq_nil_iff, List.filter_eq_nil_iff] at hmax
      have hm : (5 : ℝ) ∈ klGrid := List.mem_map.2 ⟨999, by simp, by norm_num⟩
      refine hmax 5 hm ?_
      have : 1 ≤ klSigma 5 := by
        have he : (1 : ℝ) ≤ Real.exp (5 ^ 2) := Real.one_le_exp (by norm_num)
        have h1 : (1 : ℝ) ≤ Real.exp (5 ^ 2) * (5 ^ 4 - 3 * 5 ^ 2 + 4) - (4 + 5 ^ 2) := by nlinarith
        unfold klSigma
        rw [if_neg (by norm_num), if_neg (by norm_num at h1 ⊢; linarith)]
        exact Real.one_le_sqrt.2 h1
      rw [decide_eq_true_eq]
      refine lt_of_lt_of_le ?_ this
      norm_num
    · exact absurd h (WithTop.coe_ne_top)
  · unfold klSupremum; rw [if_pos (any_nonpos.2 h)]
  · by_contra hne
    push Not at hne
    unfold klIntegral at h
    simp only [any_nonpos_false hne, Bool.false_eq_true, if_false] at h
    exact absurd h (WithTop.coe_ne_top)
  · unfold klIntegral; rw [if_pos (any_nonpos.2 h)]

example : klSupremum ([1, 2, 5].map fun x => 3 * x ^ (2 : ℝ)) = klSupremum [1, 2, 5] :=
  ((C65_kullback (fun _ => 0) (by norm_num) (by norm_num) _).1 (by simp)).1

/-! ### C83 -/

/-- The derivatives of the empirical moment generating function. -/
noncomputable def empMgf (L : List ℝ) (k : ℕ) (r : ℝ) : ℝ := mean (L.map fun l => l ^ k * Real.exp (r * l))

theorem hasDerivAt_empMgf (L : List ℝ) (k : ℕ) (r : ℝ) :
    HasDerivAt (empMgf L k) (empMgf L (k + 1) r) r := by
  unfold empMgf mean
  simp only [List.length_map]
  refine HasDerivAt.div_const ?_ _
  induction L with
  | nil => simpa using hasDerivAt_const r (0 : ℝ)
  | cons l L ih =>
    simp only [List.map_cons, List.sum_cons]
    refine HasDerivAt.add ?_ ih
    have h1 : HasDerivAt (fun r : ℝ => r * l) l r := by
      simpa using (hasDerivAt_id r).mul_const l
    have := (h1.exp).const_mul (l ^ k)
    refine this.congr_deriv ?_
    ring

theorem empMgf_pos {L : List ℝ} (h : L ≠ []) (r : ℝ) : 0 < empMgf L 0 r := by
  unfold empMgf
  refine mean_pos (by simpa using h) ?_
  intro y hy
  obtain ⟨l, -, rfl⟩ := List.mem_map.1 hy
  positivity

theorem klDivergence_eq (L : List ℝ) (r : ℝ) : klDivergence L r =
    2 * Real.log (empMgf L 0 r) - r * mean L - r * empMgf L 1 r / empMgf L 0 r := by
  unfold klDivergence empMgf
  simp only [pow_zero, one_mul, pow_one]
  rfl

/-- The divergence vanishes to third order at `0`. -/
theorem klDivergence_limit {L : List ℝ} (h : L ≠ []) :
    Tendsto (fun r => klDivergence L r / r ^ 3) (𝓝[≠] 0) (𝓝 (-thirdMoment L / 6)) := by
  have hM : ∀ r, empMgf L 0 r ≠ 0 := fun r => (empMgf_pos h r).ne'
  set M := empMgf L with hMdef
  let V : ℝ → ℝ := fun r => M 2 r / M 0 r - (M 1 r / M 0 r) ^ 2
  let W : ℝ → ℝ := fun r => (M 3 r * M 0 r - M 2 r * M 1 r) / M 0 r ^ 2 - 2 * (M 1 r / M 0 r) * V r
  have hd1 : ∀ r, HasDerivAt (fun r => M 1 r / M 0 r) (V r) r := by
    intro r
    have := (hasDerivAt_empMgf L 1 r).div (hasDerivAt_empMgf L 0 r) (hM r)
    refine this.congr_deriv ?_
    have := hM r
    simp only [V, ← hMdef]
    norm_num
    field_simp
  have hdV : ∀ r, HasDerivAt V (W r) r := by
    intro r
    have h2 := (hasDerivAt_empMgf L 2 r).div (hasDerivAt_empMgf L 0 r) (hM r)
    have := h2.sub ((hd1 r).pow 2)
    refine this.congr_deriv ?_
    simp only [W, ← hMdef]
    norm_num
  let D : ℝ → ℝ := fun r => 2 * Real.log (M 0 r) - r * mean L - r * (M 1 r / M 0 r)
  let D1 : ℝ → ℝ := fun r => M 1 r / M 0 r - mean L - r * V r
  have hD : ∀ r, HasDerivAt D (D1 r) r := by
    intro r
    have h1 := ((hasDerivAt_empMgf L 0 r).log (hM r)).const_mul 2
    have h2 : HasDerivAt (fun r : ℝ => r * mean L) (mean L) r := by
      simpa using (hasDerivAt_id r).mul_const (mean L)
    have h3 := (hasDerivAt_id r).mul (hd1 r)
    have := (h1.sub h2).sub h3
    refine this.congr_deriv ?_
    simp only [D1, ← hMdef, id]
    norm_num
    ring
  have hD1 : ∀ r, HasDerivAt D1 (-(r * W r)) r := by
    intro r
    have h3 := (hasDerivAt_id r).mul (hdV r)
    have := ((hd1 r).sub (hasDerivAt_const r (mean L))).sub h3
    refine this.congr_deriv ?_
    simp only [id]
    ring
  have hn : (L.length : ℝ) ≠ 0 := by simpa using h
  have hM0 : M 0 0 = 1 := by
    simp only [hMdef, empMgf, mean]
    simp [hn]
  have hMk : ∀ k, M k 0 = mean (L.map (· ^ k)) := by
    intro k
    simp only [hMdef, empMgf, zero_mul, Real.exp_zero, mul_one]
  have hM1 : M 1 0 = mean L := by
    rw [hMk]; simp
  have hWc : ContinuousAt W 0 := by
    have hc : ∀ k, ContinuousAt (M k) 0 := fun k => (hasDerivAt_empMgf L k 0).continuousAt
    have hV : ContinuousAt V 0 := (hdV 0).continuousAt
    have hq := (hd1 0).continuousAt
    refine ContinuousAt.sub ?_ ((continuousAt_const.mul hq).mul hV)
    exact (((hc 3).mul (hc 0)).sub ((hc 2).mul (hc 1))).div ((hc 0).pow 2) (pow_ne_zero 2 (hM 0))
  have hW0 : W 0 = thirdMoment L := by
    have hV0 : V 0 = M 2 0 - M 1 0 ^ 2 := by simp only [V, hM0, div_one]
    have : W 0 = M 3 0 - M 2 0 * M 1 0 - 2 * M 1 0 * (M 2 0 - M 1 0 ^ 2) := by
      simp only [W, hV0, hM0]; norm_num
    rw [this, hMk 2, hMk 3, hM1]
    have key : ∀ (m : ℝ) (l : List ℝ), (l.map fun x => (x - m) ^ 3).sum =
        (l.map (· ^ 3)).sum - 3 * m * (l.map (· ^ 2)).sum + 3 * m ^ 2 * l.sum - l.length * m ^ 3 := by
      intro m l
      induction l with
      | nil => simp
      | cons x l ih =>
        simp only [List.map_cons, List.sum_cons, ih, List.length_cons]; push_cast; ring
    unfold thirdMoment average mean
    rw [List.length_map, List.length_map, List.length_map, key]
    generalize (L.map (· ^ 2)).sum = B
    generalize (L.map (· ^ 3)).sum = C
    generalize L.sum = A
    field_simp
    ring
  have hfun : (fun r => klDivergence L r / r ^ 3) = fun r => D r / r ^ 3 := by
    funext r
    rw [klDivergence_eq]
    simp only [D, ← hMdef, mul_div_assoc]
  rw [hfun]
  have hne : ∀ᶠ r : ℝ in 𝓝[≠] 0, r ≠ 0 := self_mem_nhdsWithin
  have hz : ∀ {f : ℝ → ℝ}, ContinuousAt f 0 → f 0 = 0 → Tendsto f (𝓝[≠] 0) (𝓝 0) := by
    intro f hf h0
    have := hf.tendsto
    rw [h0] at this
    exact this.mono_left nhdsWithin_le_nhds
  refine HasDerivAt.lhopital_zero_nhdsNE (f' := D1) (g' := fun r => 3 * r ^ 2)
    (.of_forall hD) (.of_forall fun r => by simpa using hasDerivAt_pow 3 r) ?_
    (hz (hD 0).continuousAt ?_) (hz (by fun_prop) (by norm_num)) ?_
  · filter_upwards [hne] with r hr
    positivity
  · simp only [D, hM0]; simp
  refine HasDerivAt.lhopital_zero_nhdsNE (f' := fun r => -(r * W r)) (g' := fun r => 6 * r)
    (.of_forall hD1) (.of_forall fun r => ?_) ?_
    (hz (hD1 0).continuousAt ?_) (hz (by fun_prop) (by norm_num)) ?_
  · have := (hasDerivAt_pow 2 r).const_mul 3
    refine this.congr_deriv ?_
    norm_num
    ring
  · filter_upwards [hne] with r hr
    positivity
  · simp only [D1, hM0, hM1]; simp
  have hlim : Tendsto (fun r => -W r / 6) (𝓝[≠] 0) (𝓝 (-thirdMoment L / 6)) := by
    rw [← hW0]
    exact ((hWc.neg.div_const 6).tendsto).mono_left nhdsWithin_le_nhds
  refine hlim.congr' ?_
  filter_upwards [hne] with r hr
  field_simp

/-- The variance vanishes to sixth order at `0`. -/
theorem klVariance_limit :
    Tendsto (fun r => klVariance r / r ^ 6) (𝓝[≠] 0) (𝓝 (1 / 6)) := by
  let e : ℝ → ℝ := fun u => Real.exp u * (u ^ 2 - 3 * u + 4) - (4 + u)
  let e1 : ℝ → ℝ := fun u => Real.exp u * (u ^ 2 - u + 1) - 1
  let e2 : ℝ → ℝ := fun u => Real.exp u * (u ^ 2 + u)
  have he : ∀ u, HasDerivAt e (e1 u) u := by
    intro u
    have h1 : HasDerivAt (fun u : ℝ => u ^ 2 - 3 * u + 4) (2 * u - 3) u := by
      have := ((hasDerivAt_pow 2 u).sub ((hasDerivAt_id u).const_mul 3)).add_const 4
      refine this.congr_deriv ?_; norm_num
    have h2 : HasDerivAt (fun u : ℝ => 4 + u) 1 u := by
      simpa using (hasDerivAt_id u).const_add 4
    have := ((Real.hasDerivAt_exp u).mul h1).sub h2
    refine this.congr_deriv ?_
    simp only [e1]; ring
  have he1 : ∀ u, HasDerivAt e1 (e2 u) u := by
    intro u
    have h1 : HasDerivAt (fun u : ℝ => u ^ 2 - u + 1) (2 * u - 1) u := by
      have := ((hasDerivAt_pow 2 u).sub (hasDerivAt_id u)).add_const 1
      refine this.congr_deriv ?_; norm_num
    have := ((Real.hasDerivAt_exp u).mul h1).sub_const 1
    refine this.congr_deriv ?_
    simp only [e2]; ring
  have hne : ∀ᶠ r : ℝ in 𝓝[≠] 0, r ≠ 0 := self_mem_nhdsWithin
  have hz : ∀ {f : ℝ → ℝ}, ContinuousAt f 0 → f 0 = 0 → Tendsto f (𝓝[≠] 0) (𝓝 0) := by
    intro f hf h0
    have := hf.tendsto
    rw [h0] at this
    exact this.mono_left nhdsWithin_le_nhds
  have hlim : Tendsto (fun u => e u / u ^ 3) (𝓝[≠] 0) (𝓝 (1 / 6)) := by
    refine HasDerivAt.lhopital_zero_nhdsNE (f' := e1) (g' := fun r => 3 * r ^ 2)
      (.of_forall he) (.of_forall fun r => by simpa using hasDerivAt_pow 3 r) ?_
      (hz (he 0).continuousAt (by simp [e])) (hz (by fun_prop) (by norm_num)) ?_
    · filter_upwards [hne] with r hr
      positivity
    refine HasDerivAt.lhopital_zero_nhdsNE (f' := e2) (g' := fun r => 6 * r)
      (.of_forall he1) (.of_forall fun r => ?_) ?_
      (hz (he1 0).continuousAt (by simp [e1])) (hz (by fun_prop) (by norm_num)) ?_
    · have := (hasDerivAt_pow 2 r).const_mul 3
      refine this.congr_deriv ?_
      norm_num
      ring
    · filter_upwards [hne] with r hr
      positivity
    have : Tendsto (fun u : ℝ => Real.exp u * (u + 1) / 6) (𝓝[≠] 0) (𝓝 (1 / 6)) := by
      have hc : ContinuousAt (fun u : ℝ => Real.exp u * (u + 1) / 6) 0 := by fun_prop
      have := hc.tendsto
      simp only [Real.exp_zero, zero_add, one_mul] at this
      exact this.mono_left nhdsWithin_le_nhds
    refine this.congr' ?_
    filter_upwards [hne] with r hr
    simp only [e2]
    field_simp
  have hsq : Tendsto (fun r : ℝ => r ^ 2) (𝓝[≠] 0) (𝓝[≠] 0) := by
    refine tendsto_nhdsWithin_iff.2 ⟨hz (by fun_prop) (by norm_num), ?_⟩
    filter_upwards [hne] with r hr
    exact pow_ne_zero 2 hr
  refine (hlim.comp hsq).congr fun r => ?_
  simp only [Function.comp, e, klVariance]
  ring

/-- Away from zero the code computes the divergence and its standard deviation. -/
theorem klD_general {Y : List ℝ} (hY : ∀ y ∈ Y, 0 < y) {r : ℝ} (hr : 1 / 10 ^ 8 ≤ |r|) :
    klD Y r = klDivergence (Y.map Real.log) r := by
  unfold klD klDivergence
  rw [if_neg (not_lt.2 hr)]
  simp only [List.map_map]
  have e1 : (Y.map fun y => y ^ r) = Y.map ((fun l => Real.exp (r * l)) ∘ Real.log) := by
    refine List.map_congr_left fun y hm => ?_
    simp only [Function.comp]
    rw [Real.rpow_def_of_pos (hY y hm), mul_comm]
  have e2 : (Y.map fun y => y ^ r * Real.log y) =
      Y.map ((fun l => l * Real.exp (r * l)) ∘ Real.log) := by
    refine List.map_congr_left fun y hm => ?_
    simp only [Function.comp]
    rw [Real.rpow_def_of_pos (hY y hm), mul_comm, mul_comm r]
  rw [e1, e2]
  rfl

/-- **C83**, what holds: with `L` the logarithms of the transformed sample, the divergence divided by
`r ^ 3` tends to minus a sixth of the third central moment, and the variance divided by `r ^ 6` to
`1 / 6`.  The code's replacement for the standard deviation at `|r| < 1e-8` is exactly that limit
times `|r| ^ 3`.  Missing from the full property: the replacements for the divergence and the
integrand, which are wrong (`C83_refuted`). -/
theorem C83_standard_deviation_partial {L : List ℝ} (h : L ≠ []) :
    Tendsto (fun r => klDivergence L r / r ^ 3) (𝓝[≠] 0) (𝓝 (-thirdMoment L / 6)) ∧
    Tendsto (fun r => klVariance r / r ^ 6) (𝓝[≠] 0) (𝓝 (1 / 6)) ∧
    ∀ r : ℝ, |r| < 1 / 10 ^ 8 → klSigma r ^ 2 = 1 / 6 * r ^ 6 := by
  refine ⟨klDivergence_limit h, klVariance_limit, fun r hr => ?_⟩
  unfold klSigma
  rw [if_pos hr, div_pow, Real.sq_sqrt (by norm_num)]
  rw [← pow_mul, show 3 * 2 = 2 * 3 from rfl, pow_mul, sq_abs]
  ring

example : ([0, 0, 3] : List ℝ) ≠ [] := by simp

/-- **C83** is false of the code.  For every transformed sample `Y` of positive numbers whose
logarithms have third central moment `m ≠ 0`, the squared standardised divergence tends to
`m ^ 2 / 6` as `r` tends to zero; but for `0 < |r| < 1e-8` the supremum statistic uses a
standardised divergence with the square `m ^ 2`, and the integral statistic the integrand
`m ^ 2 / 36`. -/
theorem C83_refuted {Y : List ℝ} (hne : Y ≠ [])
    (hm : thirdMoment (Y.map Real.log) ≠ 0) :
    Tendsto (fun r => klDivergence (Y.map Real.log) r ^ 2 / klVariance r) (𝓝[≠] 0)
      (𝓝 (thirdMoment (Y.map Real.log) ^ 2 / 6)) ∧
    (∀ r : ℝ, r ≠ 0 → |r| < 1 / 10 ^ 8 →
      (klD Y r / klSigma r) ^ 2 = thirdMoment (Y.map Real.log) ^ 2 ∧
      klIntegrand Y r = thirdMoment (Y.map Real.log) ^ 2 / 36) ∧
    thirdMoment (Y.map Real.log) ^ 2 ≠ thirdMoment (Y.map Real.log) ^ 2 / 6 ∧
    thirdMoment (Y.map Real.log) ^ 2 / 36 ≠ thirdMoment (Y.map Real.log) ^ 2 / 6 := by
  have hC : klC Y = -thirdMoment (Y.map Real.log) := klC_eq hne
  have hsq : 0 < thirdMoment (Y.map Real.log) ^ 2 := by positivity
  refine ⟨?_, fun r hr0 hr => ⟨?_, ?_⟩, by linarith, by linarith⟩
  · have h1 := (klDivergence_limit (L := Y.map Real.log) (by simpa using hne)).pow 2
    have h2 := h1.div klVariance_limit (by norm_num)
    have : (-thirdMoment (Y.map Real.log) / 6) ^ 2 / (1 / 6) =
        thirdMoment (Y.map Real.log) ^ 2 / 6 := by ring
    rw [this] at h2
    refine h2.congr' ?_
    filter_upwards [self_mem_nhdsWithin] with r hr
    have hr : r ≠ 0 := hr
    simp only [Pi.div_apply]
    rw [div_pow, ← pow_mul, div_div_div_cancel_right₀ (by positivity)]
  · have h6 : √6 ^ 2 = (6 : ℝ) := Real.sq_sqrt (by norm_num)
    have hs := (C83_standard_deviation_partial (L := Y.map Real.log) (by simpa using hne)).2.2 r hr
    rw [div_pow, hs]
    unfold klD
    rw [if_pos hr, hC, mul_pow, mul_pow, div_pow, h6]
    field_simp
  · unfold klIntegrand
    rw [if_pos hr, hC]
    ring

theorem mean_three (a b c : ℝ) : average [a, b, c] = (a + b + c) / 3 := by
  unfold average; norm_num; ring

/-- The sample `1, 1, exp 3` has a skewed logarithm. -/
example : thirdMoment ([1, 1, Real.exp 3].map Real.log) ≠ 0 := by
  simp only [List.map_cons, List.map_nil, Real.log_one, Real.log_exp, thirdMoment, mean_three]
  norm_num

/-! ### C84 -/

/-- The value of a derived statistic as the decision procedures see it; `big` stands for
`float("inf")` and must be at least every simulated value. -/
noncomputable def lnStatistic (lib : NormLib) (cls : NormStat) (s scale big : ℝ) : Statistic ℝ where
  code := ""
  params := some [("s", s), ("scale", scale)]
  distribution := "LOG_NORMAL"
  alternative := wrappedAlternative cls
  execute := fun xs => match wrapped lib cls s scale xs with
    | .ok (some v) => .ok (v.untopD big)
    | .ok none => .error .typeError
    | .error e => .error e

theorem countP_le_big {L : List ℝ} {big : ℝ} (h : ∀ x ∈ L, x < big) :
    L.countP (fun x => decide (x ≤ big)) = L.length := by
  rw [List.countP_eq_length]
  intro x hx
  simpa using (h x hx).le

theorem ecdf_big {L : List ℝ} (hL : L ≠ []) {big : ℝ} (h : ∀ x ∈ L, x < big) :
    ecdfEvaluate L big = .ok 1 := by
  have hn : L.length ≠ 0 := by simpa using hL
  unfold ecdfEvaluate
  rw [if_neg hn, countP_le_big h, div_self (by exact_mod_cast hn)]

/-- **C84**, exactly: a sample with a non-positive observation, which no log-normal distribution
can produce, is rejected by a derived criterion, at every level below 1 and with both decision
methods, if and only if the criterion is not left-tailed.  `L` are the simulated values. -/
theorem C84_impossible_sample_partial {σ : Type} (lib : NormLib) (cls : NormStat) (s scale big : ℝ)
    {xs : List ℝ} (hx : ∃ x ∈ xs, x ≤ 0) {L : List ℝ} (hL : L ≠ []) (hbig : ∀ x ∈ L, x < big)
    {α : ℝ} (h0 : 0 ≤ α) (h1 : α < 1) {r : Resolver σ ℝ}
    (hr : r (lnStatistic lib cls s scale big) xs.length = pure (some L)) (w : σ)
    {m : DecisionMethod σ ℝ} (hm : m = .pValue r ∨ m = .criticalValue r) :
    ∃ res, (gofTest (lnStatistic lib cls s scale big) xs α m).exec w = (.ok res, w) ∧
      (res.rejected = true ↔ alternative cls ≠ .left) := by
  have hexec : (lnStatistic lib cls s scale big).execute xs = .ok big := by
    have := ((C65_wrapped lib cls s scale xs).2.1).2 hx
    simp only [lnStatistic, this, WithTop.untopD_top]
  have halt : (lnStatistic lib cls s scale big).alternative = alternative cls := rfl
  have hcdf := ecdf_big hL hbig
  unfold gofTest
  rw [exec_bind, exec_lift, hexec]
  rcases hm with rfl | rfl
  · simp only [DecisionMethod.decide, pValueDecide, exec_bind, hr, exec_pure, halt]
    rcases ht : alternative cls
    · refine ⟨_, by
        simp only [getConcreteFactory, reduceCtorEq, if_false, if_true, Factory.pValue, rightPValue,
          hcdf, bind, Except.bind, pure, Except.pure, exec_lift]; rfl, ?_⟩
      simp [h0]
    · refine ⟨_, by
        simp only [getConcreteFactory, if_true, Factory.pValue, leftPValue,
          hcdf, exec_lift]; rfl, ?_⟩
      simp [h1]
    · refine ⟨_, by
        simp only [getConcreteFactory, reduceCtorEq, if_false, Factory.pValue, twoSidedPValue,
          hcdf, bind, Except.bind, pure, Except.pure, exec_lift]; rfl, ?_⟩
      simp [h0]
  · obtain ⟨cv, hcv, hrange⟩ := C21_critical_value_in_range (alternative cls) L hL α h0 h1.le
    simp only [DecisionMethod.decide, criticalValueDecide, exec_bind, hr, exec_pure, halt, hcv,
      exec_lift]
    rcases ht : alternative cls
    · rw [ht] at hcv
      rcases cv with c | ⟨l, r⟩
      · obtain ⟨y, hy, hcy⟩ := (hrange c (by simp [CriticalValue.values])).2
        refine ⟨_, by
          simp only [getConcreteFactory, reduceCtorEq, if_false, if_true, Factory.criticalArea]; rfl, ?_⟩
        simp only [CriticalArea.contains]
        have := hcy.trans_lt (hbig y hy)
        simpa using this
      · simp [getConcreteFactory, Factory.criticalValue, bind, Except.bind, pure, Except.pure] at hcv
        split at hcv <;> simp at hcv
    · rw [ht] at hcv
      rcases cv with c | ⟨l, r⟩
      · obtain ⟨y, hy, hcy⟩ := (hrange c (by simp [CriticalValue.values])).2
        refine ⟨_, by
          simp only [getConcreteFactory, if_true, Factory.criticalArea]; rfl, ?_⟩
        simp only [CriticalArea.contains]
        have := hcy.trans (hbig y hy).le
        simpa using this
      · simp [getConcreteFactory, Factory.criticalValue, bind, Except.bind, pure, Except.pure] at hcv
        split at hcv <;> simp at hcv
    · rw [ht] at hcv
      rcases cv with c | ⟨l, r⟩
      · simp [getConcreteFactory, Factory.criticalValue, bind, Except.bind, pure, Except.pure] at hcv
        split at hcv <;> simp at hcv
      · obtain ⟨y, hy, hcy⟩ := (hrange r (by simp [CriticalValue.values])).2
        refine ⟨_, by
          simp only [getConcreteFactory, reduceCtorEq, if_false, Factory.criticalArea]; rfl, ?_⟩
        simp only [CriticalArea.contains]
        have := hcy.trans_lt (hbig y hy)
        simp [this]

/-- **C84** is false of the code: the log-normal Shapiro-Wilk, Shapiro-Francia, Filliben,
Looney-Gulledge and Ryan-Joiner criteria accept every sample with a non-positive observation, at
every level below 1 and with both decision methods, whatever finite values were simulated. -/
theorem C84_refuted {σ : Type} (lib : NormLib) {cls : NormStat}
    (hcls : cls ∈ [.shapiroWilk, .shapiroFrancia, .filli, .looneyGulledge, .ryanJoiner false .other])
    (s scale big : ℝ)
    {xs : List ℝ} (hx : ∃ x ∈ xs, x ≤ 0) {L : List ℝ} (hL : L ≠ []) (hbig : ∀ x ∈ L, x < big)
    {α : ℝ} (h0 : 0 ≤ α) (h1 : α < 1) {r : Resolver σ ℝ}
    (hr : r (lnStatistic lib cls s scale big) xs.length = pure (some L)) (w : σ)
    {m : DecisionMethod σ ℝ} (hm : m = .pValue r ∨ m = .criticalValue r) :
    ∃ res, (gofTest (lnStatistic lib cls s scale big) xs α m).exec w = (.ok res, w) ∧
      res.rejected = false := by
  obtain ⟨res, h, hrej⟩ := C84_impossible_sample_partial lib cls s scale big hx hL hbig h0 h1 hr w hm
  refine ⟨res, h, ?_⟩
  have : alternative cls = .left := by
    simp only [List.mem_cons, List.not_mem_nil, or_false] at hcls
    rcases hcls with rfl | rfl | rfl | rfl | rfl <;> rfl
  rw [Bool.eq_false_iff, ne_eq, hrej, this]
  simp

/-- The log-normal Shapiro-Wilk criterion accepts the sample `-1, -2, -3, -4` at level `0.99`. -/
example : ∃ res, (gofTest (lnStatistic scipyNorm .shapiroWilk 1 1 2) [-1, -2, -3, -4] 0.99
    (.pValue fun _ _ => pure (some [0.9, 0.95, 0.99]))).exec () = (.ok res, ()) ∧
    res.rejected = false :=
  C84_refuted scipyNorm (by simp) 1 1 2 ⟨-1, by simp, by norm_num⟩ (by simp)
    (by intro x hx; simp at hx; rcases hx with rfl | rfl | rfl <;> norm_num) (by norm_num) (by norm_num)
    rfl () (.inl rfl)

/-! ### C85 -/

/-- The supremum statistic is never negative. -/
theorem klSupremum_nonneg (xs : List ℝ) : 0 ≤ klSupremum xs := by
  unfold klSupremum
  split
  · exact le_top
  simp only
  split
  · exact le_top
  · rename_i m hm
    have : 0 ≤ m := by
      have := List.max?_mem hm
      obtain ⟨r, -, rfl⟩ := List.mem_map.1 this
      positivity
    exact_mod_cast mul_nonneg (Real.sqrt_nonneg _) this

theorem log_le_two_sqrt {x : ℝ} (hx : 0 < x) : Real.log x ≤ 2 * √x := by
  have h := Real.log_le_sub_one_of_pos (Real.sqrt_pos.2 hx)
  rw [Real.log_sqrt hx.le] at h
  linarith

theorem C85_aux {n α : ℝ} (hn : 1 ≤ n) (hα : 0 < α) (h2 : α ≤ 0.1) :
    0.48632 - 0.00148063 / α - 0.0000699 * n + 0.217752 / √α - 2.39217 * √(n / α)
    - 0.532872 / (√α * n) + 0.179786 * Real.log (n / α) - 0.13083 * Real.log (α * n) < 0 := by
  have hn0 : 0 < n := by linarith
  have hsα : 0 < √α := Real.sqrt_pos.2 hα
  have a1 : 0 ≤ 0.00148063 / α := by positivity
  have a2 : 0 ≤ 0.0000699 * n := by positivity
  have a3 : 0 ≤ 0.532872 / (√α * n) := by positivity
  have hs : √(n / α) = √n / √α := Real.sqrt_div hn0.le α
  have hsn : 1 ≤ √n := Real.one_le_sqrt.2 hn
  have a4 : 1 / √α ≤ √(n / α) := by
    rw [hs]; gcongr
  have a5 := log_le_two_sqrt (div_pos hn0 hα)
  have a6 : -Real.log (α * n) ≤ 2 * √(n / α) := by
    have h := log_le_two_sqrt (x := 1 / (α * n)) (by positivity)
    rw [one_div, Real.log_inv] at h
    have : √((α * n)⁻¹) ≤ √(n / α) := by
      apply Real.sqrt_le_sqrt
      rw [mul_inv, div_eq_mul_inv, mul_comm]
      gcongr
      exact (inv_le_one_of_one_le₀ hn).trans hn
    linarith
  have a7 : 3 ≤ √(n / α) := by
    apply Real.le_sqrt_of_sq_le
    rw [le_div_iff₀ hα]
    nlinarith
  have a8 : 0.217752 / √α = 0.217752 * (1 / √α) := by ring
  rw [a8]
  nlinarith

/-- **C85** is false of the code: for every sample size and every level in `[0.001, 0.1]` other than
`0.05` and `0.01`, the critical value of the Kullback-Leibler supremum statistic is negative, so
that every sample exceeds it. -/
theorem C85_refuted_supremum {n : ℕ} (hn : 1 ≤ n) {α : ℝ} (h1 : 0.001 ≤ α) (h2 : α ≤ 0.1)
    (h3 : α ≠ 0.05) (h4 : α ≠ 0.01) :
    ∃ c : ℝ, klSupremumCritical n α = .ok c ∧ c < 0 ∧ ∀ xs, (c : WithTop ℝ) < klSupremum xs := by
  have hα : 0 < α := by linarith
  have hn1 : (1 : ℝ) ≤ n := by exact_mod_cast hn
  have hn0 : (0 : ℝ) < n := by linarith
  unfold klSupremumCritical
  rw [if_neg h3, if_neg h4, if_neg (by push Not; exact ⟨h1, h2⟩)]
  refine ⟨_, rfl, ?_, fun xs => ?_⟩
  rotate_left
  · refine lt_of_lt_of_le ?_ (klSupremum_nonneg xs)
    rw [← WithTop.coe_zero, WithTop.coe_lt_coe]
    exact C85_aux hn1 hα h2
  · exact C85_aux hn1 hα h2

example : ∃ c : ℝ, klSupremumCritical 100 0.02 = .ok c ∧ c < 0 ∧
    ∀ xs, (c : WithTop ℝ) < klSupremum xs :=
  C85_refuted_supremum (by norm_num) (by norm_num) (by norm_num) (by norm_num) (by norm_num)

/-- **C85**, what holds of the supremum statistic: at the two tabulated levels the critical values
are in order.  Missing from the full property: every other level (`C85_refuted_supremum`). -/
theorem C85_tabulated_partial {n : ℕ} (hn : 9 ≤ n) :
    ∃ c c' : ℝ, klSupremumCritical n 0.05 = .ok c ∧ klSupremumCritical n 0.01 = .ok c' ∧
      0 < c ∧ c < c' := by
  unfold klSupremumCritical
  rw [if_pos rfl, if_neg (by norm_num), if_pos rfl]
  refine ⟨_, _, rfl, rfl, ?_, ?_⟩
  all_goals
    have hn9 : (9 : ℝ) ≤ n := by exact_mod_cast hn
    have hs : (3 : ℝ) ≤ √n := Real.le_sqrt_of_sq_le (by linarith)
    have hs0 : 0 < √(n : ℝ) := by linarith
    have h1 : 1 / √(n : ℝ) ≤ 1 / 3 := one_div_le_one_div_of_le (by norm_num) hs
    have h2 : 1 / (n : ℝ) ≤ 1 / 9 := one_div_le_one_div_of_le (by norm_num) hn9
    have h3 : 0 < 1 / (n : ℝ) := by positivity
    have h4 : 0 ≤ Real.log n / √n := div_nonneg (Real.log_nonneg (by linarith)) hs0.le
    rw [show (3.90704 : ℝ) / √n = 3.90704 * (1 / √n) by ring,
      show (1.07162 : ℝ) / n = 1.07162 * (1 / n) by ring]
  · nlinarith
  · rw [show (7.48001 : ℝ) / √n = 7.48001 * (1 / √n) by ring,
      show 0.638394 * Real.log n / √n = 0.638394 * (Real.log n / √n) by ring]
    nlinarith

theorem log_ten_bounds : 2.279 < Real.log 10 ∧ Real.log 10 < 2.3156 := by
  have e : Real.log 10 = 3 * Real.log 2 + Real.log (5 / 4) := by
    rw [show (10 : ℝ) = 2 ^ 3 * (5 / 4) by norm_num, Real.log_mul (by norm_num) (by norm_num),
      Real.log_pow]
    norm_num
  have h1 := Real.log_two_gt_d9
  have h2 := Real.log_two_lt_d9
  have h3 : 1 - (5 / 4 : ℝ)⁻¹ ≤ Real.log (5 / 4) := Real.one_sub_inv_le_log_of_pos (by norm_num)
  have h4 : Real.log (5 / 4) < 0.2361 := by
    have hs : √(5 / 4 : ℝ) < 1.11804 := by
      rw [Real.sqrt_lt' (by norm_num)]; norm_num
    have h := Real.log_le_sub_one_of_pos (Real.sqrt_pos.2 (show (0 : ℝ) < 5 / 4 by norm_num))
    rw [Real.log_sqrt (by norm_num)] at h
    have h' : Real.log (5 / 4) ≤ 2 * (√(5 / 4) - 1) := by linarith
    linarith
  norm_num at h3
  constructor <;> linarith

/-- **C85** is false of the integral statistic as well: for ten observations the critical value at
level `0.051` is larger than the one at level `0.05`. -/
theorem C85_refuted_integral :
    ∃ c c' : ℝ, klIntegralCritical 10 0.05 = .ok c ∧ klIntegralCritical 10 0.051 = .ok c' ∧ c < c' := by
  unfold klIntegralCritical
  rw [if_pos rfl, if_neg (by norm_num), if_neg (by norm_num), if_neg (by norm_num)]
  refine ⟨_, _, rfl, rfl, ?_⟩
  obtain ⟨h1, h2⟩ := log_ten_bounds
  have hq : (10 : ℝ) / 0.051 ≤ 200 := by norm_num
  have h3 : Real.log ((10 : ℝ) / 0.051) ≤ 5.3245 := by
    refine (Real.log_le_log (by norm_num) hq).trans ?_
    rw [show (200 : ℝ) = 2 * 10 ^ 2 by norm_num, Real.log_mul (by norm_num) (by norm_num),
      Real.log_pow]
    have := Real.log_two_lt_d9
    push_cast
    linarith
  have h4 : (14 : ℝ) ≤ √((10 : ℝ) / 0.051) := Real.le_sqrt_of_sq_le (by norm_num)
  have h5 : √((10 : ℝ) / 0.051) ≤ 14.01 := Real.sqrt_le_iff.2 ⟨by norm_num, by norm_num⟩
  have h6 : (0.714 : ℝ) ≤ √(0.051 * 10) := Real.le_sqrt_of_sq_le (by norm_num)
  have h7 : √((10 : ℝ) / 0.051) * Real.log ((10 : ℝ) / 0.051) ≤ 14.01 * 5.3245 :=
    mul_le_mul h5 h3 (Real.log_nonneg (by norm_num)) (by norm_num)
  have h8 : 2.279 ^ 2 ≤ Real.log 10 ^ 2 := by gcongr
  push_cast
  norm_num at h3 h4 h5 h6 h7 h8 ⊢
  linarith

end Pysatl.Props
