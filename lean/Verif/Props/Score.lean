import Verif.Props.ExponentMeaning
import Verif.Spec.Score
import Mathlib.NumberTheory.Harmonic.GammaDeriv
import Mathlib.Analysis.SpecialFunctions.Pow.Deriv

/-! # C104: score statistics -/

namespace Pysatl.Props

open Pysatl.Decision Pysatl.Graph Pysatl.Edf Pysatl.Exponent Pysatl.Spec

theorem hasDerivAt_list_sum {F : ℝ → ℝ → ℝ} {F' : ℝ → ℝ} {a : ℝ} : ∀ {xs : List ℝ},
    (∀ x ∈ xs, HasDerivAt (F x) (F' x) a) →
    HasDerivAt (fun k => (xs.map fun x => F x k).sum) (xs.map F').sum a
  | [], _ => by simpa using hasDerivAt_const a (0 : ℝ)
  | x :: xs, h => by
    simp only [List.map_cons, List.sum_cons]
    exact (h x (by simp)).add (hasDerivAt_list_sum fun y hy => h y (by simp [hy]))

theorem weibull_score {lam x : ℝ} (hl : 0 < lam) (hx : 0 < x) :
    HasDerivAt (fun k => Real.log (weibullDensity k lam x))
      (1 + Real.log (lam * x) * (1 - lam * x)) 1 := by
  have hy : 0 < lam * x := mul_pos hl hx
  have h1 : HasDerivAt (fun k : ℝ => Real.log k + Real.log lam + (k - 1) * Real.log (lam * x) - (lam * x) ^ k)
      (1⁻¹ + 1 * Real.log (lam * x) - (lam * x) ^ (1 : ℝ) * Real.log (lam * x)) 1 := by
    refine HasDerivAt.sub (HasDerivAt.add ((Real.hasDerivAt_log one_ne_zero).add_const _) ?_) ?_
    · exact ((hasDerivAt_id (1 : ℝ)).sub_const 1).mul_const _
    · exact Real.hasStrictDerivAt_const_rpow hy 1 |>.hasDerivAt
  have h2 : (fun k => Real.log (weibullDensity k lam x)) =ᶠ[nhds 1]
      fun k : ℝ => Real.log k + Real.log lam + (k - 1) * Real.log (lam * x) - (lam * x) ^ k := by
    filter_upwards [lt_mem_nhds (show (0 : ℝ) < 1 by norm_num)] with k hk
    have := Real.rpow_pos_of_pos hy (k - 1)
    unfold weibullDensity
    rw [Real.log_mul (by positivity) (by positivity), Real.log_mul (by positivity) (by positivity),
      Real.log_mul hk.ne' hl.ne', Real.log_rpow hy, Real.log_exp]
    ring
  refine (h1.congr_of_eventuallyEq h2).congr_deriv ?_
  rw [Real.rpow_one]
  ring

theorem gamma_score {lam x : ℝ} (hl : 0 < lam) (hx : 0 < x) :
    HasDerivAt (fun k => Real.log (gammaDensity k lam x))
      (Real.eulerMascheroniConstant + Real.log (lam * x)) 1 := by
  have hG : HasDerivAt (fun k => Real.log (Real.Gamma k)) (-Real.eulerMascheroniConstant / Real.Gamma 1) 1 :=
    Real.hasDerivAt_Gamma_one.log (by simp)
  have h1 : HasDerivAt (fun k : ℝ => k * Real.log lam + (k - 1) * Real.log x - lam * x - Real.log (Real.Gamma k))
      (1 * Real.log lam + 1 * Real.log x - -Real.eulerMascheroniConstant / Real.Gamma 1) 1 := by
    refine HasDerivAt.sub (HasDerivAt.sub_const _ (HasDerivAt.add ?_ ?_)) hG
    · exact (hasDerivAt_id (1 : ℝ)).mul_const _
    · exact ((hasDerivAt_id (1 : ℝ)).sub_const 1).mul_const _
  have h2 : (fun k => Real.log (gammaDensity k lam x)) =ᶠ[nhds 1]
      fun k : ℝ => k * Real.log lam + (k - 1) * Real.log x - lam * x - Real.log (Real.Gamma k) := by
    filter_upwards [lt_mem_nhds (show (0 : ℝ) < 1 by norm_num)] with k hk
    have := Real.rpow_pos_of_pos hx (k - 1)
    have := Real.rpow_pos_of_pos hl k
    have := Real.Gamma_pos_of_pos hk
    unfold gammaDensity
    rw [Real.log_div (by positivity) (by positivity), Real.log_mul (by positivity) (by positivity),
      Real.log_mul (by positivity) (by positivity), Real.log_rpow hl, Real.log_rpow hx, Real.log_exp]
    ring
  refine (h1.congr_of_eventuallyEq h2).congr_deriv ?_
  rw [Real.Gamma_one, Real.log_mul hl.ne' hx.ne']
  ring

/-- **C104**, Cox and Oakes: the statistic is the score for the shape of the Weibull family at the
exponential distribution, with the rate estimated by maximum likelihood. -/
theorem C104_coxOakes {rvs : List ℝ} (hne : rvs ≠ []) (hpos : ∀ x ∈ rvs, 0 < x) :
    ∃ v, ExpStat.value .coxOakes rvs = .ok v ∧
      HasDerivAt (fun k => logLik (weibullDensity k (rvs.length / rvs.sum)) rvs) v 1 := by
  have hs := sum_pos' hne hpos
  have hl := len_pos hne
  have hlam : 0 < rvs.length / rvs.sum := div_pos hl hs
  refine ⟨_, rfl, ?_⟩
  have h := hasDerivAt_list_sum (F := fun x k => Real.log (weibullDensity k (rvs.length / rvs.sum) x))
    (xs := rvs) fun x hx => weibull_score hlam (hpos x hx)
  refine h.congr_deriv ?_
  unfold coxOakes
  simp only [List.map_map]
  rw [show (rvs.map fun x => 1 + Real.log (rvs.length / rvs.sum * x) * (1 - rvs.length / rvs.sum * x)).sum =
      (rvs.map fun _ => (1 : ℝ)).sum + (rvs.map fun x =>
        Real.log (rvs.length / rvs.sum * x) * (1 - rvs.length / rvs.sum * x)).sum from List.sum_map_add]
  rw [List.map_const', List.sum_replicate, nsmul_eq_mul, mul_one, add_comm]
  congr 3
  funext x
  have : rvs.length / rvs.sum * x = x / mean rvs := by
    unfold mean; field_simp
  simp only [Function.comp, this]

/-- **C104**, Moran: the statistic is the score for the shape of the gamma family at the exponential
distribution, with the rate estimated by maximum likelihood, per observation. -/
theorem C104_moran {rvs : List ℝ} (hne : rvs ≠ []) (hpos : ∀ x ∈ rvs, 0 < x) :
    ∃ v, ExpStat.value .moran rvs = .ok v ∧
      HasDerivAt (fun k => logLik (gammaDensity k (rvs.length / rvs.sum)) rvs) (rvs.length * v) 1 := by
  have hs := sum_pos' hne hpos
  have hl := len_pos hne
  have hlam : 0 < rvs.length / rvs.sum := div_pos hl hs
  refine ⟨_, rfl, ?_⟩
  have h := hasDerivAt_list_sum (F := fun x k => Real.log (gammaDensity k (rvs.length / rvs.sum) x))
    (xs := rvs) fun x hx => gamma_score hlam (hpos x hx)
  refine h.congr_deriv ?_
  unfold moran
  rw [show (rvs.map fun x => Real.eulerMascheroniConstant + Real.log (rvs.length / rvs.sum * x)).sum =
      (rvs.map fun _ => Real.eulerMascheroniConstant).sum + (rvs.map fun x =>
        Real.log (rvs.length / rvs.sum * x)).sum from List.sum_map_add]
  rw [List.map_const', List.sum_replicate, nsmul_eq_mul, mul_add]
  congr 1
  have e : (rvs.map fun x => Real.log (rvs.length / rvs.sum * x)) = rvs.map fun x => Real.log (x / mean rvs) := by
    refine List.map_congr_left fun x _ => ?_
    congr 1
    unfold mean; field_simp
  rw [e]
  conv_rhs => rw [mean, List.length_map]
  field_simp

/-- Non-vacuity. -/
example : ([1, 2, 4] : List ℝ) ≠ [] ∧ ∀ x ∈ ([1, 2, 4] : List ℝ), 0 < x := by
  refine ⟨by simp, ?_⟩
  simp

end Pysatl.Props
