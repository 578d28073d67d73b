import Verif.Lemmas.StandardLaws
import Verif.Lemmas.NormalTail
import Verif.Props.NormalPlot
import Verif.Props.LimitLawNormal

/-! # Scores of the normal probability plot: second moments and truncation -/

namespace Pysatl.Props

open Pysatl.Decision Pysatl.Spec Pysatl.Edf Pysatl.Graph Pysatl.Normal Pysatl.Exponent
open MeasureTheory ProbabilityTheory Filter Topology

/-! ### Distances between normal probabilities -/

theorem pdf_le_one (x : ℝ) : gaussianPDFReal 0 1 x ≤ 1 := by
  have h1 : 1 ≤ √(2 * Real.pi) := by
    rw [← Real.sqrt_one]
    exact Real.sqrt_le_sqrt (by linarith [Real.pi_gt_three])
  have h2 : Real.exp (-(x - 0) ^ 2 / (2 * ((1 : NNReal) : ℝ))) ≤ 1 := Real.exp_le_one_iff.2 (by
    have := sq_nonneg x
    simp only [sub_zero, NNReal.coe_one, mul_one]
    linarith)
  have h3 : (√(2 * Real.pi * ((1 : NNReal) : ℝ)))⁻¹ ≤ 1 := by
    rw [NNReal.coe_one, mul_one]
    exact inv_le_one_of_one_le₀ h1
  rw [gaussianPDFReal]
  exact mul_le_one₀ h3 (Real.exp_pos _).le h2

theorem Phi_close (a b : ℝ) : |Phi a - Phi b| ≤ |a - b| := by
  have h := convex_univ.norm_image_sub_le_of_norm_hasDerivWithin_le (f := Phi) (f' := gaussianPDFReal 0 1) (C := 1)
    (s := Set.univ) (x := b) (y := a) (fun x _ => (Phi_hasDerivAt x).hasDerivWithinAt)
    (fun x _ => by rw [Real.norm_eq_abs, abs_of_nonneg (gaussianPDFReal_nonneg 0 1 x)]; exact pdf_le_one x)
    (Set.mem_univ _) (Set.mem_univ _)
  simpa using h

theorem pdf_mono {x M : ℝ} (h : |x| ≤ M) : gaussianPDFReal 0 1 M ≤ gaussianPDFReal 0 1 x := by
  rw [gaussianPDFReal, gaussianPDFReal]
  refine mul_le_mul_of_nonneg_left (Real.exp_le_exp.2 ?_) (by positivity)
  have : x ^ 2 ≤ M ^ 2 := sq_le_sq' (by linarith [(abs_le.1 h).1]) (abs_le.1 h).2
  simp only [sub_zero, NNReal.coe_one, mul_one]
  linarith

theorem Phi_far {M a b : ℝ} (ha : |a| ≤ M) (hb : |b| ≤ M) : gaussianPDFReal 0 1 M * |a - b| ≤ |Phi a - Phi b| := by
  have key : ∀ a b : ℝ, |a| ≤ M → |b| ≤ M → a ≤ b → gaussianPDFReal 0 1 M * |a - b| ≤ |Phi a - Phi b| := by
    intro a b ha hb hab
    have h := (convex_Icc (-M) M).mul_sub_le_image_sub_of_le_deriv (f := Phi) (C := gaussianPDFReal 0 1 M)
      Phi_continuous.continuousOn (fun x _ => (Phi_hasDerivAt x).differentiableAt.differentiableWithinAt)
      (fun x hx => by
        rw [(Phi_hasDerivAt x).deriv]
        have := interior_subset hx
        exact pdf_mono (abs_le.2 ⟨this.1, this.2⟩)) a (abs_le.1 ha) b (abs_le.1 hb) hab
    rw [abs_sub_comm, abs_of_nonneg (sub_nonneg.2 hab), abs_sub_comm,
      abs_of_nonneg (sub_nonneg.2 (Phi_strictMono.monotone hab))]
    exact h
  rcases le_total a b with h | h
  · exact key a b ha hb h
  · rw [abs_sub_comm, abs_sub_comm (Phi a)]
    exact key b a hb ha h

/-! ### Truncation -/

/-- The nearest number between `-M` and `M`. -/
noncomputable def cap (M x : ℝ) : ℝ := max (-M) (min x M)

theorem cap_abs {M : ℝ} (hM : 0 ≤ M) (x : ℝ) : |cap M x| ≤ M :=
  abs_le.2 ⟨le_max_left _ _, max_le (by linarith) (min_le_right _ _)⟩

theorem cap_sq_le {M : ℝ} (hM : 0 ≤ M) (x : ℝ) : cap M x ^ 2 ≤ x ^ 2 := by
  rw [cap]
  rcases le_total x M with h1 | h1
  · rw [min_eq_left h1]
    rcases le_total (-M) x with h2 | h2
    · rw [max_eq_right h2]
    · rw [max_eq_left h2]; nlinarith
  · rw [min_eq_right h1, max_eq_right (by linarith)]
    nlinarith

theorem cap_close {M : ℝ} (hM : 0 ≤ M) {z y δ : ℝ} (h : |Phi z - Phi y| ≤ δ) :
    gaussianPDFReal 0 1 M * |cap M z - cap M y| ≤ δ := by
  refine (Phi_far (cap_abs hM z) (cap_abs hM y)).trans (le_trans ?_ h)
  have e : ∀ x, Phi (cap M x) = max (min (Phi x) (Phi M)) (Phi (-M)) := fun x => by
    rw [cap, Phi_strictMono.monotone.map_max, Phi_strictMono.monotone.map_min, max_comm]
  rw [e, e]
  refine (abs_max_sub_max_le_abs _ _ _).trans ?_
  have := abs_min_sub_min_le_max (Phi z) (Phi M) (Phi y) (Phi M)
  rwa [sub_self, abs_zero, max_eq_left (abs_nonneg _)] at this

theorem cap_product {M η z y : ℝ} (hM : 0 < M) (hη : η < M) (h : |cap M z - cap M y| ≤ η) :
    cap M y ^ 2 - M * η ≤ z * y := by
  have hη0 : 0 ≤ η := (abs_nonneg _).trans h
  have claim : ∀ z y : ℝ, |cap M z - cap M y| ≤ η → 0 ≤ z → cap M z * cap M y ≤ z * y := by
    intro z y h hz
    have cz : cap M z = min z M := by rw [cap, max_eq_right (by have := le_min hz hM.le; linarith)]
    have cz0 : 0 ≤ cap M z := by rw [cz]; exact le_min hz hM.le
    have cz1 : cap M z ≤ z := by rw [cz]; exact min_le_left _ _
    rcases le_total 0 y with hy | hy
    · have cy : cap M y = min y M := by rw [cap, max_eq_right (by have := le_min hy hM.le; linarith)]
      have cy0 : 0 ≤ cap M y := by rw [cy]; exact le_min hy hM.le
      have cy1 : cap M y ≤ y := by rw [cy]; exact min_le_left _ _
      exact mul_le_mul cz1 cy1 cy0 hz
    · have cy : cap M y = max (-M) y := by rw [cap, min_eq_left (by linarith)]
      have cy0 : cap M y ≤ 0 := by rw [cy]; exact max_le (by linarith) hy
      have h1 := (abs_le.1 h).2
      have e1 : cap M z = z := by
        rw [cz]
        refine min_eq_left ?_
        by_contra hc
        rw [cz, min_eq_right (not_le.1 hc).le] at h1
        linarith
      have e2 : cap M y = y := by
        rw [cy]
        refine max_eq_right ?_
        by_contra hc
        rw [cy, max_eq_left (not_le.1 hc).le] at h1
        linarith
      rw [e1, e2]
  have capneg : ∀ x, cap M (-x) = -cap M x := fun x => by
    rw [cap, cap]
    simp only [min_def, max_def]
    split_ifs <;> linarith
  have hp : cap M z * cap M y ≤ z * y := by
    rcases le_total 0 z with hz | hz
    · exact claim z y h hz
    · have := claim (-z) (-y) (by
        rw [capneg, capneg, neg_sub_neg, abs_sub_comm]
        exact h) (by linarith)
      rwa [capneg, capneg, neg_mul_neg, neg_mul_neg] at this
  have h1 := abs_le.1 h
  have h2 := abs_le.1 (cap_abs hM.le y)
  refine le_trans ?_ hp
  nlinarith [abs_le.1 (cap_abs hM.le y), mul_nonneg hη0 hM.le]

theorem cap_square {M η z y : ℝ} (hM : 0 < M) (h : |cap M z - cap M y| ≤ η) : cap M y ^ 2 - 2 * M * η ≤ z ^ 2 := by
  have hη0 : 0 ≤ η := (abs_nonneg _).trans h
  refine le_trans ?_ (cap_sq_le hM.le z)
  have h1 := abs_le.1 h
  have h2 := abs_le.1 (cap_abs hM.le y)
  nlinarith [sq_nonneg (cap M z - cap M y), mul_nonneg hη0 hM.le]

/-! ### The sum of the squared scores -/

theorem stdNormal_Ioc {a b : ℝ} (h : a ≤ b) : (gaussianReal 0 1).real (Set.Ioc a b) = Phi b - Phi a := by
  have hu := measureReal_union (μ := gaussianReal 0 1) (Set.Iic_disjoint_Ioc (a := a) (b := a) (c := b) le_rfl)
    measurableSet_Ioc
  rw [Set.Iic_union_Ioc_eq_Iic h] at hu
  rw [Phi_eq, Phi_eq]
  change _ = (gaussianReal 0 1).real (Set.Iic b) - (gaussianReal 0 1).real (Set.Iic a)
  linarith

/-- The part of the second moment below `t`. -/
noncomputable def partMoment (t : ℝ) : ℝ := ∫ x in Set.Iic t, x ^ 2 ∂gaussianReal 0 1

theorem partMoment_unit (t : ℝ) : 0 ≤ partMoment t ∧ partMoment t ≤ 1 := by
  refine ⟨integral_nonneg fun x => sq_nonneg x, ?_⟩
  have h := setIntegral_le_integral (s := Set.Iic t) (stdNormal_power 2) (.of_forall fun x => sq_nonneg x)
  rw [stdNormal_moments.2.1] at h
  exact h

theorem partMoment_step {a b : ℝ} (h : a ≤ b) :
    (max a 0 ^ 2 + max (-b) 0 ^ 2) * (Phi b - Phi a) ≤ partMoment b - partMoment a := by
  have hi := stdNormal_power 2
  have e : partMoment b - partMoment a = ∫ x in Set.Ioc a b, x ^ 2 ∂gaussianReal 0 1 := by
    rw [partMoment, partMoment, ← Set.Iic_union_Ioc_eq_Iic h,
      setIntegral_union (Set.Iic_disjoint_Ioc le_rfl) measurableSet_Ioc hi.integrableOn hi.integrableOn]
    ring
  rw [e, ← stdNormal_Ioc h]
  have hc : ∫ _x in Set.Ioc a b, (max a 0 ^ 2 + max (-b) 0 ^ 2) ∂gaussianReal 0 1 =
      (max a 0 ^ 2 + max (-b) 0 ^ 2) * (gaussianReal 0 1).real (Set.Ioc a b) := by
    rw [setIntegral_const, smul_eq_mul, mul_comm]
  rw [← hc]
  refine setIntegral_mono_on (integrable_const _).integrableOn hi.integrableOn measurableSet_Ioc fun x hx => ?_
  rcases le_total 0 a with ha | ha
  · rw [max_eq_left ha, max_eq_right (by linarith)]
    nlinarith [hx.1, hx.2]
  · rw [max_eq_right ha]
    rcases le_total b 0 with hb | hb
    · rw [max_eq_left (by linarith)]
      nlinarith [hx.1, hx.2]
    · rw [max_eq_right (by linarith)]
      nlinarith [sq_nonneg x]

theorem score_tail {x : ℝ} (hx : 0 ≤ x) {N : ℝ} (hN : 0 < N) (h : 1 / (2 * N) ≤ 1 - Phi x) : x ^ 2 ≤ 2 * Real.log N := by
  have h1 := h.trans (Phi_exp_tail hx)
  have h2 : 1 / N ≤ Real.exp (-(x ^ 2 / 2)) := by
    have e : 1 / (2 * N) = 1 / N / 2 := by field_simp
    rw [e] at h1
    linarith
  have h3 := Real.log_le_log (by positivity) h2
  rw [Real.log_exp, one_div, Real.log_inv] at h3
  linarith

theorem scores_sumsq {α : ℝ} (h0 : 0 ≤ α) (h1 : α ≤ 1 / 2) {n : ℕ} (hn : 1 ≤ n) {z : ℕ → ℝ}
    (hz : NormalScores n (position α n) z) : ∑ i ∈ Finset.Icc 1 n, z i ^ 2 ≤ n + 1 + 4 * Real.log (n + 1) := by
  have hn' : (1 : ℝ) ≤ n := by exact_mod_cast hn
  set N : ℝ := n + 1 - 2 * α with hN
  have hNpos : 0 < N := by rw [hN]; linarith
  have hz' : ∀ i, 1 ≤ i → i ≤ n → Phi (z i) = (i - α) / N := fun i a b => hz i a b
  have key : ∀ k, 1 ≤ k → k ≤ n → ∑ i ∈ Finset.Icc 1 k, z i ^ 2 ≤
      N * (partMoment (z k) - partMoment (z 1)) + max (z k) 0 ^ 2 + max (-z 1) 0 ^ 2 := by
    intro k hk
    induction k, hk using Nat.le_induction with
    | base =>
      intro _
      rw [Finset.Icc_self, Finset.sum_singleton, sub_self, mul_zero]
      rcases le_total 0 (z 1) with h | h
      · rw [max_eq_left h, max_eq_right (by linarith)]; linarith
      · rw [max_eq_right h, max_eq_left (by linarith)]; linarith
    | succ k hk ih =>
      intro hkn
      have ih := ih (by omega)
      rw [Finset.sum_Icc_succ_top (by omega)]
      have e1 := hz' k hk (by omega)
      have e2 := hz' (k + 1) (by omega) hkn
      have hd : Phi (z (k + 1)) - Phi (z k) = 1 / N := by
        rw [e1, e2]
        push_cast
        field_simp
        ring
      have hle : z k ≤ z (k + 1) := Phi_strictMono.le_iff_le.1 (by
        have : 0 < 1 / N := by positivity
        linarith)
      have hs := partMoment_step hle
      rw [hd, mul_one_div, div_le_iff₀ hNpos] at hs
      have hsq : z (k + 1) ^ 2 = max (z (k + 1)) 0 ^ 2 + max (-z (k + 1)) 0 ^ 2 := by
        rcases le_total 0 (z (k + 1)) with h | h
        · rw [max_eq_left h, max_eq_right (by linarith)]; ring
        · rw [max_eq_right h, max_eq_left (by linarith)]; ring
      rw [hsq]
      linarith
  have hk := key n hn le_rfl
  have hlog : 0 ≤ Real.log ((n : ℝ) + 1) := Real.log_nonneg (by linarith)
  have t1 : max (z n) 0 ^ 2 ≤ 2 * Real.log (n + 1) := by
    rcases le_total 0 (z n) with h | h
    · rw [max_eq_left h]
      refine score_tail h (by positivity) ?_
      rw [hz' n hn le_rfl, one_sub_div hNpos.ne', div_le_div_iff₀ (by positivity) hNpos]
      rw [hN]
      nlinarith
    · rw [max_eq_right h]
      linarith
  have t2 : max (-z 1) 0 ^ 2 ≤ 2 * Real.log (n + 1) := by
    rcases le_total 0 (-z 1) with h | h
    · rw [max_eq_left h]
      refine score_tail h (by positivity) ?_
      rw [Phi_neg, sub_sub_cancel, hz' 1 le_rfl hn, div_le_div_iff₀ (by positivity) hNpos]
      push_cast
      rw [hN]
      nlinarith
    · rw [max_eq_right h]
      linarith
  have t3 : N * (partMoment (z n) - partMoment (z 1)) ≤ n + 1 := by
    have a := partMoment_unit (z n)
    have b := partMoment_unit (z 1)
    have : N ≤ n + 1 := by rw [hN]; linarith
    nlinarith
  linarith

end Pysatl.Props
