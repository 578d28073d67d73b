import Verif.Lemmas.NoTies
import Verif.Props.NullLaw
import Mathlib.Analysis.Convex.SpecificFunctions.Basic

/-! # The statistics of the transformed sample take no value with positive probability -/

namespace Pysatl.Props

open Pysatl.Decision Pysatl.Graph Pysatl.Edf
open Pysatl.Spec
open MeasureTheory ProbabilityTheory

/-- A set of numbers without three elements is countable. -/
theorem countable_of_no_three {S : Set ℝ} (h : ∀ a ∈ S, ∀ b ∈ S, ∀ c ∈ S, a < b → b < c → False) : S.Countable := by
  by_cases hS : ∃ a ∈ S, ∃ b ∈ S, a < b
  · obtain ⟨a, ha, b, hb, hab⟩ := hS
    refine ((Set.countable_singleton b).insert a).mono fun t ht => ?_
    by_contra hne
    simp only [Set.mem_insert_iff, Set.mem_singleton_iff, not_or] at hne
    rcases lt_or_gt_of_ne hne.1 with h1 | h1
    · exact h t ht a ha b hb h1 hab
    rcases lt_or_gt_of_ne hne.2 with h2 | h2
    · exact h a ha t ht b hb h1 h2
    · exact h a ha b hb t ht hab h2
  · push Not at hS
    refine Set.Subsingleton.countable fun a ha b hb => le_antisymm (hS b hb a ha) (hS a ha b hb)

theorem strictConvex_level {f : ℝ → ℝ} {D : Set ℝ} (hf : StrictConvexOn ℝ D f) (c : ℝ) :
    {t | t ∈ D ∧ f t = c}.Countable := by
  refine countable_of_no_three ?_
  rintro a ⟨ha, ea⟩ b ⟨hb, eb⟩ d ⟨hd, ed⟩ hab hbd
  have := hf.lt_on_openSegment ha hd (hab.trans hbd).ne
    (by rw [openSegment_eq_Ioo (hab.trans hbd)]; exact ⟨hab, hbd⟩ : b ∈ openSegment ℝ a d)
  rw [ea, eb, ed, max_self] at this
  exact lt_irrefl _ this

theorem quadratic_level {A L C : ℝ} (h : A ≠ 0) : {t : ℝ | A * t ^ 2 + L * t + C = 0}.Countable := by
  refine countable_of_no_three ?_
  intro a ha b hb c hc hab hbc
  simp only [Set.mem_ofPred_eq] at ha hb hc
  have h1 : (a - b) * (A * (a + b) + L) = 0 := by linear_combination ha - hb
  have h2 : (b - c) * (A * (b + c) + L) = 0 := by linear_combination hb - hc
  have h3 := (mul_eq_zero.1 h1).resolve_left (sub_neg.2 hab).ne
  have h4 := (mul_eq_zero.1 h2).resolve_left (sub_neg.2 hbc).ne
  have h5 : A * (a - c) = 0 := by linear_combination h3 - h4
  rcases mul_eq_zero.1 h5 with h6 | h6
  · exact h h6
  · linarith

/-- Strictly increasing and inside the unit interval. -/
def Inner (l : List ℝ) : Prop := l.Pairwise (· < ·) ∧ ∀ x ∈ l, 0 < x ∧ x < 1

section
variable {μ : Measure ℝ} [IsProbabilityMeasure μ]

theorem pi_perm_null {N : ℕ} (σ : Equiv.Perm (Fin N)) {E : Set (Fin N → ℝ)} (hE : MeasurableSet E)
    (h : (Measure.pi fun _ : Fin N => μ) E = 0) : (Measure.pi fun _ : Fin N => μ) {x | x ∘ σ ∈ E} = 0 := by
  have hp := measurePreserving_piCongrLeft (fun _ : Fin N => μ) σ.symm
  have := hp.measure_preimage hE.nullMeasurableSet
  rw [h] at this
  refine measure_mono_null (fun x hx => ?_) this
  have e : (MeasurableEquiv.piCongrLeft (fun _ : Fin N => ℝ) σ.symm) x = x ∘ σ := by
    funext i
    have := Equiv.piCongrLeft_apply_apply (P := fun _ : Fin N => ℝ) σ.symm x (σ i)
    rw [MeasurableEquiv.coe_piCongrLeft]
    simpa using this
  rw [Set.mem_preimage, e]
  exact hx

variable [NullSingletonClass μ]

/-- A condition on the sorted sample that leaves the smallest observation countably many values, given the
others, has probability zero. -/
theorem sorted_null {N : ℕ} {S : Set (List ℝ)} (hS : MeasurableSet {v : Fin (N + 1) → ℝ | List.ofFn v ∈ S})
    (h : ∀ l : List ℝ, l.length = N → {t | t :: l ∈ S}.Countable) :
    (Measure.pi fun _ : Fin (N + 1) => μ) {x | sort (List.ofFn x) ∈ S} = 0 := by
  have h0 : (Measure.pi fun _ : Fin (N + 1) => μ) {v | List.ofFn v ∈ S} = 0 := by
    refine pi_null_of_slices 0 hS (.of_forall fun y => ?_)
    refine measure_mono_null (fun t ht => ?_) ((h (List.ofFn y) (by simp)).measure_zero μ)
    simpa [List.ofFn_succ] using ht
  refine measure_mono_null (t := ⋃ σ : Equiv.Perm (Fin (N + 1)), {x | x ∘ σ ∈ {v | List.ofFn v ∈ S}})
    (fun x hx => ?_) (measure_iUnion_null fun σ => pi_perm_null σ hS h0)
  obtain ⟨σ, hσ⟩ := exists_sort_perm x
  refine Set.mem_iUnion.2 ⟨σ, ?_⟩
  simp only [Set.mem_ofPred_eq, ← hσ]
  exact hx

end

instance : NullSingletonClass unitLaw := by
  rw [unitLaw_eq]; infer_instance

theorem unitLaw_inner : ∀ᵐ u ∂unitLaw, 0 < u ∧ u < 1 := by
  have h1 : ∀ᵐ u ∂unitLaw, u ∈ Set.Icc (0 : ℝ) 1 := by
    rw [unitLaw_eq]; exact ae_restrict_mem measurableSet_Icc
  have h2 : ∀ᵐ u ∂unitLaw, u ≠ 0 := by rw [ae_iff]; simp
  have h3 : ∀ᵐ u ∂unitLaw, u ≠ 1 := by rw [ae_iff]; simp
  filter_upwards [h1, h2, h3] with u a b c
  exact ⟨lt_of_le_of_ne a.1 (Ne.symm b), lt_of_le_of_ne a.2 c⟩

theorem ae_inner {N : ℕ} : ∀ᵐ x ∂(Measure.pi fun _ : Fin N => unitLaw), Inner (sort (List.ofFn x)) := by
  have h : ∀ᵐ x ∂(Measure.pi fun _ : Fin N => unitLaw), ∀ i, 0 < x i ∧ x i < 1 := by
    rw [ae_all_iff]
    intro i
    exact (measurePreserving_eval (fun _ : Fin N => unitLaw) i).quasiMeasurePreserving.ae unitLaw_inner
  filter_upwards [h, ae_injective (μ := unitLaw)] with x hx hi
  obtain ⟨σ, hσ⟩ := exists_sort_perm x
  refine ⟨?_, fun u hu => ?_⟩
  · have hs := sort_pairwise (List.ofFn x)
    rw [hσ] at hs ⊢
    rw [List.pairwise_ofFn] at hs ⊢
    exact fun i j hij => lt_of_le_of_ne (hs hij) fun e => hij.ne (σ.injective (hi e))
  · rw [hσ, List.mem_ofFn'] at hu
    obtain ⟨i, rfl⟩ := hu
    exact hx _

theorem measurable_inner (N : ℕ) : MeasurableSet {v : Fin N → ℝ | Inner (List.ofFn v)} := by
  have e : {v : Fin N → ℝ | Inner (List.ofFn v)} =
      (⋂ i, ⋂ j, {v | i < j → v i < v j}) ∩ ⋂ i, ({v | 0 < v i} ∩ {v | v i < 1}) := by
    ext v
    simp only [Inner, Set.mem_ofPred_eq, List.pairwise_ofFn, Set.mem_inter_iff, Set.mem_iInter, List.mem_ofFn']
    constructor
    · rintro ⟨h1, h2⟩
      exact ⟨fun i j h => h1 h, fun i => h2 _ ⟨i, rfl⟩⟩
    · rintro ⟨h1, h2⟩
      refine ⟨fun i j h => h1 h, ?_⟩
      rintro _ ⟨i, rfl⟩
      exact h2 i
  rw [e]
  refine MeasurableSet.inter (MeasurableSet.iInter fun i => MeasurableSet.iInter fun j => ?_)
    (MeasurableSet.iInter fun i => (measurableSet_lt measurable_const (measurable_pi_apply i)).inter
      (measurableSet_lt (measurable_pi_apply i) measurable_const))
  by_cases h : i < j
  · simpa [h] using measurableSet_lt (measurable_pi_apply i) (measurable_pi_apply j)
  · simp [h]

theorem measurable_okValue {α : Type} [MeasurableSpace α] {f : α → Except PyErr ℝ} (h : OutcomeMeas f) (c : ℝ) :
    MeasurableSet {a | f a = .ok c} := by
  have e : {a | f a = .ok c} = {a | ∃ d ≤ c, f a = .ok d} ∩ (⋃ k : ℕ, {a | ∃ d ≤ c - 1 / (k + 1), f a = .ok d})ᶜ := by
    ext a
    simp only [Set.mem_ofPred_eq, Set.mem_inter_iff, Set.mem_compl_iff, Set.mem_iUnion, not_exists, not_and]
    constructor
    · intro h
      refine ⟨⟨c, le_rfl, h⟩, fun k d hd h' => ?_⟩
      have : d = c := Except.ok.inj (h'.symm.trans h)
      have : (0 : ℝ) < 1 / (k + 1) := by positivity
      linarith
    · rintro ⟨⟨d, hd, h1⟩, h2⟩
      rcases eq_or_lt_of_le hd with rfl | hlt
      · exact h1
      · obtain ⟨k, hk⟩ := exists_nat_one_div_lt (sub_pos.2 hlt)
        exact absurd h1 (h2 k d (by linarith))
  rw [e]
  exact (h c).inter (MeasurableSet.iUnion fun k => h _).compl

/-- The reduction to the smallest observation. -/
theorem edf_null {N : ℕ} (s : EdfStat) (c : ℝ)
    (h : ∀ l : List ℝ, l.length = N → {t | Inner (t :: l) ∧ s.ofVals (t :: l) = .ok c}.Countable) :
    (Measure.pi fun _ : Fin (N + 1) => unitLaw) {x | s.ofVals (sort (List.ofFn x)) = .ok c} = 0 := by
  have h1 := sorted_null (μ := unitLaw) (S := {l | Inner l ∧ s.ofVals l = .ok c})
    ((measurable_inner _).inter (measurable_okValue (outcomeMeas_edf (listMeas_ofFn _) s) c)) h
  have h2 : ∀ᵐ x ∂(Measure.pi fun _ : Fin (N + 1) => unitLaw), Inner (sort (List.ofFn x)) := ae_inner
  rw [ae_iff] at h2
  refine measure_mono_null (fun x hx => ?_) (measure_union_null h1 h2)
  by_cases hi : Inner (sort (List.ofFn x))
  · exact .inl ⟨hi, hx⟩
  · exact .inr hi

theorem sum_mapIdx_cons_const {f : ℕ → ℝ → ℝ} (t : ℝ) (l : List ℝ) :
    ((t :: l).mapIdx f).sum = f 0 t + (l.mapIdx fun i x => f (i + 1) x).sum := by
  rw [List.mapIdx_cons, List.sum_cons]

theorem cvm_cons (l : List ℝ) : ∃ C q : ℝ, ∀ t, Edf.cvm (t :: l) = (q - t) ^ 2 + C := by
  refine ⟨1 / (12 * ((l.length + 1 : ℕ) : ℝ)) + (l.mapIdx fun i v =>
    ((2 * (((i + 1 : ℕ) : ℝ) + 1) - 1) / (2 * ((l.length + 1 : ℕ) : ℝ)) - v) ^ 2).sum,
    (2 * (((0 : ℕ) : ℝ) + 1) - 1) / (2 * ((l.length + 1 : ℕ) : ℝ)), fun t => ?_⟩
  rw [Edf.cvm, sum_mapIdx_cons_const, List.length_cons]
  ring

theorem edf_null_cvm {N : ℕ} (c : ℝ) :
    (Measure.pi fun _ : Fin (N + 1) => unitLaw) {x | EdfStat.cvm.ofVals (sort (List.ofFn x)) = .ok c} = 0 := by
  refine edf_null _ c fun l _ => ?_
  obtain ⟨C, q, h⟩ := cvm_cons l
  refine (quadratic_level (A := 1) (L := -2 * q) (C := q ^ 2 + C - c) one_ne_zero).mono fun t ht => ?_
  have := Except.ok.inj ht.2
  rw [h] at this
  simp only [Set.mem_ofPred_eq]
  linear_combination this

theorem edf_null_watson {N : ℕ} (hN : 0 < N) (c : ℝ) :
    (Measure.pi fun _ : Fin (N + 1) => unitLaw) {x | EdfStat.watson.ofVals (sort (List.ofFn x)) = .ok c} = 0 := by
  refine edf_null _ c fun l hl => ?_
  obtain ⟨C, q, h⟩ := cvm_cons l
  have hn : (0 : ℝ) < N := by exact_mod_cast hN
  refine (quadratic_level (A := 1 - 1 / (N + 1 : ℝ)) (L := -2 * q - 2 * l.sum / (N + 1) + 1)
    (C := q ^ 2 + C - c - (l.sum ^ 2 / (N + 1) - l.sum + (N + 1) / 4)) (by
      have : (1 : ℝ) / (N + 1) < 1 := by rw [div_lt_one (by linarith)]; linarith
      exact (sub_pos.2 this).ne')).mono fun t ht => ?_
  have := Except.ok.inj ht.2
  rw [watsonBeta, h, mean, List.sum_cons, List.length_cons, hl] at this
  simp only [Set.mem_ofPred_eq]
  push_cast at this
  rw [← this]
  field_simp
  ring

theorem spacings_cons (l : List ℝ) : ∃ (r : ℝ) (rest : List ℝ), ∀ t, (∀ x ∈ t :: l, x < 1) →
    (t :: l).Pairwise (· < ·) → t < r ∧ spacings 0 1 (t :: l) = t :: (r - t) :: rest := by
  cases l with
  | nil => exact ⟨1, [], fun t h _ => ⟨h t (by simp), by simp [spacings, npDiff]⟩⟩
  | cons r l =>
    exact ⟨r, npDiff (r :: (l ++ [1])), fun t _ h => ⟨(List.pairwise_cons.1 h).1 r (by simp), by
      simp [spacings, npDiff]⟩⟩

theorem edf_null_greenwood {N : ℕ} (c : ℝ) :
    (Measure.pi fun _ : Fin (N + 1) => unitLaw) {x | EdfStat.greenwood.ofVals (sort (List.ofFn x)) = .ok c} = 0 := by
  refine edf_null _ c fun l _ => ?_
  obtain ⟨r, rest, h⟩ := spacings_cons l
  refine (quadratic_level (A := 2) (L := -2 * r) (C := r ^ 2 + sumSquares rest - c) two_ne_zero).mono fun t ht => ?_
  obtain ⟨hi, hv⟩ := ht
  obtain ⟨_, hs⟩ := h t (fun x hx => (hi.2 x hx).2) hi.1
  simp only [EdfStat.ofVals, greenwoodGamma, hs] at hv
  split_ifs at hv
  have := Except.ok.inj hv
  simp only [sumSquares, List.map_cons, List.sum_cons] at this
  simp only [Set.mem_ofPred_eq, sumSquares]
  linear_combination this

theorem edf_null_moran {N : ℕ} (c : ℝ) :
    (Measure.pi fun _ : Fin (N + 1) => unitLaw) {x | EdfStat.moran.ofVals (sort (List.ofFn x)) = .ok c} = 0 := by
  refine edf_null _ c fun l hl => ?_
  obtain ⟨r, rest, h⟩ := spacings_cons l
  have hn : (0 : ℝ) < (N + 1 : ℕ) := by positivity
  have hf : StrictConvexOn ℝ (Set.Ioo 0 r) fun t => -Real.log t + -Real.log (r - t) := by
    have h1 : StrictConvexOn ℝ (Set.Ioo 0 r) fun t => -Real.log t :=
      (strictConcaveOn_log_Ioi.neg).subset (fun t ht => ht.1) (convex_Ioo 0 r)
    have h2 : ConvexOn ℝ (Set.Ioo 0 r) fun t => -Real.log (r - t) := by
      have := (strictConcaveOn_log_Ioi.concaveOn.neg).comp_affineMap (AffineMap.lineMap r (r - 1))
      refine (this.subset ?_ (convex_Ioo 0 r)).congr ?_
      · intro t ht
        simp only [Set.mem_preimage, AffineMap.lineMap_apply, Set.mem_Ioi, vsub_eq_sub, smul_eq_mul, vadd_eq_add]
        linarith [ht.2]
      · intro t ht
        simp only [Function.comp, AffineMap.lineMap_apply, vsub_eq_sub, smul_eq_mul, vadd_eq_add, Pi.neg_apply]
        congr 2
        ring
    exact h1.add_convexOn h2
  refine (strictConvex_level hf (c + 2 * Real.log (N + 1 : ℕ) +
    (rest.map fun x => Real.log ((N + 1 : ℕ) * x)).sum)).mono fun t ht => ?_
  obtain ⟨hi, hv⟩ := ht
  obtain ⟨hr, hs⟩ := h t (fun x hx => (hi.2 x hx).2) hi.1
  have ht0 := (hi.2 t (by simp)).1
  simp only [EdfStat.ofVals, moranGamma, hs, List.length_cons, hl, if_neg (Nat.succ_ne_zero N)] at hv
  split_ifs at hv
  have := Except.ok.inj hv
  simp only [List.map_cons, List.sum_cons] at this
  rw [Real.log_mul hn.ne' ht0.ne', Real.log_mul hn.ne' (sub_pos.2 hr).ne'] at this
  refine ⟨⟨ht0, hr⟩, ?_⟩
  linarith

theorem edf_null_minToshiyuki {N : ℕ} (c : ℝ) :
    (Measure.pi fun _ : Fin (N + 1) => unitLaw)
      {x | EdfStat.minToshiyuki.ofVals (sort (List.ofFn x)) = .ok c} = 0 := by
  refine edf_null _ c fun l hl => ?_
  have hn : (0 : ℝ) < √((N + 1 : ℕ) : ℝ) := Real.sqrt_pos.2 (by positivity)
  obtain ⟨C, hC⟩ : ∃ C : ℝ, ∀ t, Edf.minToshiyuki (t :: l) =
      (max ((((0 : ℕ) : ℝ) + 1) / (N + 1 : ℕ) - t) (t - ((0 : ℕ) : ℝ) / (N + 1 : ℕ)) * √(1 / (t * (1 - t))) + C) /
        √((N + 1 : ℕ) : ℝ) := by
    refine ⟨(List.zipWith (fun d v => d * √(1 / (v * (1 - v))))
      (List.zipWith max (l.mapIdx fun i v => (((i + 1 : ℕ) : ℝ) + 1) / (N + 1 : ℕ) - v)
        (l.mapIdx fun i v => v - ((i + 1 : ℕ) : ℝ) / (N + 1 : ℕ))) l).sum, fun t => ?_⟩
    simp only [Edf.minToshiyuki, plusGaps, minusGaps, List.length_cons, hl, List.mapIdx_cons, List.zipWith_cons_cons,
      List.sum_cons]
  set d : ℝ := c * √((N + 1 : ℕ) : ℝ) - C with hd
  have key : ∀ p : ℝ, {t : ℝ | (1 + d ^ 2) * t ^ 2 + (-2 * p - d ^ 2) * t + p ^ 2 = 0}.Countable :=
    fun p => quadratic_level (by positivity)
  refine ((key ((((0 : ℕ) : ℝ) + 1) / (N + 1 : ℕ))).union (key (((0 : ℕ) : ℝ) / (N + 1 : ℕ)))).mono fun t ht => ?_
  obtain ⟨hi, hv⟩ := ht
  have hv' := Except.ok.inj hv
  rw [hC, div_eq_iff hn.ne'] at hv'
  have ht := hi.2 t (by simp)
  have hpos : 0 < t * (1 - t) := mul_pos ht.1 (by linarith [ht.2])
  have hv2 : max ((((0 : ℕ) : ℝ) + 1) / (N + 1 : ℕ) - t) (t - ((0 : ℕ) : ℝ) / (N + 1 : ℕ)) *
      √(1 / (t * (1 - t))) = d := by rw [hd]; linarith
  have sq : ∀ w : ℝ, w * √(1 / (t * (1 - t))) = d → w ^ 2 = d ^ 2 * (t * (1 - t)) := by
    intro w hw
    rw [← hw, mul_pow, Real.sq_sqrt (by positivity), mul_assoc, one_div, inv_mul_cancel₀ hpos.ne', mul_one]
  simp only [Set.mem_union, Set.mem_ofPred_eq]
  rcases max_choice ((((0 : ℕ) : ℝ) + 1) / (N + 1 : ℕ) - t) (t - ((0 : ℕ) : ℝ) / (N + 1 : ℕ)) with e | e
  · left
    rw [e] at hv2
    linear_combination sq _ hv2
  · right
    rw [e] at hv2
    linear_combination sq _ hv2

theorem edf_null_ad {N : ℕ} (c : ℝ) :
    (Measure.pi fun _ : Fin (N + 1) => unitLaw) {x | EdfStat.ad.ofVals (sort (List.ofFn x)) = .ok c} = 0 := by
  refine edf_null _ c fun l hl => ?_
  -- `log t` enters through the first term, `log (1 - t)` through the last
  obtain ⟨C, hC⟩ : ∃ C : ℝ, ∀ t, Edf.ad ((t :: l).map Real.log) ((t :: l).map fun v => Real.log (1 - v)) =
      C - (1 / (N + 1 : ℕ) * Real.log t + (2 * (N : ℝ) + 1) / (N + 1 : ℕ) * Real.log (1 - t)) := by
    refine ⟨Edf.ad ((0 :: l).map Real.log) ((0 :: l).map fun v => Real.log (1 - v)), fun t => ?_⟩
    have sum2 : ∀ t : ℝ, Edf.ad ((t :: l).map Real.log) ((t :: l).map fun v => Real.log (1 - v)) =
        -((N + 1 : ℕ) : ℝ) - ((((t :: l).map Real.log).mapIdx fun i x => (2 * ((i : ℝ) + 1) - 1) / (N + 1 : ℕ) * x).sum +
          ((((t :: l).map fun v => Real.log (1 - v)).reverse.mapIdx
            fun i x => (2 * ((i : ℝ) + 1) - 1) / (N + 1 : ℕ) * x).sum)) := by
      intro t
      have hlen : ((t :: l).map Real.log).length = N + 1 := by simp [hl]
      simp only [Edf.ad, hlen]
      congr 1
      have : ∀ (a b : List ℝ) (w : ℕ → ℝ), a.length = b.length →
          ((a.zip b).mapIdx fun i p => w i * (p.1 + p.2)).sum =
            (a.mapIdx fun i x => w i * x).sum + (b.mapIdx fun i x => w i * x).sum := by
        intro a
        induction a with
        | nil => intro b w h; have : b = [] := List.length_eq_zero_iff.1 h.symm; simp [this]
        | cons x a ih =>
          intro b w h
          cases b with
          | nil => simp at h
          | cons y b =>
            simp only [List.zip_cons_cons, List.mapIdx_cons, List.sum_cons]
            rw [ih b (fun i => w (i + 1)) (by simpa using h)]
            ring
      exact this _ _ (fun i : ℕ => (2 * ((i : ℝ) + 1) - 1) / (N + 1 : ℕ)) (by simp)
    have rev : ∀ t : ℝ, ((((t :: l).map fun v => Real.log (1 - v)).reverse.mapIdx
        fun i x => (2 * ((i : ℝ) + 1) - 1) / (N + 1 : ℕ) * x).sum) =
        (((l.map fun v => Real.log (1 - v)).reverse.mapIdx
          fun i x => (2 * ((i : ℝ) + 1) - 1) / (N + 1 : ℕ) * x).sum) +
          (2 * (N : ℝ) + 1) / (N + 1 : ℕ) * Real.log (1 - t) := by
      intro t
      rw [List.map_cons, List.reverse_cons, List.mapIdx_append, List.sum_append]
      simp only [List.length_reverse, List.length_map, hl, List.mapIdx_cons, List.mapIdx_nil, List.sum_cons,
        List.sum_nil]
      push_cast
      ring
    rw [sum2, sum2, rev, rev, List.map_cons, List.map_cons, sum_mapIdx_cons_const, sum_mapIdx_cons_const]
    simp only [Real.log_zero, sub_zero, Real.log_one, mul_zero, zero_add, add_zero]
    push_cast
    ring
  have hn : (0 : ℝ) < (N + 1 : ℕ) := by positivity
  have hf : StrictConvexOn ℝ (Set.Ioo 0 1) fun t =>
      -(1 / (N + 1 : ℕ) * Real.log t) + -((2 * (N : ℝ) + 1) / (N + 1 : ℕ) * Real.log (1 - t)) := by
    have h1 : StrictConvexOn ℝ (Set.Ioo 0 1) fun t => -(1 / ((N + 1 : ℕ) : ℝ) * Real.log t) := by
      have h0 : StrictConvexOn ℝ (Set.Ioo (0 : ℝ) 1) fun t => -Real.log t :=
        (strictConcaveOn_log_Ioi.neg).subset (fun t ht => ht.1) (convex_Ioo 0 1)
      refine ⟨convex_Ioo 0 1, fun x hx y hy hxy a b ha hb hab => ?_⟩
      have := mul_lt_mul_of_pos_left (h0.2 hx hy hxy ha hb hab) (one_div_pos.2 hn)
      simp only [smul_eq_mul] at this ⊢
      linarith
    have h2 : ConvexOn ℝ (Set.Ioo 0 1) fun t => -((2 * (N : ℝ) + 1) / (N + 1 : ℕ) * Real.log (1 - t)) := by
      have := (strictConcaveOn_log_Ioi.concaveOn.neg).comp_affineMap (AffineMap.lineMap (1 : ℝ) 0)
      have h3 : ConvexOn ℝ (Set.Ioo 0 1) fun t : ℝ => -Real.log (1 - t) := by
        refine (this.subset ?_ (convex_Ioo 0 1)).congr ?_
        · intro t ht
          simp only [Set.mem_preimage, AffineMap.lineMap_apply, Set.mem_Ioi, vsub_eq_sub, smul_eq_mul, vadd_eq_add]
          linarith [ht.2]
        · intro t ht
          simp only [Function.comp, AffineMap.lineMap_apply, vsub_eq_sub, smul_eq_mul, vadd_eq_add, Pi.neg_apply]
          congr 2
          ring
      have hk : (0 : ℝ) ≤ (2 * (N : ℝ) + 1) / (N + 1 : ℕ) := by positivity
      refine (h3.smul hk).congr fun t _ => ?_
      simp only [smul_eq_mul]
      ring
    exact h1.add_convexOn h2
  refine (strictConvex_level hf (c - C)).mono fun t ht => ?_
  obtain ⟨hi, hv⟩ := ht
  have hv' := Except.ok.inj hv
  rw [hC] at hv'
  refine ⟨hi.2 t (by simp), ?_⟩
  linarith

/-! ### Kolmogorov-Smirnov and Kuiper -/

theorem ae_off {N : ℕ} (P : ℝ → Prop) (hP : {u | P u}.Countable) :
    ∀ᵐ x ∂(Measure.pi fun _ : Fin N => unitLaw), ∀ i, ¬ P (x i) := by
  rw [ae_all_iff]
  intro i
  refine (measurePreserving_eval (fun _ : Fin N => unitLaw) i).quasiMeasurePreserving.ae (p := fun u => ¬ P u) ?_
  rw [ae_iff]
  simpa using hP.measure_zero unitLaw

theorem edf_null_ks {N : ℕ} (t : AlternativeType) (c : ℝ) :
    (Measure.pi fun _ : Fin (N + 1) => unitLaw) {x | (EdfStat.ks t).ofVals (sort (List.ofFn x)) = .ok c} = 0 := by
  have h := ae_off (N := N + 1) (fun u => ∃ i : ℕ, u = (i : ℝ) / (N + 1 : ℕ) + c ∨ u = ((i : ℝ) + 1) / (N + 1 : ℕ) - c) (by
    have : {u : ℝ | ∃ i : ℕ, u = (i : ℝ) / (N + 1 : ℕ) + c ∨ u = ((i : ℝ) + 1) / (N + 1 : ℕ) - c} =
        ⋃ i : ℕ, ({(i : ℝ) / (N + 1 : ℕ) + c, ((i : ℝ) + 1) / (N + 1 : ℕ) - c} : Set ℝ) := by
      ext u; simp
    rw [this]
    exact Set.countable_iUnion fun i => ((Set.countable_singleton _).insert _))
  rw [ae_iff] at h
  refine measure_mono_null (fun x hx => ?_) h
  simp only [Set.mem_ofPred_eq, not_forall, not_not]
  have hlen : (sort (List.ofFn x)).length = N + 1 := by rw [(sort_perm _).length_eq, List.length_ofFn]
  have hne : sort (List.ofFn x) ≠ [] := by intro e; rw [e] at hlen; simp at hlen
  obtain ⟨p, hp⟩ := dPlus_exists hne
  obtain ⟨m, hm⟩ := dMinus_exists hne
  have obs : ∀ i (hi : i < (sort (List.ofFn x)).length), ∃ j, x j = (sort (List.ofFn x))[i] := fun i hi => by
    have := (sort_perm (List.ofFn x)).mem_iff.1 (List.getElem_mem hi)
    rw [List.mem_ofFn'] at this
    exact this
  have hp' : p = c → ∃ j, ∃ i : ℕ, x j = (i : ℝ) / (N + 1 : ℕ) + c ∨ x j = ((i : ℝ) + 1) / (N + 1 : ℕ) - c := by
    rintro rfl
    obtain ⟨⟨i, hi, e⟩, -⟩ := dPlus_eq_ok.1 hp
    obtain ⟨j, hj⟩ := obs i hi
    rw [hlen] at e
    exact ⟨j, i, .inr (by rw [hj]; linarith)⟩
  have hm' : m = c → ∃ j, ∃ i : ℕ, x j = (i : ℝ) / (N + 1 : ℕ) + c ∨ x j = ((i : ℝ) + 1) / (N + 1 : ℕ) - c := by
    rintro rfl
    obtain ⟨⟨i, hi, e⟩, -⟩ := dMinus_eq_ok.1 hm
    obtain ⟨j, hj⟩ := obs i hi
    rw [hlen] at e
    exact ⟨j, i, .inl (by rw [hj]; linarith)⟩
  have hx' : Edf.ks t (sort (List.ofFn x)) = .ok c := hx
  cases t
  · rw [ks_right hp hm] at hx'; exact hp' (Except.ok.inj hx')
  · rw [ks_left hm] at hx'; exact hm' (Except.ok.inj hx')
  · rw [ks_two hp hm] at hx'
    rcases max_choice p m with e | e
    · rw [e] at hx'; exact hp' (Except.ok.inj hx')
    · rw [e] at hx'; exact hm' (Except.ok.inj hx')

theorem edf_null_kuiper {N : ℕ} (hN : 0 < N) (c : ℝ) :
    (Measure.pi fun _ : Fin (N + 1) => unitLaw) {x | EdfStat.kuiper.ofVals (sort (List.ofFn x)) = .ok c} = 0 := by
  have hd : ∀ᵐ x ∂(Measure.pi fun _ : Fin (N + 1) => unitLaw), ∀ (i j : Fin (N + 1)) (q : ℤ), i ≠ j →
      x i - x j ≠ c + (q : ℝ) / (N + 1 : ℕ) ∧ x i - x j ≠ (q : ℝ) / (N + 1 : ℕ) := by
    have one : ∀ d : ℝ, ∀ i j : Fin (N + 1), i ≠ j →
        ∀ᵐ x ∂(Measure.pi fun _ : Fin (N + 1) => unitLaw), x i - x j ≠ d := by
      intro d i j hij
      have := hyperplane_null (μ := unitLaw) (c := fun l => if l = i then 1 else if l = j then -1 else 0) (k := i)
        (by simp) d
      refine measure_mono_null (fun x hx => ?_) this
      simp only [Set.mem_compl_iff, Set.mem_ofPred_eq, not_not] at hx ⊢
      have e : ∀ l, (if l = i then (1 : ℝ) else if l = j then -1 else 0) * x l =
          (if l = i then x l else 0) - if l = j then x l else 0 := by
        intro l
        by_cases h1 : l = i
        · simp [h1, hij]
        · by_cases h2 : l = j <;> simp [h1, h2, hij.symm]
      simp only [e, Finset.sum_sub_distrib, Finset.sum_ite_eq', Finset.mem_univ, if_true, hx]
    simp only [ae_all_iff]
    intro i j q hij
    filter_upwards [one (c + (q : ℝ) / (N + 1 : ℕ)) i j hij, one ((q : ℝ) / (N + 1 : ℕ)) i j hij] with x h1 h2
    exact ⟨h1, h2⟩
  rw [ae_iff] at hd
  refine measure_mono_null (fun x hx => ?_) hd
  simp only [Set.mem_ofPred_eq]
  intro hall
  obtain ⟨σ, hσ⟩ := exists_sort_perm x
  have hlen : (sort (List.ofFn x)).length = N + 1 := by rw [(sort_perm _).length_eq, List.length_ofFn]
  have hne : sort (List.ofFn x) ≠ [] := by intro e; rw [e] at hlen; simp at hlen
  obtain ⟨p, hp⟩ := dPlus_exists hne
  obtain ⟨m, hm⟩ := dMinus_exists hne
  have hx' : Edf.kuiper (sort (List.ofFn x)) = .ok c := hx
  rw [kuiper_eq hp hm] at hx'
  have hc := Except.ok.inj hx'
  have hN1 : (0 : ℝ) < (N + 1 : ℕ) := by positivity
  have at_ : ∀ i (hi : i < (sort (List.ofFn x)).length) (hi' : i < N + 1),
      (sort (List.ofFn x))[i] = x (σ ⟨i, hi'⟩) := fun i hi hi' => by
    simp only [hσ, List.getElem_ofFn, Function.comp]
  obtain ⟨⟨i, hi, ep⟩, up⟩ := dPlus_eq_ok.1 hp
  obtain ⟨⟨j, hj, em⟩, um⟩ := dMinus_eq_ok.1 hm
  have hi' : i < N + 1 := hlen ▸ hi
  have hj' : j < N + 1 := hlen ▸ hj
  rw [at_ _ _ hi', hlen] at ep
  rw [at_ _ _ hj', hlen] at em
  by_cases hij : i = j
  · subst hij
    -- all gaps are equal
    obtain ⟨k, hk, hki⟩ : ∃ k, k < N + 1 ∧ k ≠ i := by
      rcases Nat.eq_zero_or_pos i with h | h
      · exact ⟨1, by omega, by omega⟩
      · exact ⟨0, by omega, by omega⟩
    have h1 := up k (by rw [hlen]; exact hk)
    have h2 := um k (by rw [hlen]; exact hk)
    rw [at_ _ _ hk, hlen] at h1 h2
    have hne' : σ ⟨k, hk⟩ ≠ σ ⟨i, by omega⟩ := fun e => hki (by simpa using σ.injective e)
    refine (hall _ _ ((k : ℤ) - i) hne').2 ?_
    push_cast at *
    have e1 : ((k : ℝ) + 1) / (N + 1) = k / (N + 1) + 1 / (N + 1) := by ring
    have e2 : ((i : ℝ) + 1) / (N + 1) = i / (N + 1) + 1 / (N + 1) := by ring
    have e3 : ((k : ℝ) - i) / (N + 1) = k / (N + 1) - i / (N + 1) := by ring
    rw [e1] at h1
    rw [e2] at ep
    rw [e3]
    linarith
  · have hne' : σ ⟨j, by omega⟩ ≠ σ ⟨i, by omega⟩ := fun e => hij (by simpa using (σ.injective e).symm)
    refine (hall _ _ ((j : ℤ) - i - 1) hne').1 ?_
    push_cast at *
    have e2 : ((i : ℝ) + 1) / (N + 1) = i / (N + 1) + 1 / (N + 1) := by ring
    have e3 : ((j : ℝ) - i - 1) / (N + 1) = j / (N + 1) - i / (N + 1) - 1 / (N + 1) := by ring
    rw [e2] at ep
    rw [e3]
    linarith

/-- The number of observations from which on a statistic of the transformed sample varies: the statistics of
Watson and Kuiper are constant for one observation. -/
def EdfStat.least : EdfStat → ℕ
  | .watson | .kuiper => 2
  | _ => 1

/-- **No ties.** -/
theorem edf_no_ties (s : EdfStat) {n : ℕ} (hn : s.least ≤ n) (c : ℝ) :
    (Measure.pi fun _ : Fin n => unitLaw) {x | s.ofVals (sort (List.ofFn x)) = .ok c} = 0 := by
  obtain ⟨N, rfl⟩ : ∃ N, n = N + 1 := ⟨n - 1, by cases s <;> simp only [EdfStat.least] at hn <;> omega⟩
  cases s with
  | ks t => exact edf_null_ks t c
  | cvm => exact edf_null_cvm c
  | ad => exact edf_null_ad c
  | kuiper => exact edf_null_kuiper (by simp only [EdfStat.least] at hn; omega) c
  | watson => exact edf_null_watson (by simp only [EdfStat.least] at hn; omega) c
  | minToshiyuki => exact edf_null_minToshiyuki c
  | greenwood => exact edf_null_greenwood c
  | moran => exact edf_null_moran c

end Pysatl.Props
