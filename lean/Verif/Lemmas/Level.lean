import Verif.Props.PValue
import Verif.Props.MonteCarloLevel
import Mathlib.MeasureTheory.Constructions.Pi

/-! # How often a rank test rejects -/

namespace Pysatl.Props

open Pysatl.Decision Pysatl.Spec
open MeasureTheory

variable {B : ℕ}

/-- The p-value of value `i` among the others is at most `α`. -/
def RankRejects (t : AlternativeType) (α : ℝ) (x : Fin (B + 1) → ℝ) (i : Fin (B + 1)) : Prop :=
  ∃ p, (getConcreteFactory t).pValue (List.ofFn fun j : Fin B => x (i.succAbove j)) (x i) = .ok p ∧ p ≤ α

/-- How many of the other values are at most value `i`. -/
noncomputable def below (x : Fin (B + 1) → ℝ) (i : Fin (B + 1)) : ℕ :=
  (Finset.univ.filter (fun j => j ≠ i ∧ x j ≤ x i)).card

theorem fracLe_others (x : Fin (B + 1) → ℝ) (i : Fin (B + 1)) :
    fracLe (List.ofFn fun j : Fin B => x (i.succAbove j)) (x i) = (below x i : ℝ) / B := by
  unfold fracLe below
  rw [List.length_ofFn]
  congr 2
  rw [← List.countP_eq_length_filter, Finset.card_filter, Fin.sum_univ_succAbove _ i, countP_ofFn]
  simp [Fin.succAbove_ne]

theorem rankRejects_left (hB : 0 < B) {α : ℝ} {x : Fin (B + 1) → ℝ} {i : Fin (B + 1)} :
    RankRejects .left α x i ↔ (below x i : ℝ) ≤ α * B := by
  have hB' : (0 : ℝ) < B := by exact_mod_cast hB
  have hne : (List.ofFn fun j : Fin B => x (i.succAbove j)) ≠ [] := by
    rw [Ne, List.ofFn_eq_nil_iff]; omega
  unfold RankRejects
  simp only [getConcreteFactory, if_true, Factory.pValue, leftPValue_eq hne, fracLe_others]
  simp only [Except.ok.injEq, exists_eq_left', div_le_iff₀ hB']

theorem rankRejects_right (hB : 0 < B) {α : ℝ} {x : Fin (B + 1) → ℝ} {i : Fin (B + 1)} :
    RankRejects .right α x i ↔ (above x i : ℝ) ≤ α * B := by
  have hB' : (0 : ℝ) < B := by exact_mod_cast hB
  have hne : (List.ofFn fun j : Fin B => x (i.succAbove j)) ≠ [] := by
    rw [Ne, List.ofFn_eq_nil_iff]; omega
  unfold RankRejects
  have : getConcreteFactory .right = .right := rfl
  simp only [this, Factory.pValue, rightPValue_eq hne, fracGt_others]
  simp only [Except.ok.injEq, exists_eq_left', div_le_iff₀ hB']

theorem rankRejects_two (hB : 0 < B) {α : ℝ} {x : Fin (B + 1) → ℝ} {i : Fin (B + 1)} :
    RankRejects .twoTailed α x i ↔
      RankRejects .left (α / 2) x i ∨ RankRejects .right (α / 2) x i := by
  rw [rankRejects_left hB, rankRejects_right hB]
  have hB' : (0 : ℝ) < B := by exact_mod_cast hB
  have hne : (List.ofFn fun j : Fin B => x (i.succAbove j)) ≠ [] := by
    rw [Ne, List.ofFn_eq_nil_iff]; omega
  unfold RankRejects
  have : getConcreteFactory .twoTailed = .twoSided := rfl
  simp only [this, Factory.pValue, twoSidedPValue_eq hne, fracGt_others, fracLe_others]
  simp only [Except.ok.injEq, exists_eq_left']
  rw [← le_div_iff₀' (by norm_num : (0 : ℝ) < 2), min_le_iff, div_le_iff₀ hB', div_le_iff₀ hB']

/-- The bound on the number of rejections among `B + 1` values. -/
noncomputable def rankBound (t : AlternativeType) (α : ℝ) (B : ℕ) : ℕ :=
  match t with
  | .left | .right => ⌊α * B⌋₊ + 1
  | .twoTailed => 2 * (⌊α / 2 * B⌋₊ + 1)

open Classical in
theorem left_count (hB : 0 < B) (α : ℝ) (x : Fin (B + 1) → ℝ) :
    (Finset.univ.filter fun i => RankRejects .left α x i).card ≤ ⌊α * B⌋₊ + 1 := by
  simp only [rankRejects_left hB]
  set s := Finset.univ.filter fun i => (below x i : ℝ) ≤ α * B with hs
  rcases s.eq_empty_or_nonempty with h | h
  · simp [h]
  obtain ⟨m, hm, hmax⟩ := s.exists_max_image x h
  have hb : (below x m : ℝ) ≤ α * B := (Finset.mem_filter.1 hm).2
  have h1 : below x m ≤ ⌊α * B⌋₊ := Nat.le_floor hb
  have h2 : (s.erase m).card ≤ below x m := by
    refine Finset.card_le_card fun j hj => ?_
    rw [Finset.mem_erase] at hj
    simp [hj.1, hmax j hj.2]
  rw [Finset.card_erase_of_mem hm] at h2
  omega

open Classical in
theorem right_count (hB : 0 < B) (α : ℝ) {x : Fin (B + 1) → ℝ} (hx : Function.Injective x) :
    (Finset.univ.filter fun i => RankRejects .right α x i).card ≤ ⌊α * B⌋₊ + 1 := by
  simp only [rankRejects_right hB]
  set s := Finset.univ.filter fun i => (above x i : ℝ) ≤ α * B with hs
  rcases s.eq_empty_or_nonempty with h | h
  · simp [h]
  obtain ⟨m, hm, hmin⟩ := s.exists_min_image x h
  have hb : (above x m : ℝ) ≤ α * B := (Finset.mem_filter.1 hm).2
  have h1 : above x m ≤ ⌊α * B⌋₊ := Nat.le_floor hb
  have h2 : (s.erase m).card ≤ above x m := by
    refine Finset.card_le_card fun j hj => ?_
    rw [Finset.mem_erase] at hj
    simp only [Finset.mem_filter, Finset.mem_univ, true_and]
    exact lt_of_le_of_ne (hmin j hj.2) fun e => hj.1 (hx e).symm
  rw [Finset.card_erase_of_mem hm] at h2
  omega

open Classical in
/-- Among `B + 1` values at most `rankBound` are rejected when each in turn is taken as the observed
one; ties matter only on the right. -/
theorem rank_count (hB : 0 < B) (t : AlternativeType) (α : ℝ) {x : Fin (B + 1) → ℝ}
    (hx : t ≠ .left → Function.Injective x) :
    (Finset.univ.filter fun i => RankRejects t α x i).card ≤ rankBound t α B := by
  cases t with
  | left => exact left_count hB α x
  | right => exact right_count hB α (hx (by simp))
  | twoTailed =>
    simp only [rankRejects_two hB, Finset.filter_or, rankBound]
    refine (Finset.card_union_le _ _).trans
      ((Nat.add_le_add (left_count hB (α / 2) x) (right_count hB (α / 2) (hx (by simp)))).trans ?_)
    omega

theorem measurable_rankRejects (hB : 0 < B) (t : AlternativeType) (α : ℝ) (i : Fin (B + 1)) :
    MeasurableSet {x : Fin (B + 1) → ℝ | RankRejects t α x i} := by
  have hl : ∀ α, MeasurableSet {x : Fin (B + 1) → ℝ | RankRejects .left α x i} := by
    intro α
    have : {x : Fin (B + 1) → ℝ | RankRejects .left α x i} =
        {x | ((∑ j, if j ≠ i ∧ x j ≤ x i then (1 : ℝ) else 0)) ≤ α * B} := by
      ext x
      simp only [Set.mem_ofPred_eq, rankRejects_left hB, below, Finset.card_filter]
      push_cast
      rfl
    rw [this]
    apply measurableSet_le _ measurable_const
    refine Finset.measurable_fun_sum _ fun j _ => ?_
    refine Measurable.ite ?_ measurable_const measurable_const
    by_cases h : j = i
    · simp [h]
    · simpa [h] using measurableSet_le (measurable_pi_apply j) (measurable_pi_apply i)
  have hr : ∀ α, MeasurableSet {x : Fin (B + 1) → ℝ | RankRejects .right α x i} := by
    intro α
    have : {x : Fin (B + 1) → ℝ | RankRejects .right α x i} =
        {x | ((∑ j, if x i < x j then (1 : ℝ) else 0)) ≤ α * B} := by
      ext x
      simp only [Set.mem_ofPred_eq, rankRejects_right hB, above, Finset.card_filter]
      push_cast
      rfl
    rw [this]
    apply measurableSet_le _ measurable_const
    refine Finset.measurable_fun_sum _ fun j _ => ?_
    exact Measurable.ite (measurableSet_lt (measurable_pi_apply i) (measurable_pi_apply j))
      measurable_const measurable_const
  cases t with
  | left => exact hl α
  | right => exact hr α
  | twoTailed =>
    simp only [rankRejects_two hB]
    exact (hl _).union (hr _)

theorem rankRejects_perm (hB : 0 < B) (t : AlternativeType) (α : ℝ) (i : Fin (B + 1))
    (s : Equiv.Perm (Fin (B + 1))) (x : Fin (B + 1) → ℝ) :
    RankRejects t α (x ∘ s) i ↔ RankRejects t α x (s i) := by
  have ha : above (x ∘ s) i = above x (s i) := by
    unfold above
    apply Finset.card_bij (fun j _ => s j)
    · intro j hj; simpa using hj
    · intro a _ b _ h; exact s.injective h
    · intro b hb
      exact ⟨s.symm b, by simpa using hb, by simp⟩
  have hb : below (x ∘ s) i = below x (s i) := by
    unfold below
    apply Finset.card_bij (fun j _ => s j)
    · intro j hj; simpa using hj
    · intro a _ b _ h; exact s.injective h
    · intro b hb
      refine ⟨s.symm b, ?_, by simp⟩
      simp only [Finset.mem_filter, Finset.mem_univ, true_and, Function.comp, Equiv.apply_symm_apply] at hb ⊢
      exact ⟨fun e => hb.1 (by rw [← e]; simp), hb.2⟩
  cases t with
  | left => rw [rankRejects_left hB, rankRejects_left hB, hb]
  | right => rw [rankRejects_right hB, rankRejects_right hB, ha]
  | twoTailed =>
    rw [rankRejects_two hB, rankRejects_two hB, rankRejects_left hB, rankRejects_left hB,
      rankRejects_right hB, rankRejects_right hB, ha, hb]

/-- Of `B + 1` symmetric events of independent draws, at most `k` of which happen together, each has
probability at most `k / (B + 1)`. -/
theorem symmetric_bound {S : Type} [MeasurableSpace S] (M : Measure S) [IsProbabilityMeasure M]
    (A : Fin (B + 1) → Set (Fin (B + 1) → S)) (hA : ∀ i, MeasurableSet (A i))
    (hs : ∀ i ω, ω ∘ Equiv.swap 0 i ∈ A 0 ↔ ω ∈ A i) (k : ℕ)
    (hk : ∀ᵐ ω ∂(Measure.pi fun _ : Fin (B + 1) => M),
      ∀ s : Finset (Fin (B + 1)), (∀ i ∈ s, ω ∈ A i) → s.card ≤ k) :
    (Measure.pi fun _ : Fin (B + 1) => M) (A 0) ≤ (k : ENNReal) / (B + 1 : ℕ) := by
  classical
  set μ : Measure (Fin (B + 1) → S) := Measure.pi fun _ => M with hμ
  have hsame : ∀ i, μ (A i) = μ (A 0) := by
    intro i
    have h := measurePreserving_piCongrLeft (α := fun _ : Fin (B + 1) => S) (fun _ => M) (Equiv.swap 0 i)
    have h2 := h.measure_preimage (hA i).nullMeasurableSet
    rw [← hμ] at h2
    rw [← h2]
    congr 1
    ext ω
    rw [Set.mem_preimage, ← hs]
    have : (MeasurableEquiv.piCongrLeft (fun _ : Fin (B + 1) => S) (Equiv.swap 0 i)) ω ∘ Equiv.swap 0 i = ω := by
      funext j
      exact Equiv.piCongrLeft_apply_apply (P := fun _ => S) (Equiv.swap 0 i) ω j
    rw [this]
  have hsum : ∑ i, μ (A i) ≤ (k : ENNReal) := by
    have h2 : ∀ i, μ (A i) = ∫⁻ ω, (A i).indicator (fun _ => 1) ω ∂μ := by
      intro i
      rw [lintegral_indicator_const (hA i), one_mul]
    simp only [h2]
    rw [← lintegral_finsetSum _ (fun i _ => measurable_const.indicator (hA i))]
    calc ∫⁻ ω, ∑ i, (A i).indicator (fun _ => 1) ω ∂μ ≤ ∫⁻ _, (k : ENNReal) ∂μ := by
          apply lintegral_mono_ae
          filter_upwards [hk] with ω hω
          have hc := hω (Finset.univ.filter fun i => ω ∈ A i) (by simp)
          have : ∑ i, (A i).indicator (fun _ => (1 : ENNReal)) ω =
              ((Finset.univ.filter fun i => ω ∈ A i).card : ENNReal) := by
            rw [Finset.card_filter]
            push_cast
            rfl
          rw [this]
          exact_mod_cast hc
      _ = (k : ENNReal) := by rw [lintegral_const, measure_univ, mul_one]
  simp only [hsame] at hsum
  rw [Finset.sum_const, Finset.card_univ, Fintype.card_fin, nsmul_eq_mul] at hsum
  rw [ENNReal.le_div_iff_mul_le (Or.inl (by simp)) (Or.inl (by simp)), mul_comm]
  exact hsum

end Pysatl.Props
