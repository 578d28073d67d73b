import Verif.Props.Decision
import Mathlib.MeasureTheory.Integral.Lebesgue.Countable
import Mathlib.MeasureTheory.Constructions.Pi
import Mathlib.MeasureTheory.Constructions.BorelSpace.Order
import Mathlib.Data.Fintype.Perm
import Mathlib.MeasureTheory.Measure.Dirac
import Mathlib.Tactic.FinCases

/-!
# Property C20: level of the Monte Carlo p-value test
-/

namespace Pysatl.Props

open Pysatl.Decision Pysatl.Spec MeasureTheory

section Counting

variable {K : Type} [Field K] [LinearOrder K] [IsStrictOrderedRing K] [FloorSemiring K]

/-- Value `i` of `B + 1` values is taken as the observed one, the others as the simulated
limit distribution; the right-tailed p-value method rejects at level `α`. -/
def RejectsAt {B : ℕ} (x : Fin (B + 1) → K) (α : K) (i : Fin (B + 1)) : Prop :=
  ∃ p, rightPValue (List.ofFn fun j : Fin B => x (i.succAbove j)) (x i) = .ok p ∧ p ≤ α

/-- How many of the values exceed value `i`. -/
def above {B : ℕ} (x : Fin (B + 1) → K) (i : Fin (B + 1)) : ℕ :=
  (Finset.univ.filter (fun j => x i < x j)).card

theorem countP_ofFn {n : ℕ} (g : Fin n → K) (q : K → Bool) :
    (List.ofFn g).countP q = ∑ j, if q (g j) = true then 1 else 0 := by
  induction n with
  | zero => simp
  | succ n ih =>
    rw [List.ofFn_succ, List.countP_cons, Fin.sum_univ_succ, ih, add_comm]

theorem fracGt_others {B : ℕ} (x : Fin (B + 1) → K) (i : Fin (B + 1)) :
    fracGt (List.ofFn fun j : Fin B => x (i.succAbove j)) (x i) = (above x i : K) / B := by
  unfold fracGt above
  rw [List.length_ofFn]
  congr 2
  rw [← List.countP_eq_length_filter, Finset.card_filter, Fin.sum_univ_succAbove _ i, countP_ofFn]
  simp

theorem rejectsAt_iff {B : ℕ} (hB : 0 < B) (x : Fin (B + 1) → K) (α : K) (i : Fin (B + 1)) :
    RejectsAt x α i ↔ (above x i : K) ≤ α * B := by
  have hB' : (0 : K) < B := by exact_mod_cast hB
  have hne : (List.ofFn fun j : Fin B => x (i.succAbove j)) ≠ [] := by
    rw [Ne, List.ofFn_eq_nil_iff]; omega
  unfold RejectsAt
  rw [rightPValue_eq hne, fracGt_others]
  simp only [Except.ok.injEq]
  constructor
  · rintro ⟨p, rfl, hp⟩
    rwa [div_le_iff₀ hB'] at hp
  · intro h
    exact ⟨_, rfl, by rwa [div_le_iff₀ hB']⟩

/-- **C20, refuted (ties).** Four equal values: each of them, taken as the observed one, is
rejected at level 0. -/
theorem C20_refuted_ties : ∀ i : Fin 4, RejectsAt (fun _ : Fin 4 => (5 : ℚ)) 0 i := by
  intro i
  rw [rejectsAt_iff (by norm_num)]
  simp [above]

/-- **C20, refuted (no ties).** Of the three distinct values 1, 2, 3 one is rejected at level
1/20, more than `1/20 · 3`. -/
theorem C20_refuted : RejectsAt ![(1 : ℚ), 2, 3] (1 / 20) 2 ∧ ¬ ((1 : ℚ) ≤ 1 / 20 * 3) := by
  constructor
  · rw [rejectsAt_iff (by norm_num)]
    have : above ![(1 : ℚ), 2, 3] 2 = 0 := by decide +kernel
    rw [this]
    norm_num
  · norm_num

theorem above_injective {B : ℕ} {x : Fin (B + 1) → K} (hx : Function.Injective x) :
    Function.Injective (above x) := by
  have hlt : ∀ i j, x i < x j → above x j < above x i := by
    intro i j h
    apply Finset.card_lt_card
    rw [Finset.ssubset_iff_of_subset]
    · exact ⟨j, by simpa using h, by simp⟩
    · intro k hk
      simp only [Finset.mem_filter, Finset.mem_univ, true_and] at hk ⊢
      exact h.trans hk
  intro i j h
  rcases lt_trichotomy (x i) (x j) with h1 | h1 | h1
  · exact absurd h (hlt i j h1).ne'
  · exact hx h1
  · exact absurd h (hlt j i h1).ne

theorem above_le {B : ℕ} (x : Fin (B + 1) → K) (i : Fin (B + 1)) : above x i ≤ B := by
  have : above x i < (Finset.univ : Finset (Fin (B + 1))).card := by
    apply Finset.card_lt_card
    rw [Finset.ssubset_iff_of_subset (Finset.subset_univ _)]
    exact ⟨i, Finset.mem_univ _, by simp⟩
  rw [Finset.card_univ, Fintype.card_fin] at this
  omega

open Classical in
/-- **C20, what holds (counting).** Among `B + 1` distinct values, exactly
`⌊αB⌋ + 1` are rejected when each in turn is taken as the observed one (`0 ≤ α < 1`).
Missing: the bound `α (B+1)`, false by `C20_refuted`, and the case of ties, where no
nontrivial bound holds (`C20_refuted_ties`). -/
theorem C20_count_partial {B : ℕ} (hB : 0 < B) (x : Fin (B + 1) → K) (hx : Function.Injective x) (α : K)
    (h0 : 0 ≤ α) (h1 : α < 1) :
    (Finset.univ.filter (fun i => RejectsAt x α i)).card = ⌊α * B⌋₊ + 1 := by
  have hB' : (0 : K) < B := by exact_mod_cast hB
  have hnn : 0 ≤ α * B := by positivity
  have hfl : ⌊α * B⌋₊ < B := by
    rw [Nat.floor_lt hnn]
    exact mul_lt_of_lt_one_left hB' h1
  have himg : Finset.univ.image (above x) = Finset.range (B + 1) := by
    apply Finset.eq_of_subset_of_card_le
    · intro k hk
      obtain ⟨i, _, rfl⟩ := Finset.mem_image.1 hk
      rw [Finset.mem_range]
      exact Nat.lt_succ_of_le (above_le x i)
    · rw [Finset.card_image_of_injective _ (above_injective hx)]
      simp
  rw [← Finset.card_range (⌊α * B⌋₊ + 1), ← Finset.card_image_of_injective _ (above_injective hx)]
  congr 1
  ext k
  simp only [Finset.mem_image, Finset.mem_filter, Finset.mem_univ, true_and, Finset.mem_range,
    rejectsAt_iff hB]
  constructor
  · rintro ⟨i, hi, rfl⟩
    exact Nat.lt_succ_of_le (Nat.le_floor hi)
  · intro hk
    have : k ∈ Finset.univ.image (above x) := by
      rw [himg, Finset.mem_range]; omega
    obtain ⟨i, _, rfl⟩ := Finset.mem_image.1 this
    exact ⟨i, (Nat.le_floor_iff hnn).1 (Nat.le_of_lt_succ hk), rfl⟩

example : Function.Injective ![(1 : ℚ), 2, 3, 7, 4] := by decide

end Counting

section Probability

variable {Ω : Type*} [MeasurableSpace Ω]

theorem rejects_measurable {B : ℕ} (hB : 0 < B) (α : ℝ) (i : Fin (B + 1)) :
    MeasurableSet {x : Fin (B + 1) → ℝ | RejectsAt x α i} := by
  have : {x : Fin (B + 1) → ℝ | RejectsAt x α i} =
      {x | ((∑ j, if x i < x j then (1 : ℝ) else 0)) ≤ α * B} := by
    ext x
    simp only [Set.mem_ofPred_eq, rejectsAt_iff hB, above, Finset.card_filter]
    push_cast
    rfl
  rw [this]
  apply measurableSet_le _ measurable_const
  refine Finset.measurable_fun_sum _ fun j _ => ?_
  exact Measurable.ite (measurableSet_lt (measurable_pi_apply i) (measurable_pi_apply j))
    measurable_const measurable_const

theorem rejects_perm {B : ℕ} (hB : 0 < B) (α : ℝ) (i : Fin (B + 1)) (s : Equiv.Perm (Fin (B + 1)))
    (x : Fin (B + 1) → ℝ) : RejectsAt (x ∘ s) α i ↔ RejectsAt x α (s i) := by
  rw [rejectsAt_iff hB, rejectsAt_iff hB]
  have : above (x ∘ s) i = above x (s i) := by
    unfold above
    apply Finset.card_bij (fun j _ => s j)
    · intro j hj; simpa using hj
    · intro a _ b _ h; exact s.injective h
    · intro b hb
      exact ⟨s.symm b, by simpa using hb, by simp⟩
  rw [this]

/-- **C20, what holds (probability).** Let `X 0` be the observed statistic and `X 1, …, X B`
the simulated ones, exchangeable and almost surely without ties.  Then the right-tailed
p-value method rejects at level `α` with probability at most `(⌊αB⌋ + 1)/(B + 1)`. -/
theorem C20_level_partial {B : ℕ} (hB : 0 < B) (μ : Measure Ω) [IsProbabilityMeasure μ]
    (X : Ω → Fin (B + 1) → ℝ) (hX : Measurable X)
    (hex : ∀ s : Equiv.Perm (Fin (B + 1)), μ.map (fun ω => X ω ∘ s) = μ.map X)
    (hties : ∀ᵐ ω ∂μ, Function.Injective (X ω)) (α : ℝ) (h0 : 0 ≤ α) (h1 : α < 1) :
    μ {ω | ∃ p, rightPValue (List.ofFn fun j : Fin B => X ω j.succ) (X ω 0) = .ok p ∧ p ≤ α} ≤
      ENNReal.ofReal ((⌊α * B⌋₊ + 1 : ℕ) / (B + 1 : ℕ)) := by
  classical
  set A : Fin (B + 1) → Set Ω := fun i => {ω | RejectsAt (X ω) α i} with hA
  have hAm : ∀ i, MeasurableSet (A i) := fun i => hX (rejects_measurable hB α i)
  have hset : {ω | ∃ p, rightPValue (List.ofFn fun j : Fin B => X ω j.succ) (X ω 0) = .ok p ∧ p ≤ α} = A 0 := by
    ext ω
    simp only [hA, Set.mem_ofPred_eq, RejectsAt, Fin.zero_succAbove]
  have hsame : ∀ i, μ (A i) = μ (A 0) := by
    intro i
    have hms := rejects_measurable (B := B) hB α 0
    have hXs : Measurable (fun ω => X ω ∘ Equiv.swap 0 i) :=
      measurable_pi_lambda _ fun j => (measurable_pi_apply _).comp hX
    have := congrArg (fun ν => ν {x : Fin (B + 1) → ℝ | RejectsAt x α 0}) (hex (Equiv.swap 0 i))
    rw [Measure.map_apply hXs hms, Measure.map_apply hX hms] at this
    rw [show A 0 = X ⁻¹' {x | RejectsAt x α 0} from rfl, ← this]
    congr 1
    ext ω
    simp only [hA, Set.mem_ofPred_eq, Set.mem_preimage, rejects_perm hB, Equiv.swap_apply_left]
  have hsum : ∑ i, μ (A i) ≤ ((⌊α * B⌋₊ + 1 : ℕ) : ENNReal) := by
    have h2 : ∀ i, μ (A i) = ∫⁻ ω, (A i).indicator (fun _ => 1) ω ∂μ := by
      intro i
      rw [lintegral_indicator_const (hAm i), one_mul]
    simp only [h2]
    rw [← lintegral_finsetSum _ (fun i _ => measurable_const.indicator (hAm i))]
    calc ∫⁻ ω, ∑ i, (A i).indicator (fun _ => 1) ω ∂μ
        ≤ ∫⁻ _, ((⌊α * B⌋₊ + 1 : ℕ) : ENNReal) ∂μ := by
          apply lintegral_mono_ae
          filter_upwards [hties] with ω hω
          have hc := C20_count_partial hB (X ω) hω α h0 h1
          rw [← hc, Finset.card_filter]
          push_cast
          apply Finset.sum_le_sum
          intro i _
          simp only [hA, Set.indicator_apply, Set.mem_ofPred_eq]
          split_ifs <;> simp
      _ = ((⌊α * B⌋₊ + 1 : ℕ) : ENNReal) := by
          rw [lintegral_const, measure_univ, mul_one]
  simp only [hsame] at hsum
  rw [Finset.sum_const, Finset.card_univ, Fintype.card_fin, nsmul_eq_mul] at hsum
  rw [hset, ENNReal.ofReal_div_of_pos (by positivity), ENNReal.ofReal_natCast, ENNReal.ofReal_natCast,
    ENNReal.le_div_iff_mul_le (Or.inl (by simp)) (Or.inl (by simp)), mul_comm]
  exact hsum

/-- A fair coin decides which of two values is the observed one: exchangeable, without ties. -/
noncomputable def coin : Measure (Fin 2) := (2 : ENNReal)⁻¹ • Measure.dirac 0 + (2 : ENNReal)⁻¹ • Measure.dirac 1

def coinX (ω : Fin 2) (i : Fin 2) : ℝ := if ω = i then 0 else 1

/-- The hypotheses of the probability form of C20 are met by the coin. -/
example : coin Set.univ = 1 ∧ Measurable coinX ∧
    (∀ s : Equiv.Perm (Fin 2), coin.map (fun ω => coinX ω ∘ s) = coin.map coinX) ∧
    (∀ᵐ ω ∂coin, Function.Injective (coinX ω)) := by
  refine ⟨?_, measurable_of_countable _, ?_, Filter.Eventually.of_forall ?_⟩
  · simp [coin, ENNReal.inv_two_add_inv_two]
  · intro s
    have hs : s = 1 ∨ s = Equiv.swap 0 1 := by revert s; decide
    have hm : ∀ f : Fin 2 → (Fin 2 → ℝ), coin.map f =
        (2 : ENNReal)⁻¹ • Measure.dirac (f 0) + (2 : ENNReal)⁻¹ • Measure.dirac (f 1) := by
      intro f
      rw [coin, Measure.map_add _ _ (measurable_of_countable f), Measure.map_smul, Measure.map_smul,
        Measure.map_dirac' (measurable_of_countable f), Measure.map_dirac' (measurable_of_countable f)]
    rcases hs with rfl | rfl
    · rfl
    · rw [hm, hm, add_comm]
      congr 3 <;>
      · funext i
        fin_cases i <;> simp [coinX]
  · intro ω i j h
    fin_cases ω <;> fin_cases i <;> fin_cases j <;> simp [coinX] at h ⊢

end Probability

end Pysatl.Props
