import Verif.Props.ErrorRates
import Verif.Lemmas.Harmonic
import Mathlib.MeasureTheory.Measure.Dirac

/-!
# Property C15 beyond 10000 hypotheses

Above 10000 hypotheses `benjaminiYekutieli` replaces the harmonic number by `log n + 0.577…`,
which is smaller.  The false discovery rate can then exceed the threshold: for every `n` from
10001 to 20000 and every positive threshold up to one half there are p-values, all valid under
their nulls, for which it does.  The excess is at most one part in a hundred thousand.
-/

namespace Pysatl.Props

open MeasureTheory ProbabilityTheory Pysatl.MultipleTesting Pysatl.Spec

variable {n : ℕ}

/-- **C15 (more than 10000 hypotheses), partial.** Under arbitrary dependence, the false
discovery rate of Benjamini-Yekutieli is at most `1.00001 · α · |true nulls| / n`.
Missing: the factor 1, see `C15_refuted_large`. -/
theorem C15_by_fdr_sharp_partial {Ω : Type*} [MeasurableSpace Ω] (μ : Measure Ω)
    [IsProbabilityMeasure μ] (hn : 10000 < n) (P : Ω → Fin n → ℝ)
    (hmeas : ∀ i, Measurable (fun ω => P ω i)) (nulls : Finset (Fin n))
    (hnull : ∀ i ∈ nulls, SuperUniform μ (fun ω => P ω i))
    (α : ℝ) (hα : 0 ≤ α) (hα1 : α ≤ 1) :
    fdr μ (test .benjaminiYekutieli) P nulls α ≤
      ENNReal.ofReal (1.00001 * (α * nulls.card / n)) := by
  refine (by_fdr_general μ P hmeas nulls hnull α hα hα1).trans (ENNReal.ofReal_le_ofReal ?_)
  have hn0 : 0 < n := by omega
  have hc : 0 < byFactor n := zero_lt_one.trans_le (byFactor_ge_one n hn0)
  rw [mul_comm 1.00001]
  refine mul_le_mul_of_nonneg_left ?_ (by positivity)
  rw [div_le_iff₀ hc, byFactor, if_pos hn, harmonicNumber_eq_harmonic]
  have h := harmonic_upper n (by omega)
  have hN : (10000 : ℝ) < n := by exact_mod_cast hn
  have h9 : (9 : ℝ) ≤ Real.log n := by
    rw [Real.le_log_iff_exp_le (by linarith)]
    have h2 : Real.exp 9 = Real.exp 1 ^ 9 := by
      rw [← Real.exp_nat_mul]; norm_num
    rw [h2]
    have h3 : Real.exp 1 ^ 9 ≤ (2.7182818286 : ℝ) ^ 9 :=
      pow_le_pow_left₀ (Real.exp_pos _).le Real.exp_one_lt_d9.le 9
    have h4 : (2.7182818286 : ℝ) ^ 9 ≤ 10000 := by norm_num
    linarith
  have h5 : 1 / (2 * (n : ℝ)) ≤ 0.00005 := by
    rw [div_le_iff₀ (by positivity)]
    norm_num
    linarith
  norm_num at h5 h ⊢
  linarith

/-- Ten thousand and one equal uniform p-values meet the hypotheses. -/
example : 10000 < 10001 ∧
    (∀ i : Fin 10001, Measurable (fun ω : ℝ => (fun (x : ℝ) (_ : Fin 10001) => x) ω i)) ∧
    (∀ i ∈ (Finset.univ : Finset (Fin 10001)),
      SuperUniform unif (fun ω => (fun (x : ℝ) (_ : Fin 10001) => x) ω i)) :=
  ⟨by norm_num, fun _ => measurable_id, fun _ _ => superUniform_unif⟩

/-- The factor of the code is smaller than the harmonic number. -/
theorem byFactor_lt_harmonic (h1 : 10000 < n) (h2 : n ≤ 20000) :
    byFactor n < harmonicNumber n := by
  have h := harmonic_lower n (by omega)
  rw [byFactor, if_pos h1, harmonicNumber_eq_harmonic]
  have hN : (10000 : ℝ) < n := by exact_mod_cast h1
  have hN2 : (n : ℝ) ≤ 20000 := by exact_mod_cast h2
  have h5 : 0.000025 ≤ 1 / (2 * (n : ℝ)) := by
    rw [le_div_iff₀ (by positivity)]
    norm_num
    linarith
  norm_num at h5 h ⊢
  linarith

/-! ### The least favourable p-values

One of the outcomes `(k, r)` is drawn, or none.  At `(k, r)` the `k + 1` p-values from position
`r` on (cyclically) are `(k + 1) s`, where `s` is a little less than `α / (n c)`; all the
others are one. -/

section Worst

variable [NeZero n]

/-- Whether hypothesis `i` is among the `k + 1` from position `r` on. -/
def inWindow (k r i : Fin n) : Prop := i - r ≤ k

instance (k r i : Fin n) : Decidable (inWindow k r i) := by unfold inWindow; infer_instance

/-- What is drawn. -/
inductive Outcome (n : ℕ) where
  | rest
  | window (k r : Fin n)

instance : MeasurableSpace (Outcome n) := ⊤

omit [NeZero n] in
theorem Outcome.measurableSet (S : Set (Outcome n)) : MeasurableSet S :=
  MeasurableSpace.measurableSet_top

/-- The p-values of an outcome. -/
noncomputable def worstP (s : ℝ) : Outcome n → Fin n → ℝ
  | .rest, _ => 1
  | .window k r, i => if inWindow k r i then ((k : ℕ) + 1) * s else 1

/-- The law of the outcome: `(k, r)` has probability `s / (k + 1)`. -/
noncomputable def worstLaw (n : ℕ) (s : ℝ) : Measure (Outcome n) :=
  ENNReal.ofReal (1 - n * s * harmonicNumber n) • Measure.dirac .rest +
    ∑ k : Fin n, ∑ r : Fin n,
      ENNReal.ofReal (s / ((k : ℕ) + 1)) • Measure.dirac (.window k r)

theorem card_window_start (k i : Fin n) :
    (Finset.univ.filter fun r => inWindow k r i).card = (k : ℕ) + 1 := by
  have : (Finset.univ.filter fun r => inWindow k r i).card = (Finset.Iic k).card := by
    refine Finset.card_bij' (fun r _ => i - r) (fun r _ => i - r)
      (fun r hr => Finset.mem_Iic.2 (Finset.mem_filter.1 hr).2)
      (fun r hr => Finset.mem_filter.2 ⟨Finset.mem_univ _, ?_⟩) (fun _ _ => by simp)
      (fun _ _ => by simp)
    simpa [inWindow] using hr
  rw [this, Fin.card_Iic]

theorem card_window (k r : Fin n) :
    (Finset.univ.filter fun i => inWindow k r i).card = (k : ℕ) + 1 := by
  have : (Finset.univ.filter fun i => inWindow k r i).card = (Finset.Iic k).card := by
    refine Finset.card_bij' (fun i _ => i - r) (fun i _ => i + r)
      (fun i hi => Finset.mem_Iic.2 (Finset.mem_filter.1 hi).2)
      (fun i hi => Finset.mem_filter.2 ⟨Finset.mem_univ _, ?_⟩) (fun _ _ => by simp)
      (fun _ _ => by simp)
    simpa [inWindow] using hi
  rw [this, Fin.card_Iic]

omit [NeZero n] in
theorem sum_fin_harmonic : ∑ k : Fin n, (1 : ℝ) / ((k : ℕ) + 1) = harmonicNumber n := by
  rw [harmonicNumber_eq_harmonic, harmonic, Finset.sum_range]
  push_cast
  exact Finset.sum_congr rfl fun k _ => by rw [one_div]

omit [NeZero n] in
theorem worstLaw_mass {s : ℝ} (hs : 0 ≤ s) :
    ∑ k : Fin n, ∑ _r : Fin n, ENNReal.ofReal (s / ((k : ℕ) + 1)) =
      ENNReal.ofReal (n * s * harmonicNumber n) := by
  rw [← sum_fin_harmonic, Finset.mul_sum, ENNReal.ofReal_sum_of_nonneg (fun k _ => by positivity)]
  refine Finset.sum_congr rfl fun k _ => ?_
  rw [Finset.sum_const, Finset.card_univ, Fintype.card_fin, nsmul_eq_mul,
    ← ENNReal.ofReal_natCast, ← ENNReal.ofReal_mul (Nat.cast_nonneg _)]
  congr 1
  ring

omit [NeZero n] in
theorem worstLaw_prob {s : ℝ} (hs : 0 ≤ s) (h1 : n * s * harmonicNumber n ≤ 1) :
    IsProbabilityMeasure (worstLaw n s) := by
  have hH : 0 ≤ harmonicNumber (K := ℝ) n := by
    unfold harmonicNumber
    exact Finset.sum_nonneg fun k _ => by positivity
  constructor
  simp only [worstLaw, Measure.add_apply, Measure.smul_apply, Measure.finsetSum_apply,
    measure_univ, smul_eq_mul, mul_one]
  rw [worstLaw_mass hs, ← ENNReal.ofReal_add (by linarith) (by positivity)]
  simp

theorem worst_superUniform {s : ℝ} (hs : 0 ≤ s) (h1 : n * s * harmonicNumber n ≤ 1) (i : Fin n) :
    SuperUniform (worstLaw n s) (fun ω => worstP s ω i) := by
  have := worstLaw_prob hs h1
  intro t ht
  rcases le_or_gt 1 t with h | h
  · exact prob_le_one.trans (by rw [← ENNReal.ofReal_one]; exact ENNReal.ofReal_le_ofReal h)
  have hD : ∀ ω : Outcome n, Measure.dirac ω {ω | worstP s ω i ≤ t} =
      if worstP s ω i ≤ t then 1 else 0 := by
    intro ω
    rw [Measure.dirac_apply' _ (Outcome.measurableSet _)]
    simp [Set.indicator_apply]
  simp only [worstLaw, Measure.add_apply, Measure.smul_apply, Measure.finsetSum_apply, hD,
    smul_eq_mul]
  rw [if_neg (by show ¬ (1 : ℝ) ≤ t; linarith), mul_zero, zero_add]
  have hin : ∀ k : Fin n, ∑ r : Fin n, ENNReal.ofReal (s / ((k : ℕ) + 1)) *
      (if worstP s (.window k r) i ≤ t then 1 else 0) =
      ENNReal.ofReal (if ((k : ℕ) + 1 : ℝ) * s ≤ t then s else 0) := by
    intro k
    have : ∀ r : Fin n, ENNReal.ofReal (s / ((k : ℕ) + 1)) *
        (if worstP s (.window k r) i ≤ t then 1 else 0) =
        if inWindow k r i then
          ENNReal.ofReal (if ((k : ℕ) + 1 : ℝ) * s ≤ t then s / ((k : ℕ) + 1) else 0) else 0 := by
      intro r
      by_cases hw : inWindow k r i
      · have e : worstP s (.window k r) i = ((k : ℕ) + 1) * s := by simp [worstP, hw]
        rw [e, if_pos hw]
        split_ifs <;> simp
      · have e : worstP s (.window k r) i = 1 := by simp [worstP, hw]
        rw [e, if_neg hw, if_neg (by linarith), mul_zero]
    rw [Finset.sum_congr rfl fun r _ => this r, ← Finset.sum_filter, Finset.sum_const,
      card_window_start, nsmul_eq_mul, ← ENNReal.ofReal_natCast,
      ← ENNReal.ofReal_mul (Nat.cast_nonneg _)]
    congr 1
    split_ifs
    · push_cast
      field_simp
    · simp
  rw [Finset.sum_congr rfl fun k _ => hin k, ← ENNReal.ofReal_sum_of_nonneg
    (fun k _ => by split_ifs <;> simp [hs])]
  refine ENNReal.ofReal_le_ofReal ?_
  rw [← Finset.sum_filter, Finset.sum_const, nsmul_eq_mul]
  set F := Finset.univ.filter fun k : Fin n => ((k : ℕ) + 1 : ℝ) * s ≤ t with hF
  rcases Finset.eq_empty_or_nonempty F with he | hne
  · rw [he]; simpa using ht
  · have hmem := Finset.max'_mem F hne
    have hle : F.card ≤ ((F.max' hne : Fin n) : ℕ) + 1 := by
      rw [← Fin.card_Iic]
      exact Finset.card_le_card fun k hk => Finset.mem_Iic.2 (Finset.le_max' F k hk)
    have h2 := (Finset.mem_filter.1 hmem).2
    have h3 : (F.card : ℝ) ≤ ((F.max' hne : Fin n) : ℕ) + 1 := by exact_mod_cast hle
    exact (mul_le_mul_of_nonneg_right h3 hs).trans h2

omit [NeZero n] in
theorem worst_valid {s : ℝ} (hs : 0 ≤ s) (h1 : n * s ≤ 1) (ω : Outcome n)
    (i : Fin n) : 0 ≤ worstP s ω i ∧ worstP s ω i ≤ 1 := by
  match ω with
  | .rest => simp [worstP]
  | .window k r =>
    have hk : ((k : ℕ) + 1 : ℝ) ≤ n := by exact_mod_cast k.2
    simp only [worstP]
    split_ifs
    · exact ⟨by positivity, (mul_le_mul_of_nonneg_right hk hs).trans h1⟩
    · exact ⟨zero_le_one, le_rfl⟩

theorem worst_rejects {s α : ℝ} (hs : 0 ≤ s) (h1 : n * s ≤ 1) (hα : n * byFactor n * s < α)
    (k r i : Fin n) (hi : inWindow k r i) :
    Rejects (test .benjaminiYekutieli) (worstP s (.window k r)) α i := by
  have hn : 0 < n := i.pos
  have hc : 0 < byFactor n := zero_lt_one.trans_le (byFactor_ge_one n hn)
  rw [rejects_iff _ _ _ _ (worst_valid hs h1 _)]
  simp only [adjFn_by_eq, stepUpFdr, Finset.inf'_lt_iff, Finset.mem_filter,
    Finset.mem_univ, true_and]
  refine ⟨i, le_rfl, (min_le_right _ _).trans_lt ?_⟩
  have hp : worstP s (.window k r) i = ((k : ℕ) + 1) * s := by simp [worstP, hi]
  have hcount : (k : ℕ) + 1 ≤ countLe (worstP s (.window k r)) (worstP s (.window k r) i) := by
    rw [← card_window k r]
    refine Finset.card_le_card fun j hj => ?_
    have hj := (Finset.mem_filter.1 hj).2
    refine Finset.mem_filter.2 ⟨Finset.mem_univ _, ?_⟩
    rw [hp]
    simp [worstP, hj]
  have hcount' : ((k : ℕ) + 1 : ℝ) ≤
      countLe (worstP s (.window k r)) (worstP s (.window k r) i) := by exact_mod_cast hcount
  have hkp : (0 : ℝ) < (k : ℕ) + 1 := by positivity
  rw [div_lt_iff₀ (hkp.trans_le hcount')]
  have hα0 : 0 < α := lt_of_le_of_lt (by positivity) hα
  calc (n : ℝ) * byFactor n * worstP s (.window k r) i =
        (n * byFactor n * s) * ((k : ℕ) + 1) := by rw [hp]; ring
    _ < α * ((k : ℕ) + 1) := mul_lt_mul_of_pos_right hα hkp
    _ ≤ _ := mul_le_mul_of_nonneg_left hcount' hα0.le

theorem worst_fdr {s α : ℝ} (hs : 0 ≤ s) (h1 : n * s ≤ 1) (hα : n * byFactor n * s < α) :
    ENNReal.ofReal (n * s * harmonicNumber n) ≤
      fdr (worstLaw n s) (test .benjaminiYekutieli) (worstP s) Finset.univ α := by
  have hfdp : ∀ k r : Fin n,
      fdp (test .benjaminiYekutieli) (worstP s (.window k r)) Finset.univ α = 1 := by
    intro k r
    classical
    unfold fdp
    have hpos : 0 < (Finset.univ.filter fun i =>
        Rejects (test .benjaminiYekutieli) (worstP s (.window k r)) α i).card := by
      refine Finset.card_pos.2 ⟨r, Finset.mem_filter.2 ⟨Finset.mem_univ _, ?_⟩⟩
      exact worst_rejects hs h1 hα k r r (by simp [inWindow])
    rw [max_eq_right hpos]
    exact div_self (by exact_mod_cast hpos.ne')
  unfold fdr worstLaw
  rw [lintegral_add_measure, lintegral_finsetSum_measure]
  simp only [lintegral_finsetSum_measure, lintegral_smul_measure]
  have hd : ∀ k r : Fin n, ∫⁻ ω, ENNReal.ofReal
      (fdp (test .benjaminiYekutieli) (worstP s ω) Finset.univ α)
        ∂(Measure.dirac (.window k r) : Measure (Outcome n)) = 1 := by
    intro k r
    rw [lintegral_dirac' _ (fun _ _ => Outcome.measurableSet _), hfdp, ENNReal.ofReal_one]
  simp only [hd, smul_eq_mul, mul_one]
  rw [worstLaw_mass hs]
  exact le_add_self

end Worst

/-- **C15 (more than 10000 hypotheses), refuted.** For every number of hypotheses from 10001
to 20000 and every threshold in `(0, 1/2]` there are p-values, each of them valid under its
null, all nulls being true, for which the false discovery rate of Benjamini-Yekutieli exceeds
the threshold. -/
theorem C15_refuted_large (n : ℕ) (h1 : 10000 < n) (h2 : n ≤ 20000) (α : ℝ) (hα : 0 < α)
    (hα1 : α ≤ 1 / 2) :
    ∃ (Ω : Type) (_ : MeasurableSpace Ω) (μ : Measure Ω) (P : Ω → Fin n → ℝ),
      IsProbabilityMeasure μ ∧ (∀ i, Measurable fun ω => P ω i) ∧
      (∀ ω i, 0 ≤ P ω i ∧ P ω i ≤ 1) ∧
      (∀ i, SuperUniform μ fun ω => P ω i) ∧
      ENNReal.ofReal α < fdr μ (test .benjaminiYekutieli) P Finset.univ α := by
  haveI : NeZero n := ⟨by omega⟩
  have hn : (0 : ℝ) < n := by exact_mod_cast (by omega : 0 < n)
  have hc1 := byFactor_ge_one n (by omega)
  have hlt := byFactor_lt_harmonic h1 h2
  have hup : harmonicNumber n ≤ byFactor n * 2 := by
    rw [harmonicNumber_eq_harmonic]
    have h := harmonic_upper n (by omega)
    have hb : byFactor n = Real.log n + 0.5772156649015328606065120900824024310421 := by
      rw [byFactor, if_pos h1]
    have h5 : 1 / (2 * (n : ℝ)) ≤ 0.5 := by
      rw [div_le_iff₀ (by positivity)]
      have : (1 : ℝ) ≤ n := by exact_mod_cast (by omega : 1 ≤ n)
      norm_num
      linarith
    norm_num at h h5 hb
    linarith
  set c := byFactor n with hcdef
  set H : ℝ := harmonicNumber n with hHdef
  have hc : 0 < c := by linarith
  have hH : 0 < H := by linarith
  -- a little less than `α / (n c)`
  obtain ⟨s, hs, hsα, hsH⟩ : ∃ s : ℝ, 0 ≤ s ∧ n * c * s < α ∧ α < n * s * H := by
    refine ⟨α * ((1 / c + 1 / H) / 2) / n, by positivity, ?_, ?_⟩
    · have : (n : ℝ) * c * (α * ((1 / c + 1 / H) / 2) / n) = α * ((1 + c / H) / 2) := by
        field_simp
      rw [this]
      have : c / H < 1 := (div_lt_one hH).2 hlt
      nlinarith
    · have : (n : ℝ) * (α * ((1 / c + 1 / H) / 2) / n) * H = α * ((H / c + 1) / 2) := by
        field_simp
      rw [this]
      have : 1 < H / c := (one_lt_div hc).2 hlt
      nlinarith
  have hns : (n : ℝ) * s * c < 1 / 2 := by nlinarith
  have hnsH : (n : ℝ) * s * H ≤ 1 := by
    have : 0 ≤ (n : ℝ) * s := by positivity
    nlinarith
  have hns1 : (n : ℝ) * s ≤ 1 := by
    have : 0 ≤ (n : ℝ) * s := by positivity
    nlinarith
  exact ⟨Outcome n, inferInstance, worstLaw n s, worstP s, worstLaw_prob hs hnsH,
    fun _ _ _ => Outcome.measurableSet _, worst_valid hs hns1, worst_superUniform hs hnsH,
    lt_of_lt_of_le ((ENNReal.ofReal_lt_ofReal_iff (by linarith)).2 hsH) (worst_fdr hs hns1 hsα)⟩

/-- At the usual level of one in twenty, with 10001 hypotheses. -/
example : ∃ (Ω : Type) (_ : MeasurableSpace Ω) (μ : Measure Ω) (P : Ω → Fin 10001 → ℝ),
    IsProbabilityMeasure μ ∧ (∀ i, SuperUniform μ fun ω => P ω i) ∧
    ENNReal.ofReal (1 / 20) < fdr μ (test .benjaminiYekutieli) P Finset.univ (1 / 20) := by
  obtain ⟨Ω, m, μ, P, h1, _, _, h2, h3⟩ :=
    C15_refuted_large 10001 (by norm_num) (by norm_num) (1 / 20) (by norm_num) (by norm_num)
  exact ⟨Ω, m, μ, P, h1, h2, h3⟩

end Pysatl.Props
