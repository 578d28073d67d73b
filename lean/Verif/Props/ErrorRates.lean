import Verif.Props.MultipleTesting
import Mathlib.Probability.Independence.Basic
import Mathlib.MeasureTheory.Measure.Lebesgue.Basic
import Mathlib.MeasureTheory.Integral.Lebesgue.Countable
import Mathlib.NumberTheory.Harmonic.EulerMascheroni

/-!
# Properties C07, C08, C11, C15: error rates of the multiple-testing corrections

The p-values are random variables `P ω i` on an arbitrary probability space; the
procedure under study is the whole `test` function of the model.
-/

namespace Pysatl.Props

open MeasureTheory ProbabilityTheory Pysatl.MultipleTesting Pysatl.Spec

variable {Ω : Type*} [MeasurableSpace Ω] {n : ℕ}

/-- **C07.** Under arbitrary dependence, Bonferroni's family-wise error rate is at most the
threshold: more precisely at most `α · (number of true nulls) / (number of hypotheses)`. -/
theorem C07_bonferroni_fwer (μ : Measure Ω) [IsProbabilityMeasure μ] (P : Ω → Fin n → ℝ)
    (nulls : Finset (Fin n)) (hnull : ∀ i ∈ nulls, SuperUniform μ (fun ω => P ω i))
    (α : ℝ) (hα : 0 ≤ α) (hα1 : α ≤ 1) :
    fwer μ (test .bonferroni) P nulls α ≤ ENNReal.ofReal (α * nulls.card / n) ∧
    fwer μ (test .bonferroni) P nulls α ≤ ENNReal.ofReal α := by
  have key : fwer μ (test .bonferroni) P nulls α ≤ ENNReal.ofReal (α * nulls.card / n) := by
    have hsub : {ω | ∃ i ∈ nulls, Rejects (test .bonferroni) (P ω) α i} ⊆
        ⋃ i ∈ nulls, {ω | P ω i ≤ α / n} := by
      rintro ω ⟨i, hi, hr⟩
      simp only [Set.mem_iUnion]
      refine ⟨i, hi, ?_⟩
      have hv := rejects_valid hr
      rw [rejects_iff _ _ _ _ hv] at hr
      simp only [adjFn] at hr
      have hn : (0 : ℝ) < n := by exact_mod_cast i.pos
      rw [Set.mem_ofPred_eq, le_div_iff₀ hn]
      rcases min_lt_iff.1 hr with h | h
      · exact h.le
      · exact absurd hα1 (not_le.2 h)
    calc fwer μ (test .bonferroni) P nulls α
        ≤ μ (⋃ i ∈ nulls, {ω | P ω i ≤ α / n}) := measure_mono hsub
      _ ≤ ∑ i ∈ nulls, μ {ω | P ω i ≤ α / n} := measure_biUnion_finset_le _ _
      _ ≤ ∑ _i ∈ nulls, ENNReal.ofReal (α / n) :=
          Finset.sum_le_sum fun i hi => hnull i hi _ (by positivity)
      _ = ENNReal.ofReal (α * nulls.card / n) := by
          rw [Finset.sum_const, nsmul_eq_mul, ← ENNReal.ofReal_natCast,
            ← ENNReal.ofReal_mul (by positivity)]
          congr 1
          ring
  refine ⟨key, key.trans (ENNReal.ofReal_le_ofReal ?_)⟩
  rcases Nat.eq_zero_or_pos n with rfl | hn
  · simpa using hα
  · have hn' : (0 : ℝ) < n := by exact_mod_cast hn
    rw [div_le_iff₀ hn']
    refine mul_le_mul_of_nonneg_left ?_ hα
    have := Finset.card_le_univ nulls
    rw [Fintype.card_fin] at this
    exact_mod_cast this

/-- The uniform distribution on `[0,1]` as a concrete probability space. -/
noncomputable abbrev unif : Measure ℝ := volume.restrict (Set.Icc 0 1)

instance : IsProbabilityMeasure unif := ⟨by simp [unif]⟩

theorem superUniform_unif : SuperUniform unif (fun ω => ω) := by
  intro t ht
  have : {ω : ℝ | ω ≤ t} = Set.Iic t := rfl
  rw [this, Measure.restrict_apply measurableSet_Iic]
  have hsub : Set.Iic t ∩ Set.Icc 0 1 ⊆ Set.Icc 0 t := fun x hx => ⟨hx.2.1, hx.1⟩
  refine (measure_mono hsub).trans ?_
  rw [Real.volume_Icc, sub_zero]

/-- Two perfectly dependent uniform p-values satisfy the hypotheses of C07. -/
example : ∀ i ∈ (Finset.univ : Finset (Fin 2)),
    SuperUniform unif (fun ω => (fun (x : ℝ) (_ : Fin 2) => x) ω i) :=
  fun _ _ => superUniform_unif

/-- Threshold form of the Sidak rejection rule. -/
theorem sidak_rejects_le {p : Fin n → ℝ} {α : ℝ} (hα1 : α ≤ 1) {i : Fin n}
    (hr : Rejects (test .sidak) p α i) : p i ≤ 1 - (1 - α) ^ ((n : ℝ)⁻¹) := by
  have hv := rejects_valid hr
  rw [rejects_iff _ _ _ _ hv] at hr
  simp only [adjFn] at hr
  have h1 : 1 - α ≤ (1 - p i) ^ n := by linarith
  have h2 : (1 - α) ^ ((n : ℝ)⁻¹) ≤ ((1 - p i) ^ n) ^ ((n : ℝ)⁻¹) :=
    Real.rpow_le_rpow (by linarith) h1 (by positivity)
  rw [Real.pow_rpow_inv_natCast (by linarith [(hv i).2]) i.pos.ne'] at h2
  linarith

theorem sidak_union (μ : Measure Ω) [IsProbabilityMeasure μ] (P : Ω → Fin n → ℝ)
    (hmeas : ∀ i, Measurable (fun ω => P ω i)) (nulls : Finset (Fin n))
    (hnull : ∀ i ∈ nulls, SuperUniform μ (fun ω => P ω i))
    (hindep : iIndepFun (fun (i : Fin n) ω => P ω i) μ) (t : ℝ) (ht : 0 ≤ t) (ht1 : t ≤ 1) :
    μ (⋃ i ∈ nulls, {ω | P ω i ≤ t}) ≤ ENNReal.ofReal (1 - (1 - t) ^ nulls.card) := by
  have hms : ∀ i, MeasurableSet {ω | P ω i ≤ t} := fun i => measurableSet_le (hmeas i) measurable_const
  have hU : MeasurableSet (⋃ i ∈ nulls, {ω | P ω i ≤ t}) :=
    Finset.measurableSet_biUnion _ (fun i _ => hms i)
  have hcompl : (⋃ i ∈ nulls, {ω | P ω i ≤ t})ᶜ = ⋂ i ∈ nulls, (fun ω => P ω i) ⁻¹' (Set.Ioi t) := by
    ext ω; simp
  have hprod : μ (⋂ i ∈ nulls, (fun ω => P ω i) ⁻¹' (Set.Ioi t)) =
      ∏ i ∈ nulls, μ ((fun ω => P ω i) ⁻¹' (Set.Ioi t)) :=
    hindep.measure_inter_preimage_eq_mul nulls (fun i _ => measurableSet_Ioi)
  have hge : ENNReal.ofReal ((1 - t) ^ nulls.card) ≤ μ (⋃ i ∈ nulls, {ω | P ω i ≤ t})ᶜ := by
    rw [hcompl, hprod, ENNReal.ofReal_pow (by linarith), ← Finset.prod_const]
    apply Finset.prod_le_prod'
    intro i hi
    have : (fun ω => P ω i) ⁻¹' (Set.Ioi t) = {ω | P ω i ≤ t}ᶜ := by ext ω; simp
    rw [this, prob_compl_eq_one_sub (hms i), ENNReal.ofReal_sub _ ht, ENNReal.ofReal_one]
    exact tsub_le_tsub_left (hnull i hi t ht) _
  have h1 := prob_compl_eq_one_sub (μ := μ) hU
  rw [ENNReal.ofReal_sub _ (by positivity), ENNReal.ofReal_one]
  have h2 : μ (⋃ i ∈ nulls, {ω | P ω i ≤ t}) = 1 - μ (⋃ i ∈ nulls, {ω | P ω i ≤ t})ᶜ := by
    rw [h1, ENNReal.sub_sub_cancel ENNReal.one_ne_top prob_le_one]
  rw [h2]
  exact tsub_le_tsub_left hge _

/-- **C08.** When the p-values are independent, the Sidak correction's family-wise error
rate is at most the threshold. -/
theorem C08_sidak_fwer (μ : Measure Ω) [IsProbabilityMeasure μ] (P : Ω → Fin n → ℝ)
    (hmeas : ∀ i, Measurable (fun ω => P ω i)) (nulls : Finset (Fin n))
    (hnull : ∀ i ∈ nulls, SuperUniform μ (fun ω => P ω i))
    (hindep : iIndepFun (fun (i : Fin n) ω => P ω i) μ)
    (α : ℝ) (hα : 0 ≤ α) (hα1 : α ≤ 1) :
    fwer μ (test .sidak) P nulls α ≤ ENNReal.ofReal α := by
  rcases Nat.eq_zero_or_pos n with rfl | hn
  · have : {ω | ∃ i ∈ nulls, Rejects (test .sidak) (P ω) α i} = ∅ := by
      ext ω; simp only [Set.mem_ofPred_eq, Set.mem_empty_iff_false, iff_false]
      rintro ⟨i, _⟩; exact i.elim0
    simp [fwer, this]
  have hn' : (n : ℝ) ≠ 0 := by exact_mod_cast hn.ne'
  set t : ℝ := 1 - (1 - α) ^ ((n : ℝ)⁻¹) with htdef
  have ha0 : 0 ≤ 1 - α := by linarith
  have hr1 : (1 - α) ^ ((n : ℝ)⁻¹) ≤ 1 := Real.rpow_le_one ha0 (by linarith) (by positivity)
  have hr0 : 0 ≤ (1 - α) ^ ((n : ℝ)⁻¹) := Real.rpow_nonneg ha0 _
  have ht : 0 ≤ t := by linarith
  have ht1 : t ≤ 1 := by linarith
  have hsub : {ω | ∃ i ∈ nulls, Rejects (test .sidak) (P ω) α i} ⊆ ⋃ i ∈ nulls, {ω | P ω i ≤ t} := by
    rintro ω ⟨i, hi, hr⟩
    simp only [Set.mem_iUnion]
    exact ⟨i, hi, sidak_rejects_le hα1 hr⟩
  refine (measure_mono hsub).trans ((sidak_union μ P hmeas nulls hnull hindep t ht ht1).trans ?_)
  apply ENNReal.ofReal_le_ofReal
  have hcard : nulls.card ≤ n := by simpa using Finset.card_le_univ nulls
  have h1 : (1 - t) ^ n ≤ (1 - t) ^ nulls.card :=
    pow_le_pow_of_le_one (by linarith) (by linarith) hcard
  have h2 : (1 - t) ^ n = 1 - α := by
    rw [htdef, sub_sub_cancel, Real.rpow_inv_natCast_pow ha0 hn.ne']
  linarith

/-- **C08 for the Sidak-Holm class**, which rejects exactly what Sidak rejects. -/
theorem C08_sidakHolm_fwer (μ : Measure Ω) [IsProbabilityMeasure μ] (P : Ω → Fin n → ℝ)
    (hmeas : ∀ i, Measurable (fun ω => P ω i)) (nulls : Finset (Fin n))
    (hnull : ∀ i ∈ nulls, SuperUniform μ (fun ω => P ω i))
    (hindep : iIndepFun (fun (i : Fin n) ω => P ω i) μ)
    (α : ℝ) (hα : 0 ≤ α) (hα1 : α ≤ 1) :
    fwer μ (test .sidakHolm) P nulls α ≤ ENNReal.ofReal α := by
  refine le_trans (measure_mono ?_) (C08_sidak_fwer μ P hmeas nulls hnull hindep α hα hα1)
  rintro ω ⟨i, hi, hr⟩
  refine ⟨i, hi, ?_⟩
  have hv := rejects_valid hr
  rw [rejects_iff _ _ _ _ hv] at hr ⊢
  refine lt_of_le_of_lt (le_of_eq ?_) hr
  exact (min_eq_right (adjFn_ge .sidak (P ω) hv i).2).symm

/-- Three independent uniform p-values satisfy the hypotheses of C08. -/
example : ∃ (μ : Measure (Fin 3 → ℝ)) (_ : IsProbabilityMeasure μ) (P : (Fin 3 → ℝ) → Fin 3 → ℝ),
    (∀ i, Measurable (fun ω => P ω i)) ∧ (∀ i ∈ Finset.univ, SuperUniform μ (fun ω => P ω i)) ∧
    iIndepFun (fun (i : Fin 3) ω => P ω i) μ := by
  refine ⟨Measure.pi (fun _ => unif), inferInstance, fun ω => ω, fun i => measurable_pi_apply i, ?_, ?_⟩
  · intro i _ t ht
    have h := (measurePreserving_eval (fun _ : Fin 3 => unif) i).measure_preimage
      (measurableSet_Iic (a := t)).nullMeasurableSet
    exact h.trans_le (superUniform_unif t ht)
  · exact iIndepFun_pi (X := fun _ x => x) (fun _ => aemeasurable_id)

/-! ### C11 -/

/-- A four-point probability space: three outcomes of probability 1/50, one of 47/50. -/
noncomputable def four : Measure (Fin 4) :=
  ENNReal.ofReal (1 / 50) • Measure.dirac 0 + ENNReal.ofReal (1 / 50) • Measure.dirac 1 +
  ENNReal.ofReal (1 / 50) • Measure.dirac 2 + ENNReal.ofReal (47 / 50) • Measure.dirac 3

/-- Two p-values on it. -/
def fourP : Fin 4 → Fin 2 → ℝ :=
  ![![0.02, 1], ![1, 0.02], ![0.04, 0.04], ![1, 1]]

open Classical in
theorem four_apply (s : Set (Fin 4)) : four s = ENNReal.ofReal
    ((if 0 ∈ s then 1 / 50 else 0) + (if 1 ∈ s then 1 / 50 else 0) +
      (if 2 ∈ s then 1 / 50 else 0) + (if 3 ∈ s then 47 / 50 else 0)) := by
  have h : ∀ (x : Fin 4), (Measure.dirac x : Measure (Fin 4)) s = if x ∈ s then 1 else 0 := by
    intro x
    rw [Measure.dirac_apply]
    by_cases hx : x ∈ s <;> simp [hx]
  simp only [four, Measure.add_apply, Measure.smul_apply, h, smul_eq_mul, mul_ite, mul_one, mul_zero]
  rw [ENNReal.ofReal_add (by positivity) (by positivity), ENNReal.ofReal_add (by positivity) (by positivity),
    ENNReal.ofReal_add (by positivity) (by positivity)]
  split_ifs <;> simp

instance : IsProbabilityMeasure four := ⟨by rw [four_apply]; norm_num⟩

theorem four_superUniform (i : Fin 2) : SuperUniform four (fun ω => fourP ω i) := by
  intro t ht
  rw [four_apply]
  apply ENNReal.ofReal_le_ofReal
  have e00 : fourP 0 0 = 0.02 := rfl
  have e10 : fourP 1 0 = 1 := rfl
  have e20 : fourP 2 0 = 0.04 := rfl
  have e30 : fourP 3 0 = 1 := rfl
  have e01 : fourP 0 1 = 1 := rfl
  have e11 : fourP 1 1 = 0.02 := rfl
  have e21 : fourP 2 1 = 0.04 := rfl
  have e31 : fourP 3 1 = 1 := rfl
  fin_cases i
  · simp only [Set.mem_ofPred_eq, Fin.zero_eta, e00, e10, e20, e30]
    norm_num
    split_ifs <;> linarith
  · simp only [Set.mem_ofPred_eq, Fin.mk_one, e01, e11, e21, e31]
    norm_num
    split_ifs <;> linarith

/-- **C11, refuted.** The Holm class does not control the family-wise error rate under
arbitrary dependence: two valid p-values, both nulls true, threshold 0.05, and the
probability of a false rejection is 0.06. -/
theorem C11_refuted :
    (∀ i, SuperUniform four (fun ω => fourP ω i)) ∧
    fwer four (test .holm) fourP Finset.univ 0.05 = ENNReal.ofReal 0.06 ∧
    ¬ fwer four (test .holm) fourP Finset.univ 0.05 ≤ ENNReal.ofReal 0.05 := by
  have hv : ∀ ω i, 0 ≤ fourP ω i ∧ fourP ω i ≤ 1 := by
    intro ω i; fin_cases ω <;> fin_cases i <;> simp only [fourP] <;> norm_num
  have hgt : ∀ (p : Fin 2 → ℝ) x, countGt p x = (if x < p 0 then 1 else 0) + (if x < p 1 then 1 else 0) := by
    intro p x
    rw [countGt, Finset.card_filter, Fin.sum_univ_two]
  have hrej : ∀ ω, (∃ i ∈ (Finset.univ : Finset (Fin 2)), Rejects (test .holm) (fourP ω) 0.05 i) ↔ ω ≠ 3 := by
    intro ω
    simp only [rejects_iff _ _ _ _ (hv ω), adjFn_holm_eq_hochberg, hochberg, Finset.inf'_lt_iff,
      Finset.mem_filter, Finset.mem_univ, true_and, hgt, Fin.exists_fin_two]
    fin_cases ω <;> simp only [fourP] <;> norm_num <;> decide
  have hval : fwer four (test .holm) fourP Finset.univ 0.05 = ENNReal.ofReal 0.06 := by
    rw [fwer, four_apply]
    simp only [Set.mem_ofPred_eq, hrej]
    rw [if_pos (by decide), if_pos (by decide), if_pos (by decide), if_neg (by decide)]
    norm_num
  refine ⟨four_superUniform, hval, ?_⟩
  rw [hval, ENNReal.ofReal_le_ofReal_iff (by norm_num)]
  norm_num

/-! ### The Benjamini-Yekutieli bound -/

/-- Weight of the event `x ≤ jτ` (`j = k+1`) in the step function below. -/
noncomputable def byD (m k : ℕ) : ℝ := if k + 1 = m then 1 / m else 1 / ((k + 1) * (k + 2))

theorem byD_nonneg (m k : ℕ) : 0 ≤ byD m k := by unfold byD; split_ifs <;> positivity

/-- Telescoping: the weights from `R` on sum to `1/R`. -/
theorem byD_tail (m R : ℕ) (hR : R < m) : ∑ k ∈ Finset.Ico R m, byD m k = 1 / (R + 1) := by
  induction h : m - R generalizing R with
  | zero => omega
  | succ d ih =>
    rw [Finset.sum_eq_sum_Ico_succ_bot hR]
    by_cases he : R + 1 = m
    · subst he
      simp [byD]
    · rw [ih (R + 1) (by omega) (by omega), byD, if_neg he]
      push_cast
      field_simp
      ring

/-- The weights times the levels sum to the harmonic number. -/
theorem byD_level (m : ℕ) (hm : 0 < m) :
    ∑ k ∈ Finset.range m, byD m k * (k + 1) = harmonicNumber m := by
  obtain ⟨d, rfl⟩ : ∃ d, m = d + 1 := ⟨m - 1, by omega⟩
  have h1 : ∀ k ∈ Finset.range d, byD (d + 1) k * (k + 1) = 1 / ((k : ℝ) + 2) := by
    intro k hk
    have : k < d := Finset.mem_range.1 hk
    rw [byD, if_neg (by omega)]
    field_simp
  rw [Finset.sum_range_succ, Finset.sum_congr rfl h1, byD, if_pos rfl]
  unfold harmonicNumber
  rw [Finset.sum_range_succ']
  push_cast
  have h2 : (1 : ℝ) / (d + 1) * (d + 1) = 1 := by field_simp
  rw [h2]
  congr 1
  · apply Finset.sum_congr rfl; intro k _; congr 1; ring
  · norm_num

/-- The step function dominating `1/R` on `x ≤ R τ`. -/
noncomputable def byG (m : ℕ) (τ x : ℝ) : ℝ :=
  ∑ k ∈ Finset.range m, if x ≤ (k + 1 : ℕ) * τ then byD m k else 0

theorem byG_nonneg (m : ℕ) (τ x : ℝ) : 0 ≤ byG m τ x :=
  Finset.sum_nonneg fun k _ => by split_ifs; exacts [byD_nonneg _ _, le_rfl]

theorem byG_ge {m R : ℕ} {τ x : ℝ} (hτ : 0 ≤ τ) (hR : 0 < R) (hRm : R ≤ m) (hx : x ≤ R * τ) :
    1 / (R : ℝ) ≤ byG m τ x := by
  obtain ⟨d, rfl⟩ : ∃ d, R = d + 1 := ⟨R - 1, by omega⟩
  have h := byD_tail m d (by omega)
  push_cast
  rw [← h]
  unfold byG
  have hsub : Finset.Ico d m ⊆ Finset.range m := by
    intro k hk; rw [Finset.mem_range]; exact (Finset.mem_Ico.1 hk).2
  refine le_trans (Finset.sum_le_sum ?_) (Finset.sum_le_sum_of_subset_of_nonneg hsub ?_)
  · intro k hk
    rw [if_pos]
    refine hx.trans (mul_le_mul_of_nonneg_right ?_ hτ)
    have := (Finset.mem_Ico.1 hk).1
    exact_mod_cast (by omega : d + 1 ≤ k + 1)
  · intro k _ _
    split_ifs
    exacts [byD_nonneg _ _, le_rfl]

theorem byG_integral {μ : Measure Ω} {X : Ω → ℝ} (hX : Measurable X) (hsu : SuperUniform μ X)
    {m : ℕ} (hm : 0 < m) {τ : ℝ} (hτ : 0 ≤ τ) :
    ∫⁻ ω, ENNReal.ofReal (byG m τ (X ω)) ∂μ ≤ ENNReal.ofReal (τ * harmonicNumber m) := by
  have hrew : ∀ ω, ENNReal.ofReal (byG m τ (X ω)) = ∑ k ∈ Finset.range m,
      Set.indicator {ω | X ω ≤ (k + 1 : ℕ) * τ} (fun _ => ENNReal.ofReal (byD m k)) ω := by
    intro ω
    unfold byG
    rw [ENNReal.ofReal_sum_of_nonneg (fun k _ => by split_ifs; exacts [byD_nonneg _ _, le_rfl])]
    apply Finset.sum_congr rfl
    intro k _
    simp only [Set.indicator_apply, Set.mem_ofPred_eq]
    split_ifs <;> simp
  have hms : ∀ k : ℕ, MeasurableSet {ω | X ω ≤ (k + 1 : ℕ) * τ} :=
    fun k => measurableSet_le hX measurable_const
  simp only [hrew]
  rw [lintegral_finsetSum _ (fun k _ => measurable_const.indicator (hms k))]
  simp only [lintegral_indicator_const (hms _)]
  calc ∑ k ∈ Finset.range m, ENNReal.ofReal (byD m k) * μ {ω | X ω ≤ (k + 1 : ℕ) * τ}
      ≤ ∑ k ∈ Finset.range m, ENNReal.ofReal (byD m k * ((k + 1 : ℕ) * τ)) := by
        apply Finset.sum_le_sum
        intro k _
        rw [ENNReal.ofReal_mul (byD_nonneg _ _)]
        exact mul_le_mul_right (hsu _ (by positivity)) _
    _ = ENNReal.ofReal (τ * harmonicNumber m) := by
        rw [← ENNReal.ofReal_sum_of_nonneg
          (fun k _ => mul_nonneg (byD_nonneg _ _) (by positivity)), ← byD_level m hm, Finset.mul_sum]
        congr 1
        apply Finset.sum_congr rfl
        intro k _
        push_cast
        ring

theorem byG_measurable (m : ℕ) (τ : ℝ) : Measurable (byG m τ) := by
  unfold byG
  refine Finset.measurable_fun_sum _ fun k _ => ?_
  exact Measurable.ite measurableSet_Iic measurable_const measurable_const

/-- **C11, what holds.** Under arbitrary dependence the Holm class's family-wise error rate
is at most `α` times the harmonic number of the number of true nulls.  Missing: the bound
`α` itself, which is false (`C11_refuted`). -/
theorem C11_holm_fwer_partial (μ : Measure Ω) [IsProbabilityMeasure μ] (P : Ω → Fin n → ℝ)
    (hmeas : ∀ i, Measurable (fun ω => P ω i)) (nulls : Finset (Fin n))
    (hnull : ∀ i ∈ nulls, SuperUniform μ (fun ω => P ω i))
    (α : ℝ) (hα : 0 ≤ α) (hα1 : α ≤ 1) :
    fwer μ (test .holm) P nulls α ≤ ENNReal.ofReal (α * harmonicNumber nulls.card) := by
  rcases Finset.eq_empty_or_nonempty nulls with rfl | hne
  · simp [fwer]
  have hm0 : 0 < nulls.card := hne.card_pos
  have hm0' : (0 : ℝ) < nulls.card := by exact_mod_cast hm0
  set m₀ := nulls.card with hm₀
  set τ : ℝ := α / m₀ with hτ
  have hτ0 : 0 ≤ τ := by positivity
  set f : Ω → ENNReal := fun ω => ∑ i ∈ nulls, ENNReal.ofReal (byG m₀ τ (P ω i)) with hf
  have hfm : ∀ i ∈ nulls, Measurable (fun ω => ENNReal.ofReal (byG m₀ τ (P ω i))) :=
    fun i _ => ENNReal.measurable_ofReal.comp ((byG_measurable _ _).comp (hmeas i))
  have hsub : {ω | ∃ i ∈ nulls, Rejects (test .holm) (P ω) α i} ⊆ {ω | 1 ≤ f ω} := by
    rintro ω ⟨i, hi, hr⟩
    have hv := rejects_valid hr
    rw [rejects_iff _ _ _ _ hv, adjFn_holm_eq_hochberg, hochberg, Finset.inf'_lt_iff] at hr
    obtain ⟨j, hj, hjα⟩ := hr
    simp only [Finset.mem_filter, Finset.mem_univ, true_and] at hj
    have hjα' : ((countGt (P ω) (P ω j) : ℝ) + 1) * P ω j < α := by
      rcases min_lt_iff.1 hjα with h | h
      · exact absurd hα1 (not_le.2 h)
      · exact h
    set t := P ω j with ht
    have ht0 : 0 ≤ t := (hv j).1
    set S := nulls.filter (fun k => P ω k ≤ t) with hS
    have hiS : i ∈ S := Finset.mem_filter.2 ⟨hi, hj⟩
    have hk0 : 0 < S.card := Finset.card_pos.2 ⟨i, hiS⟩
    have hkm : S.card ≤ m₀ := Finset.card_filter_le _ _
    have hgt : m₀ ≤ S.card + countGt (P ω) t := by
      rw [hm₀, ← Finset.card_filter_add_card_filter_not (s := nulls) (fun k => P ω k ≤ t)]
      refine Nat.add_le_add_left (Finset.card_le_card ?_) _
      intro k hk
      simp only [Finset.mem_filter, Finset.mem_univ, true_and, not_le] at hk ⊢
      exact hk.2
    have hbound : t ≤ (S.card : ℝ) * τ := by
      have h1 : (m₀ : ℝ) ≤ S.card + countGt (P ω) t := by exact_mod_cast hgt
      have h2 : (1 : ℝ) ≤ S.card := by exact_mod_cast hk0
      have h3 : (S.card : ℝ) ≤ m₀ := by exact_mod_cast hkm
      have h4 : ((m₀ : ℝ) - S.card + 1) * t ≤ α :=
        (mul_le_mul_of_nonneg_right (by linarith) ht0).trans hjα'.le
      rw [hτ, mul_div_assoc', le_div_iff₀ hm0']
      have h5 : (m₀ : ℝ) ≤ S.card * ((m₀ : ℝ) - S.card + 1) := by nlinarith
      calc t * m₀ ≤ t * (S.card * ((m₀ : ℝ) - S.card + 1)) := mul_le_mul_of_nonneg_left h5 ht0
        _ = S.card * (((m₀ : ℝ) - S.card + 1) * t) := by ring
        _ ≤ S.card * α := mul_le_mul_of_nonneg_left h4 (by positivity)
    have hG : ∀ k ∈ S, 1 / (S.card : ℝ) ≤ byG m₀ τ (P ω k) := by
      intro k hk
      exact byG_ge hτ0 hk0 hkm (((Finset.mem_filter.1 hk).2).trans hbound)
    have h1 : (1 : ℝ) ≤ ∑ k ∈ nulls, byG m₀ τ (P ω k) := by
      calc (1 : ℝ) = ∑ _k ∈ S, 1 / (S.card : ℝ) := by
            rw [Finset.sum_const, nsmul_eq_mul]; field_simp
        _ ≤ ∑ k ∈ S, byG m₀ τ (P ω k) := Finset.sum_le_sum hG
        _ ≤ ∑ k ∈ nulls, byG m₀ τ (P ω k) :=
            Finset.sum_le_sum_of_subset_of_nonneg (Finset.filter_subset _ _)
              (fun k _ _ => byG_nonneg _ _ _)
    show 1 ≤ f ω
    rw [hf]
    simp only
    rw [← ENNReal.ofReal_sum_of_nonneg (fun k _ => byG_nonneg _ _ _), ← ENNReal.ofReal_one]
    exact ENNReal.ofReal_le_ofReal h1
  calc fwer μ (test .holm) P nulls α ≤ μ {ω | 1 ≤ f ω} := measure_mono hsub
    _ ≤ ∫⁻ ω, f ω ∂μ := by
        have := mul_meas_ge_le_lintegral (μ := μ) (Finset.measurable_fun_sum nulls hfm) 1
        rwa [one_mul] at this
    _ = ∑ i ∈ nulls, ∫⁻ ω, ENNReal.ofReal (byG m₀ τ (P ω i)) ∂μ := lintegral_finsetSum _ hfm
    _ ≤ ∑ _i ∈ nulls, ENNReal.ofReal (τ * harmonicNumber m₀) :=
        Finset.sum_le_sum fun i hi => byG_integral (hmeas i) (hnull i hi) hm0 hτ0
    _ = ENNReal.ofReal (α * harmonicNumber m₀) := by
        rw [Finset.sum_const, nsmul_eq_mul, ← ENNReal.ofReal_natCast,
          ← ENNReal.ofReal_mul (by positivity), hτ, ← hm₀]
        congr 1
        field_simp

/-- The witness of the refutation also meets the hypotheses of the partial theorem. -/
example : (∀ i, Measurable (fun ω => fourP ω i)) ∧
    ∀ i ∈ (Finset.univ : Finset (Fin 2)), SuperUniform four (fun ω => fourP ω i) :=
  ⟨fun _ => measurable_of_countable _, fun i _ => four_superUniform i⟩

/-! ### C15 -/

/-- Every rejected p-value is at most (number of rejections) · α / (n c). -/
theorem by_rejected_le {p : Fin n → ℝ} {α : ℝ} (hα1 : α ≤ 1) {i : Fin n}
    (hr : Rejects (test .benjaminiYekutieli) p α i) (R : Finset (Fin n))
    (hR : ∀ k, k ∈ R ↔ Rejects (test .benjaminiYekutieli) p α k) :
    p i ≤ R.card * (α / (n * byFactor n)) := by
  have hv := rejects_valid hr
  have hn : 0 < n := i.pos
  have hn' : (0 : ℝ) < n := by exact_mod_cast hn
  have hc : 0 < byFactor n := zero_lt_one.trans_le (byFactor_ge_one n hn)
  have hα : 0 < α := by
    rw [rejects_iff _ _ _ _ hv] at hr
    exact ((hv i).1.trans (adjFn_ge _ p hv i).1).trans_lt hr
  simp only [rejects_iff _ _ _ _ hv, adjFn_by_eq, stepUpFdr, Finset.inf'_lt_iff, Finset.mem_filter,
    Finset.mem_univ, true_and] at hr hR
  obtain ⟨j, hij, hj⟩ := hr
  have hsub : Finset.univ.filter (fun k => p k ≤ p j) ⊆ R := by
    intro k hk
    rw [hR]
    exact ⟨j, (Finset.mem_filter.1 hk).2, hj⟩
  have hcard : countLe p (p j) ≤ R.card := Finset.card_le_card hsub
  have hpos : (0 : ℝ) < countLe p (p j) := by exact_mod_cast countLe_pos p j
  have hj' : (n : ℝ) * byFactor n * p j / countLe p (p j) < α := by
    rcases min_lt_iff.1 hj with h | h
    · exact absurd hα1 (not_le.2 h)
    · exact h
  rw [div_lt_iff₀ hpos] at hj'
  have hcard' : (countLe p (p j) : ℝ) ≤ R.card := by exact_mod_cast hcard
  have h1 : (n : ℝ) * byFactor n * p j ≤ R.card * α := by nlinarith
  refine hij.trans ?_
  rw [mul_div_assoc', le_div_iff₀ (by positivity)]
  linarith

/-- The general bound, for every number of hypotheses. -/
theorem by_fdr_general (μ : Measure Ω) [IsProbabilityMeasure μ] (P : Ω → Fin n → ℝ)
    (hmeas : ∀ i, Measurable (fun ω => P ω i)) (nulls : Finset (Fin n))
    (hnull : ∀ i ∈ nulls, SuperUniform μ (fun ω => P ω i))
    (α : ℝ) (hα : 0 ≤ α) (hα1 : α ≤ 1) :
    fdr μ (test .benjaminiYekutieli) P nulls α ≤
      ENNReal.ofReal (α * nulls.card / n * (harmonicNumber n / byFactor n)) := by
  rcases Nat.eq_zero_or_pos n with rfl | hn
  · have : nulls = ∅ := Finset.eq_empty_of_forall_notMem (fun i => i.elim0)
    subst this
    simp [fdr, fdp]
  have hn' : (0 : ℝ) < n := by exact_mod_cast hn
  have hc : 0 < byFactor n := zero_lt_one.trans_le (byFactor_ge_one n hn)
  set τ : ℝ := α / (n * byFactor n) with hτ
  have hτ0 : 0 ≤ τ := by positivity
  have hfm : ∀ i ∈ nulls, Measurable (fun ω => ENNReal.ofReal (byG n τ (P ω i))) :=
    fun i _ => ENNReal.measurable_ofReal.comp ((byG_measurable _ _).comp (hmeas i))
  have hpt : ∀ ω, ENNReal.ofReal (fdp (test .benjaminiYekutieli) (P ω) nulls α) ≤
      ∑ i ∈ nulls, ENNReal.ofReal (byG n τ (P ω i)) := by
    intro ω
    classical
    rw [← ENNReal.ofReal_sum_of_nonneg (fun k _ => byG_nonneg _ _ _)]
    apply ENNReal.ofReal_le_ofReal
    unfold fdp
    set R := Finset.univ.filter (fun i => Rejects (test .benjaminiYekutieli) (P ω) α i) with hRdef
    set V := nulls.filter (fun i => Rejects (test .benjaminiYekutieli) (P ω) α i) with hVdef
    have hVR : V ⊆ R := by
      intro k hk
      exact Finset.mem_filter.2 ⟨Finset.mem_univ _, (Finset.mem_filter.1 hk).2⟩
    rcases Finset.eq_empty_or_nonempty V with hV | hV
    · rw [hV]
      simp only [Finset.card_empty, Nat.cast_zero, zero_div]
      exact Finset.sum_nonneg fun k _ => byG_nonneg _ _ _
    have hRpos : 0 < R.card := Finset.card_pos.2 (hV.mono hVR)
    have hRn : R.card ≤ n := by simpa using Finset.card_le_univ R
    have hmax : (max 1 R.card : ℕ) = R.card := max_eq_right hRpos
    rw [hmax]
    have hG : ∀ k ∈ V, 1 / (R.card : ℝ) ≤ byG n τ (P ω k) := by
      intro k hk
      refine byG_ge hτ0 hRpos hRn ?_
      exact by_rejected_le hα1 (Finset.mem_filter.1 hk).2 R (fun k => by simp [hRdef])
    calc (V.card : ℝ) / R.card = ∑ _k ∈ V, 1 / (R.card : ℝ) := by
          rw [Finset.sum_const, nsmul_eq_mul]; ring
      _ ≤ ∑ k ∈ V, byG n τ (P ω k) := Finset.sum_le_sum hG
      _ ≤ ∑ k ∈ nulls, byG n τ (P ω k) :=
          Finset.sum_le_sum_of_subset_of_nonneg (Finset.filter_subset _ _)
            (fun k _ _ => byG_nonneg _ _ _)
  calc fdr μ (test .benjaminiYekutieli) P nulls α
      ≤ ∫⁻ ω, ∑ i ∈ nulls, ENNReal.ofReal (byG n τ (P ω i)) ∂μ := lintegral_mono hpt
    _ = ∑ i ∈ nulls, ∫⁻ ω, ENNReal.ofReal (byG n τ (P ω i)) ∂μ := lintegral_finsetSum _ hfm
    _ ≤ ∑ _i ∈ nulls, ENNReal.ofReal (τ * harmonicNumber n) :=
        Finset.sum_le_sum fun i hi => byG_integral (hmeas i) (hnull i hi) hn hτ0
    _ = ENNReal.ofReal (α * nulls.card / n * (harmonicNumber n / byFactor n)) := by
        have hH : 0 ≤ harmonicNumber (K := ℝ) n := by
          unfold harmonicNumber
          exact Finset.sum_nonneg fun k _ => by positivity
        rw [Finset.sum_const, nsmul_eq_mul, ← ENNReal.ofReal_natCast,
          ← ENNReal.ofReal_mul (by positivity), hτ]
        congr 1
        field_simp

theorem harmonicNumber_eq_harmonic (m : ℕ) : (harmonicNumber m : ℝ) = ((harmonic m : ℚ) : ℝ) := by
  unfold harmonicNumber harmonic
  push_cast
  exact Finset.sum_congr rfl fun k _ => by rw [one_div]

/-- **C15 (at most 10000 hypotheses).** Under arbitrary dependence, the false discovery rate
of Benjamini-Yekutieli at threshold `α` is at most `α · |true nulls| / n`. -/
theorem C15_by_fdr (μ : Measure Ω) [IsProbabilityMeasure μ] (hn : n ≤ 10000) (P : Ω → Fin n → ℝ)
    (hmeas : ∀ i, Measurable (fun ω => P ω i)) (nulls : Finset (Fin n))
    (hnull : ∀ i ∈ nulls, SuperUniform μ (fun ω => P ω i))
    (α : ℝ) (hα : 0 ≤ α) (hα1 : α ≤ 1) :
    fdr μ (test .benjaminiYekutieli) P nulls α ≤ ENNReal.ofReal (α * nulls.card / n) := by
  refine (by_fdr_general μ P hmeas nulls hnull α hα hα1).trans (ENNReal.ofReal_le_ofReal ?_)
  rcases Nat.eq_zero_or_pos n with rfl | hn0
  · simp
  have hc : 0 < byFactor n := zero_lt_one.trans_le (byFactor_ge_one n hn0)
  have : harmonicNumber n / byFactor n = 1 := by
    rw [byFactor, if_neg (by omega), harmonicSum_eq] at *
    exact div_self hc.ne'
  rw [this, mul_one]

/-- **C15 (more than 10000 hypotheses), partial.** The logarithmic factor the code switches to
is slightly smaller than the harmonic number, so what is proved is the bound
`1.01 · α · |true nulls| / n`.  Missing: the factor 1. -/
theorem C15_by_fdr_large_partial (μ : Measure Ω) [IsProbabilityMeasure μ] (hn : 10000 < n)
    (P : Ω → Fin n → ℝ) (hmeas : ∀ i, Measurable (fun ω => P ω i)) (nulls : Finset (Fin n))
    (hnull : ∀ i ∈ nulls, SuperUniform μ (fun ω => P ω i))
    (α : ℝ) (hα : 0 ≤ α) (hα1 : α ≤ 1) :
    fdr μ (test .benjaminiYekutieli) P nulls α ≤ ENNReal.ofReal (1.01 * (α * nulls.card / n)) := by
  refine (by_fdr_general μ P hmeas nulls hnull α hα hα1).trans (ENNReal.ofReal_le_ofReal ?_)
  have hn0 : 0 < n := by omega
  have hc : 0 < byFactor n := zero_lt_one.trans_le (byFactor_ge_one n hn0)
  rw [mul_comm 1.01]
  refine mul_le_mul_of_nonneg_left ?_ (by positivity)
  rw [div_le_iff₀ hc, byFactor, if_pos hn]
  have h1 : Real.eulerMascheroniSeq' n < 2 / 3 :=
    (Real.strictAnti_eulerMascheroniSeq' (by omega : 6 < n)).trans Real.eulerMascheroniSeq'_six_lt_two_thirds
  rw [Real.eulerMascheroniSeq', if_neg hn0.ne', ← harmonicNumber_eq_harmonic] at h1
  have h9 : (9 : ℝ) ≤ Real.log n := by
    rw [Real.le_log_iff_exp_le (by positivity)]
    have h10 : (10000 : ℝ) < n := by exact_mod_cast hn
    have he : Real.exp 9 = Real.exp 1 ^ 9 := by rw [← Real.exp_nat_mul]; norm_num
    have h3 := Real.exp_one_lt_d9
    have : Real.exp 1 ^ 9 ≤ 2.7182818286 ^ 9 := pow_le_pow_left₀ (Real.exp_pos 1).le h3.le 9
    rw [he]
    refine this.trans (le_trans (by norm_num) h10.le)
  norm_num at h1 ⊢
  linarith

/-- Twenty perfectly dependent uniform p-values meet the hypotheses of C15. -/
example : (∀ i : Fin 20, Measurable (fun ω : ℝ => (fun (x : ℝ) (_ : Fin 20) => x) ω i)) ∧
    (∀ i ∈ (Finset.univ : Finset (Fin 20)),
      SuperUniform unif (fun ω => (fun (x : ℝ) (_ : Fin 20) => x) ω i)) :=
  ⟨fun _ => measurable_id, fun _ _ => superUniform_unif⟩

end Pysatl.Props
