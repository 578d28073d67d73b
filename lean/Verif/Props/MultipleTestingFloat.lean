import Verif.Lemmas.MultipleTestingFloat
import Mathlib.MeasureTheory.Measure.Dirac
import Mathlib.Tactic.FinCases

/-!
# Property C127: the corrections in double precision arithmetic

`Rounded.test A proc p thr` is the model of `<class>.test(p_values, threshold)` in which every
arithmetic operation is the one of the double precision arithmetic `A`.
-/

namespace Pysatl.Props

open Pysatl.MultipleTesting Pysatl.Spec MeasureTheory

/-- A double precision arithmetic: everything correctly rounded. -/
theorem exists_double : ∃ A : FloatOps, IsDouble A := by
  obtain ⟨fl, h⟩ := exists_rounding
  refine ⟨⟨fl, fun x m => fl (x ^ m), Real.log, fun l => fl l.sum⟩, ⟨h, fun x m => (h _).1,
    fun m => by simp [h.one], fun m hm => by simp [hm.ne', h.zero], fun x hx => by simp [h.id hx],
    fun x y m h0 hxy => h.mono (pow_le_pow_left₀ h0 hxy m), fun n _ => by simp, fun l => (h _).1,
    by simp [h.one], ?_⟩⟩
  intro l hl hlen
  refine h.sum_error l (fun x hx => ⟨(hl x hx).1, (hl x hx).2.1⟩) ?_
  have h1 : l.sum ≤ l.length • (1 : ℝ) := List.sum_le_card_nsmul l 1 fun x hx => (hl x hx).2.2
  have h2 : (l.length : ℝ) ≤ 10000 := by exact_mod_cast hlen
  rw [nsmul_eq_mul, mul_one] at h1
  have h3 : (2 : ℝ) ^ (14 : ℤ) ≤ (2 : ℝ) ^ (900 : ℤ) := zpow_le_zpow_right₀ (by norm_num) (by norm_num)
  have h4 : (10000 : ℝ) ≤ (2 : ℝ) ^ (14 : ℤ) := by norm_num
  exact h1.trans (h2.trans (h4.trans h3))

section

variable {A : FloatOps} (hA : IsDouble A) {n : ℕ}

include hA

theorem rounded_byW_ge {x : ℝ} (hx : IsFloat64 x) (h0 : 0 ≤ x) (h1 : x ≤ 1) (hn : n ≤ 2 ^ 53)
    (r : ℕ) (hr : r < n) : x ≤ Rounded.byW A n (Rounded.byFactor A n) r x := by
  refine le_min h1 ?_
  have hN : A.fl (n : ℝ) = n := hA.nearest.id (isFloat64_natLe n hn)
  have hR : A.fl ((r + 1 : ℕ) : ℝ) = ((r + 1 : ℕ) : ℝ) := hA.nearest.id (isFloat64_natLe _ (by omega))
  rw [hN, hR]
  have hr1 : (0 : ℝ) < ((r + 1 : ℕ) : ℝ) := by positivity
  have hrn : ((r + 1 : ℕ) : ℝ) ≤ n := by exact_mod_cast hr
  refine hA.nearest.float_le hx ?_
  rw [le_div_iff₀ hr1]
  refine (mul_le_mul_of_nonneg_left hrn h0).trans ?_
  rcases Nat.lt_or_ge n 2 with h | h
  · obtain rfl : n = 1 := by omega
    rw [Rounded.byFactor_one hA, Nat.cast_one, mul_one, mul_one, hA.nearest.id hx, hA.nearest.id hx]
  · rcases h0.lt_or_eq with hpos | rfl
    · have hle : x * n ≤ (2 : ℝ) ^ (900 : ℤ) := by
        have h2 : (n : ℝ) ≤ (2 : ℝ) ^ (53 : ℤ) := by
          have : ((n : ℕ) : ℝ) ≤ ((2 ^ 53 : ℕ) : ℝ) := by exact_mod_cast hn
          push_cast at this
          exact_mod_cast this
        have h3 : (2 : ℝ) ^ (53 : ℤ) ≤ (2 : ℝ) ^ (900 : ℤ) :=
          zpow_le_zpow_right₀ (by norm_num) (by norm_num)
        have h4 : x * n ≤ 1 * n := mul_le_mul_of_nonneg_right h1 (Nat.cast_nonneg _)
        rw [one_mul] at h4
        exact h4.trans (h2.trans h3)
      obtain ⟨y, z, hy, hz, hy0, hy1, hz1, hyz⟩ := float64_around hx hpos n (by omega) hle
      have h2 := hA.nearest.float_le hy hy1
      have h3 := Rounded.byFactor_ge hA n h
      refine hz1.trans (hA.nearest.float_le hz ?_)
      nlinarith
    · rw [zero_mul]
      exact hA.nearest.nonneg (mul_nonneg (by rw [hA.nearest.zero]) (by
        linarith [Rounded.byFactor_ge hA n h]))

theorem rounded_one_sub {x : ℝ} (h0 : 0 ≤ x) (h1 : x ≤ 1) : 0 ≤ A.fl (1 - x) ∧ A.fl (1 - x) ≤ 1 :=
  ⟨hA.nearest.nonneg (by linarith), hA.nearest.le_float isFloat64_one (by linarith)⟩

theorem rounded_pow_range {x : ℝ} (h0 : 0 ≤ x) (h1 : x ≤ 1) (m : ℕ) (hm : 0 < m) :
    0 ≤ A.pow x m ∧ A.pow x m ≤ 1 := by
  constructor
  · rw [← hA.pow_zero_base m hm]; exact hA.pow_mono _ _ _ le_rfl h0
  · rw [← hA.pow_one_base m]; exact hA.pow_mono _ _ _ h0 h1

theorem rounded_sidak_range {x : ℝ} (h0 : 0 ≤ x) (h1 : x ≤ 1) (m : ℕ) (hm : 0 < m) :
    0 ≤ A.fl (1 - A.pow (A.fl (1 - x)) m) ∧ A.fl (1 - A.pow (A.fl (1 - x)) m) ≤ 1 := by
  have h2 := rounded_one_sub hA h0 h1
  have h3 := rounded_pow_range hA h2.1 h2.2 m hm
  exact rounded_one_sub hA h3.1 h3.2

theorem rounded_sidak_mono {x y : ℝ} (hy : y ≤ 1) (hxy : x ≤ y) (m : ℕ) :
    A.fl (1 - A.pow (A.fl (1 - x)) m) ≤ A.fl (1 - A.pow (A.fl (1 - y)) m) := by
  refine hA.nearest.mono ?_
  have := hA.pow_mono (A.fl (1 - y)) (A.fl (1 - x)) m (hA.nearest.nonneg (by linarith))
    (hA.nearest.mono (by linarith))
  linarith

/-- Range of the adjusted values, all procedures. -/
theorem rounded_range (proc : Procedure) (p : Fin n → ℝ) (hp : ∀ i, 0 ≤ p i ∧ p i ≤ 1) (i : Fin n) :
    0 ≤ Rounded.adjFn A proc p i ∧ Rounded.adjFn A proc p i ≤ 1 := by
  have hn : 0 < n := i.pos
  have hfl : 0 ≤ A.fl (n : ℝ) := hA.nearest.nonneg (Nat.cast_nonneg _)
  cases proc with
  | bonferroni =>
    exact ⟨le_min (hA.nearest.nonneg (mul_nonneg (hp i).1 hfl)) zero_le_one, min_le_right _ _⟩
  | sidak => exact rounded_sidak_range hA (hp i).1 (hp i).2 n hn
  | holm =>
    simp only [Rounded.adjFn]
    constructor
    · rw [le_stepUp_iff]
      intro j _
      have h2 := countLe_le p (p j)
      have : ((countLe p (p j) - 1 : ℕ) : ℝ) ≤ n := by exact_mod_cast (by omega)
      exact le_min zero_le_one (hA.nearest.nonneg (mul_nonneg (hp j).1 (hA.nearest.nonneg (by linarith))))
    · rw [stepUp_le_iff]
      exact ⟨i, le_rfl, min_le_left _ _⟩
  | sidakHolm =>
    exact ⟨le_min zero_le_one (rounded_sidak_range hA (hp i).1 (hp i).2 n hn).1, min_le_left _ _⟩
  | benjaminiYekutieli =>
    simp only [Rounded.adjFn]
    constructor
    · rw [le_stepUp_iff]
      intro j _
      have hc := Rounded.byFactor_pos hA n hn
      have h1 := Rounded.fl_nat_pos hA (countLe p (p j) - 1 + 1) (by omega)
      exact le_min zero_le_one (hA.nearest.nonneg (div_nonneg (hA.nearest.nonneg (mul_nonneg
        (hA.nearest.nonneg (mul_nonneg (hp j).1 hfl)) hc)) (by linarith)))
    · rw [stepUp_le_iff]
      exact ⟨i, le_rfl, min_le_left _ _⟩

/-- The adjusted values are at least the raw ones, for the procedures without a power. -/
theorem rounded_ge (proc : Procedure) (hs : proc ≠ .sidak) (hsh : proc ≠ .sidakHolm) (p : Fin n → ℝ)
    (hp : ∀ i, 0 ≤ p i ∧ p i ≤ 1) (hf : ∀ i, IsFloat64 (p i)) (hn : n ≤ 2 ^ 53) (i : Fin n) :
    p i ≤ Rounded.adjFn A proc p i := by
  have hn0 : 0 < n := i.pos
  cases proc with
  | bonferroni =>
    refine le_min (hA.nearest.float_le (hf i) ?_) (hp i).2
    exact le_mul_of_one_le_right (hp i).1 (Rounded.fl_nat_pos hA n hn0)
  | sidak => exact absurd rfl hs
  | holm =>
    simp only [Rounded.adjFn]
    rw [le_stepUp_iff]
    intro j hj
    refine hj.trans (le_min (hp j).2 (hA.nearest.float_le (hf j) ?_))
    refine le_mul_of_one_le_right (hp j).1 (hA.nearest.float_le isFloat64_one ?_)
    have h1 := countLe_pos p j
    have h2 := countLe_le p (p j)
    have : ((countLe p (p j) - 1 : ℕ) : ℝ) + 1 ≤ n := by
      exact_mod_cast (by omega : countLe p (p j) - 1 + 1 ≤ n)
    linarith
  | sidakHolm => exact absurd rfl hsh
  | benjaminiYekutieli =>
    simp only [Rounded.adjFn]
    rw [le_stepUp_iff]
    intro j hj
    have h1 := countLe_pos p j
    have h2 := countLe_le p (p j)
    exact hj.trans (rounded_byW_ge hA (hf j) (hp j).1 (hp j).2 hn _ (by omega))

/-- **C127.** In double precision every adjusted p-value of Bonferroni, Holm and
Benjamini-Yekutieli is at least the raw one, whatever the rounding errors.  (For the two
Sidak procedures this fails: `C127_refuted_sidak`.) -/
theorem C127_bounds_partial (proc : Procedure) (hs : proc ≠ .sidak) (hsh : proc ≠ .sidakHolm)
    (p : List ℝ) (hf : ∀ x ∈ p, IsFloat64 x) (hlen : p.length ≤ 2 ^ 53) (thr : ℝ) (r : List Bool)
    (a : List ℝ) (h : Rounded.test A proc p thr = .ok (r, a)) (i : ℕ) (hi : i < p.length)
    (hia : i < a.length) : p[i] ≤ a[i] := by
  obtain ⟨hv, rfl, _⟩ := Rounded.test_ok hA h
  have := rounded_ge hA proc hs hsh p.get (fun j => hv _ (List.get_mem _ _))
    (fun j => hf _ (List.get_mem _ _)) hlen ⟨i, hi⟩
  simpa using this

/-- **C127.** In double precision every adjusted p-value of every procedure lies in `[0,1]`;
the lists have the length of the input and `rejected[i]` says whether `adjusted[i]` is below
the threshold. -/
theorem C127_range (proc : Procedure) (p : List ℝ) (thr : ℝ) (r : List Bool)
    (a : List ℝ) (h : Rounded.test A proc p thr = .ok (r, a)) :
    r.length = p.length ∧ a.length = p.length ∧
    ∀ (i : ℕ) (hr : i < r.length) (ha : i < a.length),
      0 ≤ a[i] ∧ a[i] ≤ 1 ∧ (r[i] = true ↔ a[i] < thr) := by
  obtain ⟨hv, rfl, rfl⟩ := Rounded.test_ok hA h
  refine ⟨by simp, by simp, fun i hr ha => ?_⟩
  have hi : i < p.length := by simpa using ha
  have := rounded_range hA proc p.get (fun j => hv _ (List.get_mem _ _)) ⟨i, hi⟩
  refine ⟨by simpa using this.1, by simpa using this.2, by simp⟩

theorem rounded_mono (proc : Procedure) (p : Fin n → ℝ) (hp : ∀ i, 0 ≤ p i ∧ p i ≤ 1) (i j : Fin n)
    (h : p i ≤ p j) : Rounded.adjFn A proc p i ≤ Rounded.adjFn A proc p j := by
  have hfl : 0 ≤ A.fl (n : ℝ) := hA.nearest.nonneg (Nat.cast_nonneg _)
  cases proc with
  | bonferroni => exact min_le_min_right _ (hA.nearest.mono (mul_le_mul_of_nonneg_right h hfl))
  | sidak => exact rounded_sidak_mono hA (hp j).2 h n
  | holm => exact stepUp_mono _ p i j h
  | sidakHolm => exact min_le_min_left _ (rounded_sidak_mono hA (hp j).2 h n)
  | benjaminiYekutieli => exact stepUp_mono _ p i j h

/-- **C127.** In double precision the correction preserves the order of the p-values: ties
stay exact ties, and no hypothesis is kept while one with a larger p-value is rejected. -/
theorem C127_order (proc : Procedure) (p : List ℝ) (thr : ℝ) (r : List Bool) (a : List ℝ)
    (h : Rounded.test A proc p thr = .ok (r, a)) (i j : ℕ) (hi : i < p.length) (hj : j < p.length)
    (hia : i < a.length) (hja : j < a.length) (hir : i < r.length) (hjr : j < r.length)
    (hij : p[i] ≤ p[j]) :
    a[i] ≤ a[j] ∧ (p[i] = p[j] → a[i] = a[j]) ∧ (r[j] = true → r[i] = true) := by
  obtain ⟨hv, rfl, rfl⟩ := Rounded.test_ok hA h
  have hp : ∀ k, 0 ≤ p.get k ∧ p.get k ≤ 1 := fun k => hv _ (List.get_mem _ _)
  have h1 := rounded_mono hA proc p.get hp ⟨i, hi⟩ ⟨j, hj⟩ (by simpa using hij)
  refine ⟨by simpa using h1, fun he => ?_, fun hr => ?_⟩
  · have h2 := rounded_mono hA proc p.get hp ⟨j, hj⟩ ⟨i, hi⟩ (by simp [he])
    simpa using le_antisymm h1 h2
  · simp only [List.getElem_map, List.getElem_ofFn, decide_eq_true_eq] at hr ⊢
    exact lt_of_le_of_lt h1 hr

/-- **C127.** In double precision, too, permuting the p-values permutes adjusted values and
decisions, bit for bit. -/
theorem C127_permutation (proc : Procedure) (p : Fin n → ℝ) (thr : ℝ) (σ : Equiv.Perm (Fin n))
    (r : Fin n → Bool) (a : Fin n → ℝ)
    (h : Rounded.test A proc (List.ofFn p) thr = .ok (List.ofFn r, List.ofFn a)) :
    Rounded.test A proc (List.ofFn (p ∘ σ)) thr = .ok (List.ofFn (r ∘ σ), List.ofFn (a ∘ σ)) := by
  have hp := (valid_ofFn p).1 (Rounded.valid_of_ok h)
  have hσ : ∀ i, Rounded.adjFn A proc (p ∘ σ) i = Rounded.adjFn A proc p (σ i) := by
    intro i
    cases proc <;> simp only [Rounded.adjFn, Function.comp]
    · exact stepUp_comp_perm _ p σ i
    · exact stepUp_comp_perm _ p σ i
  rw [Rounded.test_ofFn hA proc _ _ hp] at h
  simp only [Except.ok.injEq, Prod.mk.injEq, List.ofFn_inj] at h
  rw [Rounded.test_ofFn hA proc (p ∘ σ) thr (fun i => hp (σ i))]
  congr 2
  · congr 1
    funext i
    simp only [hσ, Function.comp]
    exact congrFun h.1 (σ i)
  · congr 1
    funext i
    simp only [hσ, Function.comp]
    exact congrFun h.2 (σ i)

/-- **C127.** In double precision, raising p-values lowers no adjusted p-value and creates no
rejection. -/
theorem C127_monotone_evidence (proc : Procedure) (p q : Fin n → ℝ) (thr : ℝ)
    (hpq : ∀ i, p i ≤ q i) (rp rq : Fin n → Bool) (ap aq : Fin n → ℝ)
    (hp : Rounded.test A proc (List.ofFn p) thr = .ok (List.ofFn rp, List.ofFn ap))
    (hq : Rounded.test A proc (List.ofFn q) thr = .ok (List.ofFn rq, List.ofFn aq)) (i : Fin n) :
    ap i ≤ aq i ∧ (rq i = true → rp i = true) := by
  have hvp := (valid_ofFn p).1 (Rounded.valid_of_ok hp)
  have hvq := (valid_ofFn q).1 (Rounded.valid_of_ok hq)
  rw [Rounded.test_ofFn hA proc _ _ hvp] at hp
  rw [Rounded.test_ofFn hA proc _ _ hvq] at hq
  simp only [Except.ok.injEq, Prod.mk.injEq, List.ofFn_inj] at hp hq
  obtain ⟨rfl, rfl⟩ := hp
  obtain ⟨rfl, rfl⟩ := hq
  have hfl : 0 ≤ A.fl (n : ℝ) := hA.nearest.nonneg (Nat.cast_nonneg _)
  have key : Rounded.adjFn A proc p i ≤ Rounded.adjFn A proc q i := by
    cases proc with
    | bonferroni => exact min_le_min_right _ (hA.nearest.mono (mul_le_mul_of_nonneg_right (hpq i) hfl))
    | sidak => exact rounded_sidak_mono hA (hvq i).2 (hpq i) n
    | holm =>
      refine stepUp_le_stepUp _ p q (fun s t j hst _ => Rounded.holmW_anti hA s t _ (hvp j).1 hst)
        (fun r x y hr hxy => Rounded.holmW_mono hA r hr.le x y hxy) hpq i
    | sidakHolm => exact min_le_min_left _ (rounded_sidak_mono hA (hvq i).2 (hpq i) n)
    | benjaminiYekutieli =>
      have hc := Rounded.byFactor_pos hA n i.pos
      refine stepUp_le_stepUp _ p q (fun s t j hst _ => Rounded.byW_anti hA _ hc s t _ (hvp j).1 hst)
        (fun r x y _ hxy => Rounded.byW_mono hA _ hc r x y hxy) hpq i
  refine ⟨key, fun hr => ?_⟩
  simp only [decide_eq_true_eq] at hr ⊢
  exact key.trans_lt hr

/-- **C127.** In double precision, too, every Holm-adjusted p-value is at most the
Bonferroni-adjusted one. -/
theorem C127_holm_le_bonferroni (p : List ℝ) (thr : ℝ) (r r' : List Bool) (a a' : List ℝ)
    (h : Rounded.test A .holm p thr = .ok (r, a)) (h' : Rounded.test A .bonferroni p thr = .ok (r', a'))
    (i : ℕ) (hia : i < a.length) (hia' : i < a'.length) : a[i] ≤ a'[i] := by
  obtain ⟨hv, rfl, _⟩ := Rounded.test_ok hA h
  obtain ⟨_, rfl, _⟩ := Rounded.test_ok hA h'
  have hi : i < p.length := by simpa using hia
  have key : Rounded.adjFn A .holm p.get ⟨i, hi⟩ ≤ Rounded.adjFn A .bonferroni p.get ⟨i, hi⟩ := by
    simp only [Rounded.adjFn]
    rw [stepUp_le_iff]
    refine ⟨⟨i, hi⟩, le_rfl, ?_⟩
    rw [min_comm]
    refine min_le_min_left _ (hA.nearest.mono ?_)
    refine mul_le_mul_of_nonneg_left (hA.nearest.mono ?_) (hv _ (List.get_mem _ _)).1
    have : (0 : ℝ) ≤ ((countLe p.get (p.get ⟨i, hi⟩) - 1 : ℕ) : ℝ) := Nat.cast_nonneg _
    linarith
  simpa using key

/-- **C127.** Bonferroni controls the family-wise error rate in double precision, exactly and
under any dependence, as soon as the threshold is a double precision number: rounding never
turns a product that is at least the threshold into one below it. -/
theorem C127_bonferroni_fwer {Ω : Type*} [MeasurableSpace Ω] (μ : Measure Ω) [IsProbabilityMeasure μ]
    (P : Ω → Fin n → ℝ) (nulls : Finset (Fin n))
    (hnull : ∀ i ∈ nulls, SuperUniform μ (fun ω => P ω i)) (hn : n ≤ 2 ^ 53)
    (α : ℝ) (hα : 0 ≤ α) (hα1 : α ≤ 1) (hαf : IsFloat64 α) :
    fwer μ (Rounded.test A .bonferroni) P nulls α ≤ ENNReal.ofReal (α * nulls.card / n) := by
  have hN : A.fl (n : ℝ) = n := hA.nearest.id (isFloat64_natLe n hn)
  have hsub : {ω | ∃ i ∈ nulls, Rejects (Rounded.test A .bonferroni) (P ω) α i} ⊆
      ⋃ i ∈ nulls, {ω | P ω i ≤ α / n} := by
    rintro ω ⟨i, hi, hr⟩
    simp only [Set.mem_iUnion]
    refine ⟨i, hi, ?_⟩
    have hv := Rounded.rejects_valid hr
    rw [Rounded.rejects_iff hA _ _ _ _ hv] at hr
    simp only [Rounded.adjFn] at hr
    have hn : (0 : ℝ) < n := by exact_mod_cast i.pos
    rw [Set.mem_ofPred_eq, le_div_iff₀ hn]
    rcases min_lt_iff.1 hr with h | h
    · by_contra hcon
      rw [hN] at h
      exact absurd (hA.nearest.float_le hαf (not_le.1 hcon).le) (not_le.2 h)
    · exact absurd hα1 (not_le.2 h)
  calc fwer μ (Rounded.test A .bonferroni) P nulls α
      ≤ μ (⋃ i ∈ nulls, {ω | P ω i ≤ α / n}) := measure_mono hsub
    _ ≤ ∑ i ∈ nulls, μ {ω | P ω i ≤ α / n} := measure_biUnion_finset_le _ _
    _ ≤ ∑ _i ∈ nulls, ENNReal.ofReal (α / n) :=
        Finset.sum_le_sum fun i hi => hnull i hi _ (by positivity)
    _ = ENNReal.ofReal (α * nulls.card / n) := by
        rw [Finset.sum_const, nsmul_eq_mul, ← ENNReal.ofReal_natCast,
          ← ENNReal.ofReal_mul (by positivity)]
        congr 1
        ring

/-- **C127, refuted for Sidak and SidakHolm.** In double precision a p-value below `2^-54`
(about `5.6e-17`) gets the adjusted value 0, less than the p-value itself, however many
hypotheses there are: `1 - p_value` is rounded to 1.  It is then rejected at every positive
threshold, however small. -/
theorem C127_refuted_sidak (proc : Procedure) (hproc : proc = .sidak ∨ proc = .sidakHolm)
    (p : List ℝ) (thr : ℝ) (r : List Bool) (a : List ℝ) (h : Rounded.test A proc p thr = .ok (r, a))
    (i : ℕ) (hi : i < p.length) (hia : i < a.length) (hir : i < r.length) (h0 : 0 < p[i])
    (htiny : p[i] < (2 : ℝ) ^ (-54 : ℤ)) :
    a[i] = 0 ∧ a[i] < p[i] ∧ (0 < thr → r[i] = true) := by
  obtain ⟨hv, rfl, rfl⟩ := Rounded.test_ok hA h
  have hz : A.fl (1 - A.pow (A.fl (1 - p[i])) p.length) = 0 := by
    rw [hA.nearest.one_sub_tiny h0.le htiny, hA.pow_one_base, sub_self, hA.nearest.zero]
  have hz' : Rounded.adjFn A proc p.get ⟨i, hi⟩ = 0 := by
    rcases hproc with rfl | rfl
    · simpa only [Rounded.adjFn, List.get_eq_getElem] using hz
    · simp only [Rounded.adjFn, List.get_eq_getElem]
      rw [hz]
      exact min_eq_right zero_le_one
  refine ⟨by simpa using hz', by simpa [hz'] using h0, fun ht => by simpa [hz'] using ht⟩

/-- **C127, refuted for Sidak.** In double precision Sidak's adjustment of a single p-value is
not that p-value and can exceed Bonferroni's: `3 * 2^-55` becomes `2^-53`. -/
theorem C127_refuted_sidak_single (thr : ℝ) :
    IsFloat64 (3 * (2 : ℝ) ^ (-55 : ℤ)) ∧
    (∃ r, Rounded.test A .sidak [3 * (2 : ℝ) ^ (-55 : ℤ)] thr = .ok (r, [(2 : ℝ) ^ (-53 : ℤ)])) ∧
    (∃ r, Rounded.test A .bonferroni [3 * (2 : ℝ) ^ (-55 : ℤ)] thr =
      .ok (r, [3 * (2 : ℝ) ^ (-55 : ℤ)])) ∧ 3 * (2 : ℝ) ^ (-55 : ℤ) < (2 : ℝ) ^ (-53 : ℤ) := by
  have hf : IsFloat64 (3 * (2 : ℝ) ^ (-55 : ℤ)) :=
    ⟨3, -55, by norm_num, by norm_num, by norm_num, by norm_num⟩
  have hv : Valid [3 * (2 : ℝ) ^ (-55 : ℤ)] := by
    intro x hx
    simp only [List.mem_singleton] at hx
    subst hx
    constructor
    · positivity
    · norm_num
  have h53 : IsFloat64 ((2 : ℝ) ^ (-53 : ℤ)) :=
    ⟨1, -53, by norm_num, by norm_num, by norm_num, by norm_num⟩
  have h1 : A.fl (1 - 3 * (2 : ℝ) ^ (-55 : ℤ)) = 1 - (2 : ℝ) ^ (-53 : ℤ) :=
    hA.nearest.one_sub_small (by norm_num) (by norm_num)
  refine ⟨hf, ⟨[decide ((2 : ℝ) ^ (-53 : ℤ) < thr)], ?_⟩,
    ⟨[decide (3 * (2 : ℝ) ^ (-55 : ℤ) < thr)], ?_⟩, by norm_num⟩
  · rw [Rounded.test_eq hA _ _ _ hv]
    have : Rounded.adjFn A .sidak [3 * (2 : ℝ) ^ (-55 : ℤ)].get = fun _ => (2 : ℝ) ^ (-53 : ℤ) := by
      funext i
      fin_cases i
      simp only [Rounded.adjFn, List.length_singleton, List.get_eq_getElem, Fin.zero_eta,
        Fin.val_zero, List.getElem_cons_zero]
      rw [h1, hA.pow_one _ isFloat64_pred_one]
      rw [show (1 : ℝ) - (1 - (2 : ℝ) ^ (-53 : ℤ)) = (2 : ℝ) ^ (-53 : ℤ) by ring]
      exact hA.nearest.id h53
    rw [this]
    rfl
  · rw [Rounded.test_eq hA _ _ _ hv]
    have : Rounded.adjFn A .bonferroni [3 * (2 : ℝ) ^ (-55 : ℤ)].get =
        fun _ => 3 * (2 : ℝ) ^ (-55 : ℤ) := by
      funext i
      fin_cases i
      simp only [Rounded.adjFn, List.length_singleton, List.get_eq_getElem, Fin.zero_eta,
        Fin.val_zero, List.getElem_cons_zero, Nat.cast_one]
      rw [hA.nearest.one, mul_one, hA.nearest.id hf]
      exact min_eq_left (by norm_num)
    rw [this]
    rfl

/-- **C127, refuted for Sidak.** In double precision Sidak does not control the family-wise
error rate at every level: with one true null whose p-value is `2^-55` with probability
`2^-55` and 1 otherwise, a super-uniform p-value, the test at level `2^-60` rejects it with
probability `2^-55`. -/
theorem C127_refuted_sidak_fwer : ∃ (μ : Measure Bool) (P : Bool → Fin 1 → ℝ),
    IsProbabilityMeasure μ ∧ (∀ ω i, IsFloat64 (P ω i)) ∧
    (∀ i ∈ (Finset.univ : Finset (Fin 1)), SuperUniform μ (fun ω => P ω i)) ∧
    IsFloat64 ((2 : ℝ) ^ (-60 : ℤ)) ∧
    ENNReal.ofReal ((2 : ℝ) ^ (-60 : ℤ)) <
      fwer μ (Rounded.test A .sidak) P Finset.univ ((2 : ℝ) ^ (-60 : ℤ)) := by
  set q : ℝ := (2 : ℝ) ^ (-55 : ℤ) with hq
  have hq0 : 0 < q := by positivity
  have hq1 : q < 1 := by rw [hq]; norm_num
  have hqf : IsFloat64 q := ⟨1, -55, by norm_num, by norm_num, by norm_num, by rw [hq]; norm_num⟩
  let μ : Measure Bool := ENNReal.ofReal q • Measure.dirac true + ENNReal.ofReal (1 - q) • Measure.dirac false
  have hμ : ∀ s : Set Bool, μ s = ENNReal.ofReal q * (Measure.dirac true s) +
      ENNReal.ofReal (1 - q) * (Measure.dirac false s) := fun s => rfl
  have hprob : IsProbabilityMeasure μ := ⟨by
    rw [hμ, measure_univ, measure_univ, mul_one, mul_one, ← ENNReal.ofReal_add hq0.le (by linarith)]
    simp⟩
  refine ⟨μ, fun ω _ => if ω then q else 1, hprob, ?_, ?_,
    ⟨1, -60, by norm_num, by norm_num, by norm_num, by norm_num⟩, ?_⟩
  · intro ω i
    cases ω
    · simpa using isFloat64_one
    · simpa using hqf
  · intro i _ t ht
    rw [hμ]
    rw [Measure.dirac_apply, Measure.dirac_apply]
    by_cases h1 : (1 : ℝ) ≤ t
    · have hprob' : (μ {ω | (if ω = true then q else 1) ≤ t}) ≤ 1 := prob_le_one
      rw [hμ, Measure.dirac_apply, Measure.dirac_apply] at hprob'
      refine hprob'.trans ?_
      rw [← ENNReal.ofReal_one]
      exact ENNReal.ofReal_le_ofReal h1
    · by_cases h2 : q ≤ t
      · simp [Set.indicator, h1, h2]
        exact ENNReal.ofReal_le_ofReal h2
      · simp [Set.indicator, h1, h2]
  · have hrej : true ∈ {ω | ∃ i ∈ (Finset.univ : Finset (Fin 1)),
        Rejects (Rounded.test A .sidak) ((fun ω (_ : Fin 1) => if ω = true then q else (1 : ℝ)) ω)
          ((2 : ℝ) ^ (-60 : ℤ)) i} := by
      refine ⟨0, Finset.mem_univ _, ?_⟩
      rw [Rounded.rejects_iff hA]
      · simp only [Rounded.adjFn, if_true]
        rw [hA.nearest.one_sub_tiny hq0.le (by rw [hq]; norm_num), hA.pow_one_base, sub_self,
          hA.nearest.zero]
        positivity
      · intro i
        simp only [if_true]
        exact ⟨hq0.le, hq1.le⟩
    unfold fwer
    rw [hμ]
    have hd : Measure.dirac true {ω | ∃ i ∈ (Finset.univ : Finset (Fin 1)),
        Rejects (Rounded.test A .sidak) ((fun ω (_ : Fin 1) => if ω = true then q else (1 : ℝ)) ω)
          ((2 : ℝ) ^ (-60 : ℤ)) i} = 1 := by
      rw [Measure.dirac_apply, Set.indicator_of_mem hrej]
      rfl
    rw [hd, mul_one]
    refine lt_of_lt_of_le ?_ le_self_add
    rw [ENNReal.ofReal_lt_ofReal_iff hq0, hq]
    norm_num

end

/-- A valid family of double precision p-values, one of them below `2^-54`, on which every
procedure returns. -/
example : ∃ A, IsDouble A ∧ ∀ proc : Procedure, ∃ (p : List ℝ) (r : List Bool) (a : List ℝ),
    p.length = 3 ∧ (∀ x ∈ p, IsFloat64 x) ∧ p.length ≤ 2 ^ 53 ∧
    Rounded.test A proc p 0.05 = .ok (r, a) ∧ ∃ x ∈ p, 0 < x ∧ x < (2 : ℝ) ^ (-54 : ℤ) := by
  obtain ⟨A, hA⟩ := exists_double
  refine ⟨A, hA, fun proc => ⟨[1 / 4, (2 : ℝ) ^ (-60 : ℤ), 1], _, _, rfl, ?_, by norm_num,
    Rounded.test_eq hA proc _ _ ?_, (2 : ℝ) ^ (-60 : ℤ), by simp, by positivity, by norm_num⟩⟩
  · intro x hx
    simp only [List.mem_cons, List.not_mem_nil, or_false] at hx
    rcases hx with rfl | rfl | rfl
    · exact ⟨1, -2, by norm_num, by norm_num, by norm_num, by norm_num⟩
    · exact ⟨1, -60, by norm_num, by norm_num, by norm_num, by norm_num⟩
    · exact isFloat64_one
  · intro x hx
    simp only [List.mem_cons, List.not_mem_nil, or_false] at hx
    rcases hx with rfl | rfl | rfl <;> constructor <;> norm_num

end Pysatl.Props
