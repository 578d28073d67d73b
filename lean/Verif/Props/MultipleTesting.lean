import Verif.Lemmas.MultipleTestingReal
import Mathlib.Algebra.Order.Ring.Pow
import Mathlib.Tactic.FinCases

/-!
# Properties C01-C06, C09, C10, C12-C14: multiple-testing corrections

`test proc p thr` is the model of `<class>.test(p_values, threshold)`.
-/

namespace Pysatl.Props

open Pysatl.MultipleTesting Pysatl.Spec

/-- A valid four-element family used in the non-vacuity examples; it is the family of
the repository's own test `test_holm_correction`. -/
theorem sample_ok (proc : Procedure) : ∃ r a, test proc [0.04, 0.001, 0.7, 0.02] 0.05 = .ok (r, a) :=
  ⟨_, _, test_eq proc _ _ (by intro x hx; simp at hx; rcases hx with rfl | rfl | rfl | rfl <;> norm_num)⟩

/-- **C01.** `test` raises `ValueError` exactly when some p-value is outside `[0,1]`, and
returns a pair of lists on every other input; it raises nothing else. -/
theorem C01_validation (proc : Procedure) (p : List ℝ) (thr : ℝ) :
    (test proc p thr = .error .valueError ↔ ∃ x ∈ p, x < 0 ∨ 1 < x) ∧
    ((∃ r a, test proc p thr = .ok (r, a)) ↔ ∀ x ∈ p, 0 ≤ x ∧ x ≤ 1) := by
  have hneg : (¬ ∀ x ∈ p, 0 ≤ x ∧ x ≤ 1) ↔ ∃ x ∈ p, x < 0 ∨ 1 < x := by
    push Not
    constructor
    · rintro ⟨x, hx, h⟩
      refine ⟨x, hx, ?_⟩
      rcases lt_or_ge x 0 with h0 | h0
      · exact Or.inl h0
      · exact Or.inr (h h0)
    · rintro ⟨x, hx, h⟩
      refine ⟨x, hx, fun h0 => ?_⟩
      rcases h with h | h
      · exact absurd h0 (not_le.2 h)
      · exact h
  by_cases hv : ∀ x ∈ p, 0 ≤ x ∧ x ≤ 1
  · rw [test_eq proc p thr hv]
    refine ⟨⟨fun h => (by cases h), fun h => absurd hv (hneg.2 h)⟩, ⟨fun _ => hv, fun _ => ⟨_, _, rfl⟩⟩⟩
  · rw [test_error proc p thr hv]
    refine ⟨⟨fun _ => hneg.1 hv, fun _ => rfl⟩, ⟨fun h => ?_, fun h => absurd h hv⟩⟩
    obtain ⟨r, a, h⟩ := h
    cases h

example : (∃ x ∈ ([0.2, 1.5, 0.1] : List ℝ), x < 0 ∨ 1 < x) ∧
    (∀ x ∈ ([0, 0.5, 1] : List ℝ), 0 ≤ x ∧ x ≤ 1) := by
  refine ⟨⟨1.5, by simp, Or.inr (by norm_num)⟩, ?_⟩
  intro x hx
  simp at hx
  rcases hx with rfl | rfl | rfl <;> norm_num

/-- **C02.** The lists returned have the length of the input, and `rejected[i]` is `True`
exactly when `adjusted[i] < threshold`. -/
theorem C02_shape (proc : Procedure) (p : List ℝ) (thr : ℝ) (r : List Bool) (a : List ℝ)
    (h : test proc p thr = .ok (r, a)) :
    r.length = p.length ∧ a.length = p.length ∧
    ∀ (i : ℕ) (hr : i < r.length) (ha : i < a.length), (r[i] = true ↔ a[i] < thr) := by
  obtain ⟨_, rfl, rfl⟩ := test_ok h
  refine ⟨by simp, by simp, ?_⟩
  intro i hr ha
  simp

/-- **C02.** Raising the threshold changes no adjusted value and un-rejects nothing. -/
theorem C02_threshold_monotone (proc : Procedure) (p : List ℝ) (thr thr' : ℝ) (hthr : thr ≤ thr')
    (r r' : List Bool) (a a' : List ℝ) (h : test proc p thr = .ok (r, a))
    (h' : test proc p thr' = .ok (r', a')) :
    a = a' ∧ ∀ (i : ℕ) (hr : i < r.length) (hr' : i < r'.length), r[i] = true → r'[i] = true := by
  obtain ⟨_, rfl, rfl⟩ := test_ok h
  obtain ⟨_, rfl, rfl⟩ := test_ok h'
  refine ⟨rfl, ?_⟩
  intro i hr hr' hi
  simp only [List.getElem_map, decide_eq_true_eq] at hi ⊢
  exact hi.trans_le hthr

/-- **C02.** The adjusted values do not depend on the threshold: `test` returns exactly
what `adjust` returns. -/
theorem C02_adjusted_is_adjust (proc : Procedure) (p : List ℝ) (thr : ℝ) (r : List Bool) (a : List ℝ)
    (h : test proc p thr = .ok (r, a)) : adjust proc p = .ok a := by
  obtain ⟨hv, rfl, _⟩ := test_ok h
  exact adjust_eq proc p hv

example (proc : Procedure) : ∃ (p : List ℝ) (r : List Bool) (a : List ℝ),
    p.length = 4 ∧ test proc p 0.05 = .ok (r, a) := by
  obtain ⟨r, a, h⟩ := sample_ok proc
  exact ⟨_, r, a, rfl, h⟩

theorem adjFn_ge {n : ℕ} (proc : Procedure) (p : Fin n → ℝ) (hp : ∀ i, 0 ≤ p i ∧ p i ≤ 1) (i : Fin n) :
    p i ≤ adjFn proc p i ∧ adjFn proc p i ≤ 1 := by
  have hn : 0 < n := i.pos
  have hn1 : (1 : ℝ) ≤ n := by exact_mod_cast hn
  have hsid : p i ≤ 1 - (1 - p i) ^ n := by
    have : (1 - p i) ^ n ≤ 1 - p i :=
      pow_le_of_le_one (by linarith [(hp i).2]) (by linarith [(hp i).1]) hn.ne'
    linarith
  have hsid1 : 1 - (1 - p i) ^ n ≤ 1 := by
    have : 0 ≤ (1 - p i) ^ n := pow_nonneg (by linarith [(hp i).2]) n
    linarith
  cases proc with
  | bonferroni =>
    simp only [adjFn]
    refine ⟨le_min ?_ (hp i).2, min_le_right _ _⟩
    exact le_mul_of_one_le_right (hp i).1 hn1
  | sidak => exact ⟨hsid, hsid1⟩
  | holm =>
    simp only [adjFn]
    constructor
    · rw [le_stepUp_iff]
      intro j hj
      refine hj.trans (le_min (hp j).2 (le_mul_of_one_le_right (hp j).1 ?_))
      have h1 := countLe_pos p j
      have h2 := countLe_le p (p j)
      have : ((countLe p (p j) - 1 : ℕ) : ℝ) + 1 ≤ n := by
        exact_mod_cast (by omega : countLe p (p j) - 1 + 1 ≤ n)
      linarith
    · rw [stepUp_le_iff]
      exact ⟨i, le_rfl, min_le_left _ _⟩
  | sidakHolm => exact ⟨le_min (hp i).2 hsid, min_le_left _ _⟩
  | benjaminiYekutieli =>
    simp only [adjFn]
    constructor
    · rw [le_stepUp_iff]
      intro j hj
      refine hj.trans (le_min (hp j).2 ?_)
      have h1 := countLe_pos p j
      have h2 := countLe_le p (p j)
      have hc := byFactor_ge_one n hn
      have h3 : ((countLe p (p j) - 1 + 1 : ℕ) : ℝ) ≤ n := by
        exact_mod_cast (by omega : countLe p (p j) - 1 + 1 ≤ n)
      have h4 : (0 : ℝ) < ((countLe p (p j) - 1 + 1 : ℕ) : ℝ) := by
        exact_mod_cast Nat.succ_pos _
      rw [le_div_iff₀ h4, mul_assoc]
      refine mul_le_mul_of_nonneg_left ?_ (hp j).1
      nlinarith
    · rw [stepUp_le_iff]
      exact ⟨i, le_rfl, min_le_left _ _⟩

/-- **C03.** Every adjusted p-value lies between the raw p-value and 1. -/
theorem C03_bounds (proc : Procedure) (p : List ℝ) (thr : ℝ) (r : List Bool) (a : List ℝ)
    (h : test proc p thr = .ok (r, a)) (i : ℕ) (hi : i < p.length) (hia : i < a.length) :
    p[i] ≤ a[i] ∧ a[i] ≤ 1 := by
  obtain ⟨hv, rfl, _⟩ := test_ok h
  have := adjFn_ge proc p.get (fun j => hv _ (List.get_mem _ _)) ⟨i, hi⟩
  simpa using this

theorem adjFn_mono {n : ℕ} (proc : Procedure) (p : Fin n → ℝ) (hp : ∀ i, 0 ≤ p i ∧ p i ≤ 1) (i j : Fin n)
    (h : p i ≤ p j) : adjFn proc p i ≤ adjFn proc p j := by
  have hsid : 1 - (1 - p i) ^ n ≤ 1 - (1 - p j) ^ n := by
    have : (1 - p j) ^ n ≤ (1 - p i) ^ n := pow_le_pow_left₀ (by linarith [(hp j).2]) (by linarith) n
    linarith
  cases proc with
  | bonferroni =>
    simp only [adjFn]
    exact min_le_min_right _ (mul_le_mul_of_nonneg_right h (Nat.cast_nonneg n))
  | sidak => exact hsid
  | holm => exact stepUp_mono _ _ _ _ h
  | sidakHolm => exact min_le_min_left _ hsid
  | benjaminiYekutieli => exact stepUp_mono _ _ _ _ h

/-- **C04.** The correction preserves the order of the p-values (so ties stay ties), and a
hypothesis with a smaller p-value is never kept while one with a larger one is rejected. -/
theorem C04_order (proc : Procedure) (p : List ℝ) (thr : ℝ) (r : List Bool) (a : List ℝ)
    (h : test proc p thr = .ok (r, a)) (i j : ℕ) (hi : i < p.length) (hj : j < p.length)
    (hia : i < a.length) (hja : j < a.length) (hir : i < r.length) (hjr : j < r.length)
    (hij : p[i] ≤ p[j]) :
    a[i] ≤ a[j] ∧ (p[i] = p[j] → a[i] = a[j]) ∧ (r[j] = true → r[i] = true) := by
  obtain ⟨hv, rfl, rfl⟩ := test_ok h
  have hp : ∀ k, 0 ≤ p.get k ∧ p.get k ≤ 1 := fun k => hv _ (List.get_mem _ _)
  have h1 := adjFn_mono proc p.get hp ⟨i, hi⟩ ⟨j, hj⟩ (by simpa using hij)
  refine ⟨by simpa using h1, fun he => ?_, fun hr => ?_⟩
  · have h2 := adjFn_mono proc p.get hp ⟨j, hj⟩ ⟨i, hi⟩ (by simp [he])
    simpa using le_antisymm h1 h2
  · simp only [List.getElem_map, List.getElem_ofFn, decide_eq_true_eq] at hr ⊢
    exact lt_of_le_of_lt h1 hr

/-- **C05.** Permuting the p-values permutes adjusted values and decisions alike. -/
theorem C05_permutation {n : ℕ} (proc : Procedure) (p : Fin n → ℝ) (thr : ℝ) (σ : Equiv.Perm (Fin n))
    (r : Fin n → Bool) (a : Fin n → ℝ)
    (h : test proc (List.ofFn p) thr = .ok (List.ofFn r, List.ofFn a)) :
    test proc (List.ofFn (p ∘ σ)) thr = .ok (List.ofFn (r ∘ σ), List.ofFn (a ∘ σ)) := by
  have hp := (valid_ofFn p).1 (valid_of_ok h)
  have hσ : ∀ i, adjFn proc (p ∘ σ) i = adjFn proc p (σ i) := by
    intro i
    cases proc <;> simp only [adjFn, Function.comp]
    · exact stepUp_comp_perm _ p σ i
    · exact stepUp_comp_perm _ p σ i
  rw [test_ofFn proc _ _ hp] at h
  simp only [Except.ok.injEq, Prod.mk.injEq, List.ofFn_inj] at h
  rw [test_ofFn proc (p ∘ σ) thr (fun i => hp (σ i))]
  congr 2
  · congr 1
    funext i
    simp only [hσ, Function.comp]
    exact congrFun h.1 (σ i)
  · congr 1
    funext i
    simp only [hσ, Function.comp]
    exact congrFun h.2 (σ i)

example (proc : Procedure) : ∃ (p : Fin 4 → ℝ) (r : Fin 4 → Bool) (a : Fin 4 → ℝ),
    test proc (List.ofFn p) 0.05 = .ok (List.ofFn r, List.ofFn a) :=
  ⟨![0.04, 0.001, 0.7, 0.02], _, _, test_ofFn proc _ _ (by
    intro i; fin_cases i <;> norm_num)⟩

/-- **C06.** Raising p-values lowers no adjusted p-value and creates no rejection. -/
theorem C06_monotone_evidence {n : ℕ} (proc : Procedure) (p q : Fin n → ℝ) (thr : ℝ)
    (hpq : ∀ i, p i ≤ q i) (rp rq : Fin n → Bool) (ap aq : Fin n → ℝ)
    (hp : test proc (List.ofFn p) thr = .ok (List.ofFn rp, List.ofFn ap))
    (hq : test proc (List.ofFn q) thr = .ok (List.ofFn rq, List.ofFn aq)) (i : Fin n) :
    ap i ≤ aq i ∧ (rq i = true → rp i = true) := by
  have hvp := (valid_ofFn p).1 (valid_of_ok hp)
  have hvq := (valid_ofFn q).1 (valid_of_ok hq)
  rw [test_ofFn proc _ _ hvp] at hp
  rw [test_ofFn proc _ _ hvq] at hq
  simp only [Except.ok.injEq, Prod.mk.injEq, List.ofFn_inj] at hp hq
  obtain ⟨rfl, rfl⟩ := hp
  obtain ⟨rfl, rfl⟩ := hq
  have key : adjFn proc p i ≤ adjFn proc q i := by
    have hsid : 1 - (1 - p i) ^ n ≤ 1 - (1 - q i) ^ n := by
      have : (1 - q i) ^ n ≤ (1 - p i) ^ n :=
        pow_le_pow_left₀ (by linarith [(hvq i).2]) (by linarith [hpq i]) n
      linarith
    cases proc with
    | bonferroni =>
      simp only [adjFn]
      exact min_le_min_right _ (mul_le_mul_of_nonneg_right (hpq i) (Nat.cast_nonneg n))
    | sidak => exact hsid
    | holm =>
      apply stepUp_le_stepUp _ _ _ _ _ hpq
      · intro s t j hst _; exact holmW_anti s t _ (hvp j).1 hst
      · intro r x y hr hxy; exact holmW_mono r hr.le x y hxy
    | sidakHolm => exact min_le_min_left _ hsid
    | benjaminiYekutieli =>
      have hc : 0 ≤ byFactor n := zero_le_one.trans (byFactor_ge_one n i.pos)
      apply stepUp_le_stepUp _ _ _ _ _ hpq
      · intro s t j hst _; exact byW_anti _ hc s t _ (hvp j).1 hst
      · intro r x y hr hxy; exact byW_mono _ hc r x y hxy
  refine ⟨key, fun h => ?_⟩
  simp only [decide_eq_true_eq] at h ⊢
  exact key.trans_lt h

example (proc : Procedure) : ∃ (p q : Fin 2 → ℝ) (rp rq : Fin 2 → Bool) (ap aq : Fin 2 → ℝ),
    (∀ i, p i ≤ q i) ∧ p ≠ q ∧
    test proc (List.ofFn p) 0.05 = .ok (List.ofFn rp, List.ofFn ap) ∧
    test proc (List.ofFn q) 0.05 = .ok (List.ofFn rq, List.ofFn aq) := by
  refine ⟨![0.1, 0.5], ![0.6, 0.5], _, _, _, _, ?_, ?_, test_ofFn proc _ _ ?_, test_ofFn proc _ _ ?_⟩
  · intro i; fin_cases i <;> norm_num
  · intro h; have := congrFun h 0; norm_num at this
  · intro i; fin_cases i <;> norm_num
  · intro i; fin_cases i <;> norm_num

theorem bonferroni_ge_sidak {n : ℕ} (p : Fin n → ℝ) (hp : ∀ i, 0 ≤ p i ∧ p i ≤ 1) (i : Fin n) :
    adjFn .sidak p i ≤ adjFn .bonferroni p i := by
  simp only [adjFn]
  apply le_min
  · have := one_add_mul_le_pow (a := -p i) (by linarith [(hp i).2]) n
    rw [← sub_eq_add_neg] at this
    linarith
  · exact (adjFn_ge .sidak p hp i).2

/-- **C09.** Sidak-adjusted values are at most the Bonferroni-adjusted ones, and every
Bonferroni rejection is a Sidak rejection. -/
theorem C09_sidak_le_bonferroni {n : ℕ} (p : Fin n → ℝ) (thr : ℝ) (rs rb : Fin n → Bool)
    (as ab : Fin n → ℝ)
    (hs : test .sidak (List.ofFn p) thr = .ok (List.ofFn rs, List.ofFn as))
    (hb : test .bonferroni (List.ofFn p) thr = .ok (List.ofFn rb, List.ofFn ab)) (i : Fin n) :
    as i ≤ ab i ∧ (rb i = true → rs i = true) := by
  have hv := (valid_ofFn p).1 (valid_of_ok hs)
  rw [test_ofFn _ _ _ hv] at hs hb
  simp only [Except.ok.injEq, Prod.mk.injEq, List.ofFn_inj] at hs hb
  obtain ⟨rfl, rfl⟩ := hs
  obtain ⟨rfl, rfl⟩ := hb
  have key := bonferroni_ge_sidak p hv i
  refine ⟨key, fun h => ?_⟩
  simp only [decide_eq_true_eq] at h ⊢
  exact key.trans_lt h

/-- What the `Holm` class computes is Hochberg's step-up adjustment. -/
theorem adjFn_holm_eq_hochberg {n : ℕ} (p : Fin n → ℝ) : adjFn .holm p = hochberg p := by
  funext i
  apply eq_of_forall_le_iff
  intro b
  simp only [adjFn]
  rw [le_stepUp_iff, hochberg, Finset.le_inf'_iff]
  simp only [Finset.mem_filter, Finset.mem_univ, true_and]
  refine forall_congr' fun j => imp_congr_right fun _ => ?_
  have h1 := countLe_pos p j
  have h2 := countLe_add_countGt p (p j)
  have : (n : ℝ) - ((countLe p (p j) - 1 : ℕ) : ℝ) = (countGt p (p j) : ℝ) + 1 := by
    have h3 : ((countLe p (p j) - 1 : ℕ) : ℝ) + 1 = countLe p (p j) := by
      exact_mod_cast Nat.succ_pred_eq_of_pos h1
    have h4 : (countLe p (p j) : ℝ) + countGt p (p j) = n := by exact_mod_cast h2
    linarith
  rw [holmW, this, mul_comm]

theorem hochberg_le_holm {n : ℕ} (p : Fin n → ℝ) (hp : ∀ i, 0 ≤ p i) (i : Fin n) :
    hochberg p i ≤ holm p i := by
  have h1 : hochberg p i ≤ min 1 (((countGt p (p i) : ℝ) + 1) * p i) :=
    Finset.inf'_le (f := fun j => min 1 (((countGt p (p j) : ℝ) + 1) * p j)) (by simp)
  have h2 : min 1 (((n : ℝ) - (countLt p (p i) : ℝ)) * p i) ≤ holm p i :=
    Finset.le_sup' (f := fun j => min 1 (((n : ℝ) - (countLt p (p j) : ℝ)) * p j)) (by simp)
  refine h1.trans (le_trans (min_le_min_left _ (mul_le_mul_of_nonneg_right ?_ (hp i))) h2)
  have hlt : countLt p (p i) + 1 ≤ countLe p (p i) := by
    unfold countLt countLe
    rw [← Finset.card_insert_of_notMem (a := i) (by simp)]
    apply Finset.card_le_card
    intro k hk
    simp only [Finset.mem_insert, Finset.mem_filter, Finset.mem_univ, true_and] at hk ⊢
    rcases hk with rfl | hk
    · exact le_rfl
    · exact hk.le
  have := countLe_add_countGt p (p i)
  have h3 : (countLt p (p i) : ℝ) + 1 ≤ countLe p (p i) := by exact_mod_cast hlt
  have h4 : (countLe p (p i) : ℝ) + countGt p (p i) = n := by exact_mod_cast this
  linarith

/-- **C10, refuted.** `Holm.test` does not return Holm's step-down adjustment: on
`[0.04, 0.04]` it returns `[0.04, 0.04]` and rejects both at 0.05, while Holm's
adjusted values are `[0.08, 0.08]`. -/
theorem C10_refuted :
    test .holm (List.ofFn ![(0.04 : ℝ), 0.04]) 0.05 = .ok ([true, true], [0.04, 0.04]) ∧
    holm ![(0.04 : ℝ), 0.04] 0 = 0.08 ∧ holm ![(0.04 : ℝ), 0.04] 1 = 0.08 := by
  have hv : ∀ i : Fin 2, 0 ≤ (![(0.04 : ℝ), 0.04]) i ∧ (![(0.04 : ℝ), 0.04]) i ≤ 1 := by
    intro i; fin_cases i <;> norm_num
  have hval : ∀ j : Fin 2, (![(0.04 : ℝ), 0.04]) j = 0.04 := by intro j; fin_cases j <;> rfl
  have hgt : countGt ![(0.04 : ℝ), 0.04] 0.04 = 0 := by
    simp [countGt, hval]
  have hlt : countLt ![(0.04 : ℝ), 0.04] 0.04 = 0 := by
    simp [countLt, hval]
  have hadj : ∀ i, adjFn .holm ![(0.04 : ℝ), 0.04] i = 0.04 := by
    intro i
    rw [adjFn_holm_eq_hochberg]
    unfold hochberg
    simp only [hval, hgt]
    rw [Finset.inf'_const]
    norm_num
  have hholm : ∀ i, holm ![(0.04 : ℝ), 0.04] i = 0.08 := by
    intro i
    unfold holm
    simp only [hval, hlt]
    rw [Finset.sup'_const]
    norm_num
  refine ⟨?_, hholm 0, hholm 1⟩
  rw [test_ofFn _ _ _ hv, show adjFn .holm ![(0.04 : ℝ), 0.04] = fun _ => 0.04 from funext hadj]
  simp only [List.ofFn_succ, List.ofFn_zero]
  norm_num

/-- **C10, what holds.** `Holm.test` returns on every valid input Hochberg's step-up
adjusted values, each at most Holm's step-down value; so it rejects whatever Holm's
procedure rejects (and possibly more).  Missing: equality with the step-down value,
which is false (`C10_refuted`). -/
theorem C10_holm_partial {n : ℕ} (p : Fin n → ℝ) (thr : ℝ) (r : Fin n → Bool) (a : Fin n → ℝ)
    (h : test .holm (List.ofFn p) thr = .ok (List.ofFn r, List.ofFn a)) (i : Fin n) :
    a i = hochberg p i ∧ a i ≤ holm p i ∧ (holm p i < thr → r i = true) := by
  have hv := (valid_ofFn p).1 (valid_of_ok h)
  rw [test_ofFn _ _ _ hv] at h
  simp only [Except.ok.injEq, Prod.mk.injEq, List.ofFn_inj] at h
  obtain ⟨rfl, rfl⟩ := h
  have h1 : adjFn .holm p i = hochberg p i := congrFun (adjFn_holm_eq_hochberg p) i
  have h2 := hochberg_le_holm p (fun i => (hv i).1) i
  refine ⟨h1, h1 ▸ h2, fun h => ?_⟩
  simp only [decide_eq_true_eq, h1]
  exact h2.trans_lt h

/-- The repository's own example (`tests/.../test_fwer.py::test_holm_correction`) evaluated
in the model. -/
theorem holm_repo_example :
    holmAdjust ([0.04, 0.001, 0.7, 0.02] : List ℚ) = [0.08, 0.004, 0.7, 0.06] := by
  decide +kernel

example : ∃ (r : Fin 4 → Bool) (a : Fin 4 → ℝ),
    test .holm (List.ofFn ![0.04, 0.001, 0.7, 0.02]) 0.05 = .ok (List.ofFn r, List.ofFn a) :=
  ⟨_, _, test_ofFn _ _ _ (by intro i; fin_cases i <;> norm_num)⟩

/-- **C12.** The Holm class adjusts no p-value to more than Bonferroni does, so it rejects
everything Bonferroni rejects. -/
theorem C12_holm_le_bonferroni {n : ℕ} (p : Fin n → ℝ) (thr : ℝ) (rh rb : Fin n → Bool)
    (ah ab : Fin n → ℝ)
    (hh : test .holm (List.ofFn p) thr = .ok (List.ofFn rh, List.ofFn ah))
    (hb : test .bonferroni (List.ofFn p) thr = .ok (List.ofFn rb, List.ofFn ab)) (i : Fin n) :
    ah i ≤ ab i ∧ (rb i = true → rh i = true) := by
  have hv := (valid_ofFn p).1 (valid_of_ok hh)
  rw [test_ofFn _ _ _ hv] at hh hb
  simp only [Except.ok.injEq, Prod.mk.injEq, List.ofFn_inj] at hh hb
  obtain ⟨rfl, rfl⟩ := hh
  obtain ⟨rfl, rfl⟩ := hb
  have key : adjFn .holm p i ≤ adjFn .bonferroni p i := by
    simp only [adjFn]
    rw [stepUp_le_iff]
    refine ⟨i, le_rfl, ?_⟩
    rw [holmW, min_comm]
    refine min_le_min_right _ (mul_le_mul_of_nonneg_left ?_ (hv i).1)
    have : (0 : ℝ) ≤ ((countLe p (p i) - 1 : ℕ) : ℝ) := Nat.cast_nonneg _
    linarith
  refine ⟨key, fun h => ?_⟩
  simp only [decide_eq_true_eq] at h ⊢
  exact key.trans_lt h

/-- **C13, refuted.** `SidakHolm.test` does not return the step-down Holm-Sidak
adjustment: on `[0, 0.5]` it returns 0.75 for the second hypothesis, the step-down value
is 0.5. -/
theorem C13_refuted :
    test .sidakHolm (List.ofFn ![(0 : ℝ), 0.5]) 0.6 = .ok ([true, false], [0, 0.75]) ∧
    holmSidak ![(0 : ℝ), 0.5] 1 = 0.5 := by
  constructor
  · rw [test_ofFn _ _ _ (by intro i; fin_cases i <;> norm_num)]
    simp only [adjFn, List.ofFn_succ, List.ofFn_zero]
    norm_num
  · have h0 : countLt ![(0 : ℝ), 0.5] 0 = 0 := by
      unfold countLt
      rw [Finset.card_eq_zero, Finset.filter_eq_empty_iff]
      intro x _
      fin_cases x <;> norm_num
    have h1 : countLt ![(0 : ℝ), 0.5] 0.5 = 1 := by
      unfold countLt
      rw [Finset.card_eq_one]
      refine ⟨0, ?_⟩
      ext x
      fin_cases x <;> norm_num
    unfold holmSidak
    apply le_antisymm
    · apply Finset.sup'_le
      intro j _
      fin_cases j
      · simp only [Fin.zero_eta, Matrix.cons_val_zero, h0]; norm_num
      · simp only [Fin.mk_one, Matrix.cons_val_one, Matrix.cons_val_fin_one, h1]; norm_num
    · refine le_trans ?_ (Finset.le_sup' _ (b := 1) (by simp))
      simp only [Matrix.cons_val_one, Matrix.cons_val_fin_one, h1]
      norm_num

/-- **C13, what holds.** `SidakHolm.test` returns exactly what `SidakMultipleTesting.test`
returns - the single-step values - and each is at least the step-down value, so it is
valid but rejects no more than Sidak.  Missing: equality with the step-down value, false
by `C13_refuted`. -/
theorem C13_sidakHolm_partial {n : ℕ} (p : Fin n → ℝ) (thr : ℝ) (r : Fin n → Bool) (a : Fin n → ℝ)
    (h : test .sidakHolm (List.ofFn p) thr = .ok (List.ofFn r, List.ofFn a)) :
    test .sidak (List.ofFn p) thr = .ok (List.ofFn r, List.ofFn a) ∧
    ∀ i, a i = 1 - (1 - p i) ^ n ∧ holmSidak p i ≤ a i := by
  have hv := (valid_ofFn p).1 (valid_of_ok h)
  have heq : adjFn .sidakHolm p = adjFn .sidak p := by
    funext i
    exact min_eq_right (adjFn_ge .sidak p hv i).2
  have h' := h
  rw [test_ofFn _ _ _ hv, heq] at h
  refine ⟨by rw [test_ofFn _ _ _ hv]; exact h, ?_⟩
  simp only [Except.ok.injEq, Prod.mk.injEq, List.ofFn_inj] at h
  obtain ⟨_, rfl⟩ := h
  intro i
  refine ⟨rfl, ?_⟩
  unfold holmSidak
  apply Finset.sup'_le
  intro j hj
  simp only [Finset.mem_filter, Finset.mem_univ, true_and] at hj
  simp only [adjFn]
  have h1 : (1 - p i) ^ n ≤ (1 - p j) ^ n := pow_le_pow_left₀ (by linarith [(hv i).2]) (by linarith) n
  have h2 : (1 - p j) ^ n ≤ (1 - p j) ^ (n - countLt p (p j)) :=
    pow_le_pow_of_le_one (by linarith [(hv j).2]) (by linarith [(hv j).1]) (Nat.sub_le _ _)
  linarith

example : ∃ (p : Fin 3 → ℝ) (r : Fin 3 → Bool) (a : Fin 3 → ℝ),
    test .sidakHolm (List.ofFn p) 0.05 = .ok (List.ofFn r, List.ofFn a) :=
  ⟨![0.01, 0.02, 0.1], _, _, test_ofFn _ _ _ (by intro i; fin_cases i <;> norm_num)⟩

theorem adjFn_by_eq {n : ℕ} (p : Fin n → ℝ) :
    adjFn .benjaminiYekutieli p = stepUpFdr (byFactor n) p := by
  funext i
  apply eq_of_forall_le_iff
  intro b
  simp only [adjFn]
  rw [le_stepUp_iff, stepUpFdr, Finset.le_inf'_iff]
  simp only [Finset.mem_filter, Finset.mem_univ, true_and]
  refine forall_congr' fun j => imp_congr_right fun _ => ?_
  have h1 := countLe_pos p j
  rw [byW, Nat.sub_add_cancel h1, show p j * (n : ℝ) * byFactor n = n * byFactor n * p j by ring]

/-- **C14.** For at most 10000 hypotheses `BenjaminiYekutieli.test` returns exactly the
textbook step-up values with the harmonic number as factor. -/
theorem C14_benjamini_yekutieli {n : ℕ} (hn : n ≤ 10000) (p : Fin n → ℝ) (thr : ℝ) (r : Fin n → Bool)
    (a : Fin n → ℝ)
    (h : test .benjaminiYekutieli (List.ofFn p) thr = .ok (List.ofFn r, List.ofFn a)) (i : Fin n) :
    a i = stepUpFdr (harmonicNumber n) p i := by
  have hv := (valid_ofFn p).1 (valid_of_ok h)
  rw [test_ofFn _ _ _ hv] at h
  simp only [Except.ok.injEq, Prod.mk.injEq, List.ofFn_inj] at h
  obtain ⟨_, rfl⟩ := h
  rw [adjFn_by_eq, byFactor, if_neg (by omega), harmonicSum_eq]

/-- **C14.** For more than 10000 hypotheses the same formula holds with the factor
`log n + 0.5772156649015328606065120900824024310421`. -/
theorem C14_benjamini_yekutieli_large {n : ℕ} (hn : 10000 < n) (p : Fin n → ℝ) (thr : ℝ)
    (r : Fin n → Bool) (a : Fin n → ℝ)
    (h : test .benjaminiYekutieli (List.ofFn p) thr = .ok (List.ofFn r, List.ofFn a)) (i : Fin n) :
    a i = stepUpFdr (Real.log n + 0.5772156649015328606065120900824024310421) p i := by
  have hv := (valid_ofFn p).1 (valid_of_ok h)
  rw [test_ofFn _ _ _ hv] at h
  simp only [Except.ok.injEq, Prod.mk.injEq, List.ofFn_inj] at h
  obtain ⟨_, rfl⟩ := h
  rw [adjFn_by_eq, byFactor, if_pos hn]

example : ∃ (r : Fin 4 → Bool) (a : Fin 4 → ℝ),
    test .benjaminiYekutieli (List.ofFn ![0.04, 0.001, 0.7, 0.02]) 0.05 = .ok (List.ofFn r, List.ofFn a) :=
  ⟨_, _, test_ofFn _ _ _ (by intro i; fin_cases i <;> norm_num)⟩

example : ∃ (r : Fin 20000 → Bool) (a : Fin 20000 → ℝ),
    test .benjaminiYekutieli (List.ofFn (fun i : Fin 20000 => (i : ℝ) / 20000)) 0.05 =
      .ok (List.ofFn r, List.ofFn a) :=
  ⟨_, _, test_ofFn _ _ _ (fun i => ⟨by positivity, by
    rw [div_le_one (by norm_num)]; exact_mod_cast i.isLt.le⟩)⟩

end Pysatl.Props
