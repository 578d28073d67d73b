import Verif.Model.MultipleTestingFloat
import Verif.Lemmas.MultipleTestingReal
import Verif.Lemmas.Float64

/-!
# Helper lemmas: closed forms of the corrections with rounding
-/

namespace Pysatl.MultipleTesting.Rounded

open Pysatl.Spec

variable {n : ℕ} (A : FloatOps)

theorem holmForward_not_mem (p : Fin n → ℝ) (i : ℕ) (L : List (Fin n)) (a : Fin n → ℝ) (x : Fin n)
    (hx : x ∉ L) : holmForward A p i L a x = a x := by
  induction L generalizing i a with
  | nil => rfl
  | cons y L ih =>
    simp only [List.mem_cons, not_or] at hx
    rw [holmForward, ih _ _ hx.2, Function.update_of_ne hx.1]

theorem holmForward_get (p : Fin n → ℝ) (i : ℕ) (L : List (Fin n)) (a : Fin n → ℝ) (hL : L.Nodup)
    (s : ℕ) (hs : s < L.length) :
    holmForward A p i L a L[s] =
      min 1 (A.fl (p L[s] * A.fl ((n : ℝ) - ((i + s : ℕ) : ℝ)))) := by
  induction L generalizing i a s with
  | nil => simp at hs
  | cons y L ih =>
    rw [List.nodup_cons] at hL
    cases s with
    | zero =>
      simp only [holmForward, List.getElem_cons_zero, Nat.add_zero]
      rw [holmForward_not_mem _ _ _ _ _ _ hL.1, Function.update_self]
    | succ s =>
      simp only [holmForward, List.getElem_cons_succ]
      rw [ih (i + 1) _ hL.2 s (by simpa using hs)]
      rw [show i + 1 + s = i + (s + 1) by omega]

theorem byForward_not_mem (c : ℝ) (p : Fin n → ℝ) (i : ℕ) (L : List (Fin n)) (a : Fin n → ℝ)
    (x : Fin n) (hx : x ∉ L) : byForward A c p i L a x = a x := by
  induction L generalizing i a with
  | nil => rfl
  | cons y L ih =>
    simp only [List.mem_cons, not_or] at hx
    rw [byForward, ih _ _ hx.2, Function.update_of_ne hx.1]

theorem byForward_get (c : ℝ) (p : Fin n → ℝ) (i : ℕ) (L : List (Fin n)) (a : Fin n → ℝ)
    (hL : L.Nodup) (s : ℕ) (hs : s < L.length) :
    byForward A c p i L a L[s] =
      min 1 (A.fl (A.fl (A.fl (p L[s] * A.fl (n : ℝ)) * c) / A.fl ((i + s + 1 : ℕ) : ℝ))) := by
  induction L generalizing i a s with
  | nil => simp at hs
  | cons y L ih =>
    rw [List.nodup_cons] at hL
    cases s with
    | zero =>
      simp only [byForward, List.getElem_cons_zero, Nat.add_zero]
      rw [byForward_not_mem _ _ _ _ _ _ _ hL.1, Function.update_self]
    | succ s =>
      simp only [byForward, List.getElem_cons_succ]
      rw [ih (i + 1) _ hL.2 s (by simpa using hs)]
      rw [show i + 1 + s + 1 = i + (s + 1) + 1 by omega]

/-- Value used by Holm at (0-based) rank `r`. -/
noncomputable def holmW (n r : ℕ) (x : ℝ) : ℝ := min 1 (A.fl (x * A.fl ((n : ℝ) - (r : ℝ))))

/-- Value used by Benjamini-Yekutieli at (0-based) rank `r`. -/
noncomputable def byW (n : ℕ) (c : ℝ) (r : ℕ) (x : ℝ) : ℝ :=
  min 1 (A.fl (A.fl (A.fl (x * A.fl (n : ℝ)) * c) / A.fl ((r + 1 : ℕ) : ℝ)))

/-- The closed forms of the five procedures. -/
noncomputable def adjFn : Procedure → (Fin n → ℝ) → Fin n → ℝ
  | .bonferroni, p => fun i => min (A.fl (p i * A.fl (n : ℝ))) 1
  | .sidak, p => fun i => A.fl (1 - A.pow (A.fl (1 - p i)) n)
  | .holm, p => stepUp (holmW A n) p
  | .sidakHolm, p => fun i => min 1 (A.fl (1 - A.pow (A.fl (1 - p i)) n))
  | .benjaminiYekutieli, p => stepUp (byW A n (byFactor A n)) p

variable {A} (hA : IsDouble A)

include hA

theorem fl_nat_pos (k : ℕ) (hk : 0 < k) : 1 ≤ A.fl (k : ℝ) :=
  hA.nearest.float_le isFloat64_one (by exact_mod_cast hk)

theorem fl_nat_mono {k l : ℕ} (h : k ≤ l) : A.fl (k : ℝ) ≤ A.fl (l : ℝ) :=
  hA.nearest.mono (by exact_mod_cast h)

theorem byFactor_isFloat (n : ℕ) : IsFloat64 (byFactor A n) := by
  unfold byFactor
  split
  · exact (hA.nearest _).1
  · exact hA.sum_float _

theorem byFactor_one : byFactor A 1 = 1 := by
  have : (List.range 1).map (fun i : ℕ => A.fl (1 / A.fl ((i + 1 : ℕ) : ℝ))) = [1] := by
    simp [List.range_succ, hA.nearest.one]
  rw [byFactor, if_neg (by norm_num), this, hA.sum_one]

theorem byFactor_ge (n : ℕ) (hn : 2 ≤ n) : 5 / 4 ≤ byFactor A n := by
  unfold byFactor
  split
  · rename_i h
    have hlog : (3 : ℝ) ≤ Real.log n := by
      rw [Real.le_log_iff_exp_le (by positivity)]
      have h1 : Real.exp 3 = Real.exp 1 ^ 3 := by rw [← Real.exp_nat_mul]; norm_num
      have h2 := Real.exp_one_lt_d9
      have h3 : Real.exp 1 ^ 3 ≤ 3 ^ 3 := pow_le_pow_left₀ (Real.exp_pos _).le (by linarith) 3
      have : (10000 : ℝ) < n := by exact_mod_cast h
      rw [h1]
      linarith
    have he := abs_le.1 (hA.log_error n h)
    have hc : 0 ≤ A.fl 0.5772156649015328606065120900824024310421 :=
      hA.nearest.nonneg (by norm_num)
    have h2 : (2 : ℝ) ≤ A.fl (A.log n + A.fl 0.5772156649015328606065120900824024310421) :=
      hA.nearest.float_le (by simpa using isFloat64_nat 2 (by norm_num)) (by linarith [he.1])
    linarith
  · rename_i h
    set l := (List.range n).map (fun i : ℕ => A.fl (1 / A.fl ((i + 1 : ℕ) : ℝ))) with hl
    have hmem : ∀ x ∈ l, IsFloat64 x ∧ 0 ≤ x ∧ x ≤ 1 := by
      intro x hx
      rw [hl] at hx
      obtain ⟨i, _, rfl⟩ := List.mem_map.1 hx
      have h1 := fl_nat_pos hA (i + 1) (by omega)
      refine ⟨(hA.nearest _).1, hA.nearest.nonneg (by positivity), ?_⟩
      exact hA.nearest.le_float isFloat64_one (by rw [div_le_one (by linarith)]; exact h1)
    have herr := abs_le.1 (hA.sum_error l hmem (by simp [hl]; omega))
    have hsum : 3 / 2 ≤ l.sum := by
      obtain ⟨m, rfl⟩ : ∃ m, n = m + 2 := ⟨n - 2, by omega⟩
      have e1 : A.fl (1 / A.fl ((0 + 1 : ℕ) : ℝ)) = 1 := by simp [hA.nearest.one]
      have e2 : A.fl (1 / A.fl ((0 + 1 + 1 : ℕ) : ℝ)) = 1 / 2 := by
        have h2 : A.fl ((0 + 1 + 1 : ℕ) : ℝ) = 2 := by
          rw [hA.nearest.id (isFloat64_nat _ (by norm_num))]; norm_num
        rw [h2]
        exact hA.nearest.id ⟨1, -1, by norm_num, by norm_num, by norm_num, by norm_num⟩
      have hdec : l = 1 :: (1 / 2) :: ((List.range m).map
          (fun i : ℕ => A.fl (1 / A.fl ((i + 2 + 1 : ℕ) : ℝ)))) := by
        rw [hl, List.range_succ_eq_map, List.map_cons, List.map_map, List.range_succ_eq_map,
          List.map_cons, List.map_map, e1]
        simp only [Function.comp]
        rw [show (Nat.succ 0 + 1) = 0 + 1 + 1 from rfl, e2]
        rfl
      have hrest : 0 ≤ ((List.range m).map
          (fun i : ℕ => A.fl (1 / A.fl ((i + 2 + 1 : ℕ) : ℝ)))).sum := by
        apply List.sum_nonneg
        intro x hx
        exact (hmem x (by rw [hdec]; exact List.mem_cons_of_mem _ (List.mem_cons_of_mem _ hx))).2.1
      rw [hdec, List.sum_cons, List.sum_cons]
      linarith
    linarith [herr.1]

theorem byFactor_pos (n : ℕ) (hn : 0 < n) : 0 ≤ byFactor A n := by
  rcases Nat.lt_or_ge n 2 with h | h
  · obtain rfl : n = 1 := by omega
    rw [byFactor_one hA]; exact zero_le_one
  · linarith [byFactor_ge hA n h]

theorem holmW_anti (s t : ℕ) (x : ℝ) (hx : 0 ≤ x) (hst : s ≤ t) :
    holmW A n t x ≤ holmW A n s x := by
  have : (s : ℝ) ≤ t := by exact_mod_cast hst
  refine min_le_min_left _ (hA.nearest.mono ?_)
  exact mul_le_mul_of_nonneg_left (hA.nearest.mono (by linarith)) hx

theorem holmW_mono (r : ℕ) (hr : r ≤ n) (x y : ℝ) (hxy : x ≤ y) : holmW A n r x ≤ holmW A n r y := by
  have : (r : ℝ) ≤ n := by exact_mod_cast hr
  refine min_le_min_left _ (hA.nearest.mono ?_)
  exact mul_le_mul_of_nonneg_right hxy (hA.nearest.nonneg (by linarith))

theorem byW_anti (c : ℝ) (hc : 0 ≤ c) (s t : ℕ) (x : ℝ) (hx : 0 ≤ x) (hst : s ≤ t) :
    byW A n c t x ≤ byW A n c s x := by
  have h1 := fl_nat_pos hA (s + 1) (by omega)
  have h2 : A.fl ((s + 1 : ℕ) : ℝ) ≤ A.fl ((t + 1 : ℕ) : ℝ) := fl_nat_mono hA (by omega)
  refine min_le_min_left _ (hA.nearest.mono ?_)
  refine div_le_div_of_nonneg_left ?_ (by linarith) h2
  exact hA.nearest.nonneg (mul_nonneg (hA.nearest.nonneg
    (mul_nonneg hx (hA.nearest.nonneg (Nat.cast_nonneg _)))) hc)

theorem byW_mono (c : ℝ) (hc : 0 ≤ c) (r : ℕ) (x y : ℝ) (hxy : x ≤ y) :
    byW A n c r x ≤ byW A n c r y := by
  have h1 := fl_nat_pos hA (r + 1) (by omega)
  refine min_le_min_left _ (hA.nearest.mono ?_)
  refine div_le_div_of_nonneg_right ?_ (by linarith)
  refine hA.nearest.mono (mul_le_mul_of_nonneg_right (hA.nearest.mono ?_) hc)
  exact mul_le_mul_of_nonneg_right hxy (hA.nearest.nonneg (Nat.cast_nonneg _))

theorem holmAdjust_eq (p : List ℝ) (hp : ∀ x ∈ p, 0 ≤ x) :
    holmAdjust A p = List.ofFn (stepUp (holmW A p.length) p.get) := by
  unfold holmAdjust
  split
  · rename_i h
    have : p = [] := List.length_eq_zero_iff.1 h
    subst this
    rfl
  · simp only
    congr 1
    funext i
    apply backward_eq_stepUp
    · intro s t j hst _
      exact holmW_anti hA s t _ (hp _ (List.get_mem _ _)) hst
    · intro s hs
      rw [holmForward_get _ _ _ _ _ (sortedIndices_nodup _)]
      simp [holmW]

theorem byAdjust_eq (p : List ℝ) (hp : ∀ x ∈ p, 0 ≤ x) :
    byAdjust A p = List.ofFn (stepUp (byW A p.length (byFactor A p.length)) p.get) := by
  unfold byAdjust
  split
  · rename_i h
    have : p = [] := List.length_eq_zero_iff.1 h
    subst this
    rfl
  · rename_i hlen
    have hl := sortedIndices_length p.get
    have key : ∀ i, holmBackward (sortedIndices p.get)
        (byForward A (byFactor A p.length) p.get 0 (sortedIndices p.get) fun _ => 0) i =
        stepUp (byW A p.length (byFactor A p.length)) p.get i := by
      intro i
      apply backward_eq_stepUp
      · intro s t j hst _
        exact byW_anti hA _ (byFactor_pos hA _ (by omega)) s t _ (hp _ (List.get_mem _ _)) hst
      · intro s hs
        rw [byForward_get _ _ _ _ _ _ (sortedIndices_nodup _)]
        simp [byW]
    cases hsi : sortedIndices p.get with
    | nil => rw [hsi] at hl; simp at hl; omega
    | cons x rest =>
      simp only
      rw [byBackward_eq_holmBackward, ← hsi]
      congr 1
      funext i
      exact key i

theorem adjust_eq (proc : Procedure) (p : List ℝ) (hp : Valid p) :
    adjust A proc p = .ok (List.ofFn (adjFn A proc p.get)) := by
  have hv : validatePValues p = .ok () := by
    rcases validate_eq p with h | h
    · exact h.2
    · exact absurd hp h.1
  have hp0 : ∀ x ∈ p, 0 ≤ x := fun x hx => (hp x hx).1
  cases proc with
  | bonferroni =>
    simp only [adjust, bonferroniAdjust, hv, bind, Except.bind, pure, Except.pure, adjFn]
    rw [map_eq_ofFn]
  | sidak =>
    simp only [adjust, sidakAdjust, hv, bind, Except.bind, pure, Except.pure, adjFn]
    rw [map_eq_ofFn]
  | holm => simp only [adjust, adjFn]; rw [holmAdjust_eq hA p hp0]
  | sidakHolm =>
    simp only [adjust, adjFn, sidakHolmAdjust]
    split
    · rename_i h
      have : p = [] := List.length_eq_zero_iff.1 h
      subst this
      rfl
    · rw [map_eq_ofFn]
  | benjaminiYekutieli => simp only [adjust, adjFn]; rw [byAdjust_eq hA p hp0]

theorem test_eq (proc : Procedure) (p : List ℝ) (thr : ℝ) (hp : Valid p) :
    test A proc p thr = .ok ((List.ofFn (adjFn A proc p.get)).map (fun x => decide (x < thr)),
      List.ofFn (adjFn A proc p.get)) := by
  have hv : validatePValues p = .ok () := by
    rcases validate_eq p with h | h
    · exact h.2
    · exact absurd hp h.1
  simp only [test, hv, bind, Except.bind, pure, Except.pure, adjust_eq hA proc p hp]

omit hA in
theorem test_error (proc : Procedure) (p : List ℝ) (thr : ℝ) (hp : ¬ Valid p) :
    test A proc p thr = .error .valueError := by
  have hv : validatePValues p = .error .valueError := by
    rcases validate_eq p with h | h
    · exact absurd h.1 hp
    · exact h.2
  simp only [test, hv, bind, Except.bind]

omit hA in
theorem valid_of_ok {proc : Procedure} {p : List ℝ} {thr : ℝ} {x : List Bool × List ℝ}
    (h : test A proc p thr = .ok x) : Valid p := by
  by_contra hp
  rw [test_error proc p thr hp] at h
  cases h

theorem test_ok {proc : Procedure} {p : List ℝ} {thr : ℝ} {r : List Bool} {a : List ℝ}
    (h : test A proc p thr = .ok (r, a)) :
    Valid p ∧ a = List.ofFn (adjFn A proc p.get) ∧ r = a.map (fun x => decide (x < thr)) := by
  have hv := valid_of_ok h
  rw [test_eq hA proc p thr hv] at h
  simp only [Except.ok.injEq, Prod.mk.injEq] at h
  exact ⟨hv, h.2.symm, by rw [← h.2]; exact h.1.symm⟩

omit hA in
theorem ofFn_adjFn_get (proc : Procedure) {n : ℕ} (p : Fin n → ℝ) :
    List.ofFn (adjFn A proc (List.ofFn p).get) = List.ofFn (adjFn A proc p) := by
  have key : ∀ (m : ℕ) (hm : m = n) (q : Fin m → ℝ), (∀ i : Fin m, q i = p (Fin.cast hm i)) →
      List.ofFn (adjFn A proc q) = List.ofFn (adjFn A proc p) := by
    intro m hm q hq
    subst hm
    congr 1
    have : q = p := funext fun i => by simpa using hq i
    rw [this]
  exact key _ List.length_ofFn _ (fun i => by simp; rfl)

theorem test_ofFn (proc : Procedure) {n : ℕ} (p : Fin n → ℝ) (thr : ℝ) (hp : ∀ i, 0 ≤ p i ∧ p i ≤ 1) :
    test A proc (List.ofFn p) thr = .ok (List.ofFn (fun i => decide (adjFn A proc p i < thr)),
      List.ofFn (adjFn A proc p)) := by
  rw [test_eq hA proc _ thr ((valid_ofFn p).2 hp), ofFn_adjFn_get]
  congr 2
  rw [List.map_ofFn]
  rfl

theorem rejects_iff (proc : Procedure) {n : ℕ} (p : Fin n → ℝ) (α : ℝ) (i : Fin n)
    (hp : ∀ i, 0 ≤ p i ∧ p i ≤ 1) : Rejects (test A proc) p α i ↔ adjFn A proc p i < α := by
  unfold Rejects
  rw [test_ofFn hA proc p α hp]
  constructor
  · rintro ⟨r, a, h, hr⟩
    simp only [Except.ok.injEq, Prod.mk.injEq] at h
    rw [← h.1] at hr
    simpa using hr
  · intro h
    exact ⟨_, _, rfl, by simpa using h⟩

omit hA in
theorem rejects_valid {proc : Procedure} {n : ℕ} {p : Fin n → ℝ} {α : ℝ} {i : Fin n}
    (h : Rejects (test A proc) p α i) : ∀ i, 0 ≤ p i ∧ p i ≤ 1 := by
  obtain ⟨r, a, h, _⟩ := h
  exact (valid_ofFn p).1 (valid_of_ok h)

end Pysatl.MultipleTesting.Rounded
