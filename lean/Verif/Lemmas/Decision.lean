import Verif.Model.Decision
import Mathlib.Data.List.GetD
import Mathlib.Tactic.Linarith
import Mathlib.Tactic.Ring
import Mathlib.Tactic.FieldSimp
import Mathlib.Tactic.Positivity

/-! # Lemmas about quantiles, empirical distribution functions and the `Py` monad -/

set_option linter.unusedSectionVars false
set_option linter.unusedVariables false

namespace Pysatl.Decision

section Monad

variable {σ α β : Type}

@[simp] theorem exec_pure (a : α) (w : σ) : Py.exec (pure a : Py σ α) w = (.ok a, w) := rfl

@[simp] theorem exec_get (w : σ) : Py.exec (get : Py σ σ) w = (.ok w, w) := rfl

@[simp] theorem exec_set (v w : σ) : Py.exec (set v : Py σ PUnit) w = (.ok ⟨⟩, v) := rfl

@[simp] theorem exec_throw (e : PyErr) (w : σ) : Py.exec (throw e : Py σ α) w = (.error e, w) := rfl

@[simp] theorem exec_lift (x : Except PyErr α) (w : σ) : Py.exec (liftM x : Py σ α) w = (x, w) := by
  cases x <;> rfl

theorem exec_bind (x : Py σ α) (f : α → Py σ β) (w : σ) :
    Py.exec (x >>= f) w = match Py.exec x w with
      | (.ok a, w') => Py.exec (f a) w'
      | (.error e, w') => (.error e, w') := by
  show (ExceptT.run (x >>= f)).run w = _
  unfold Py.exec
  simp only [bind, ExceptT.bind, ExceptT.mk, ExceptT.run, StateT.bind, StateT.run]
  cases h : x w with
  | mk r w' => cases r <;> rfl

end Monad

variable {K : Type} [Field K] [LinearOrder K] [IsStrictOrderedRing K] [FloorSemiring K]

/-! ### Linear interpolation of a sequence -/

/-- Linear interpolation of a sequence at a nonnegative position. -/
def lerp (g : ℕ → K) (h : K) : K := g ⌊h⌋₊ + (h - ⌊h⌋₊) * (g (⌊h⌋₊ + 1) - g ⌊h⌋₊)

theorem frac_nonneg {h : K} (hh : 0 ≤ h) : 0 ≤ h - ⌊h⌋₊ := sub_nonneg.2 (Nat.floor_le hh)

theorem frac_lt_one (h : K) : h - ⌊h⌋₊ < 1 := by linarith [Nat.lt_floor_add_one h]

theorem le_lerp {g : ℕ → K} (hg : Monotone g) {h : K} (hh : 0 ≤ h) : g ⌊h⌋₊ ≤ lerp g h := by
  unfold lerp
  have := mul_nonneg (frac_nonneg hh) (sub_nonneg.2 (hg (Nat.le_succ ⌊h⌋₊)))
  simp only [Nat.succ_eq_add_one] at this
  linarith

theorem lerp_le_succ {g : ℕ → K} (hg : Monotone g) {h : K} (hh : 0 ≤ h) : lerp g h ≤ g (⌊h⌋₊ + 1) := by
  unfold lerp
  have h1 := sub_nonneg.2 (hg (Nat.le_succ ⌊h⌋₊))
  simp only [Nat.succ_eq_add_one] at h1
  have h2 := frac_lt_one h
  nlinarith [frac_nonneg hh]

theorem lerp_mono {g : ℕ → K} (hg : Monotone g) {h h' : K} (hh : 0 ≤ h) (hle : h ≤ h') :
    lerp g h ≤ lerp g h' := by
  have hh' := hh.trans hle
  rcases (Nat.floor_mono hle).eq_or_lt with he | hlt
  · unfold lerp
    rw [he]
    have h1 := sub_nonneg.2 (hg (Nat.le_succ ⌊h'⌋₊))
    simp only [Nat.succ_eq_add_one] at h1
    have : (h - ⌊h'⌋₊) * (g (⌊h'⌋₊ + 1) - g ⌊h'⌋₊) ≤ (h' - ⌊h'⌋₊) * (g (⌊h'⌋₊ + 1) - g ⌊h'⌋₊) :=
      mul_le_mul_of_nonneg_right (by linarith) h1
    linarith
  · exact (lerp_le_succ hg hh).trans ((hg hlt).trans (le_lerp hg hh'))

theorem lerp_natCast (g : ℕ → K) (k : ℕ) : lerp g (k : K) = g k := by
  unfold lerp
  rw [Nat.floor_natCast]
  ring

theorem lerp_le_ceil {g : ℕ → K} (hg : Monotone g) {h : K} (hh : 0 ≤ h) : lerp g h ≤ g ⌈h⌉₊ := by
  rw [← lerp_natCast g ⌈h⌉₊]
  exact lerp_mono hg hh (Nat.le_ceil h)

/-! ### Quantiles of a sorted list -/

/-- The element of index `k`, the last one if `k` is too large. -/
def nth (v : List K) (k : ℕ) : K := v.getD (min k (v.length - 1)) 0

theorem nth_eq {v : List K} {k : ℕ} (hk : k < v.length) : nth v k = v[k] := by
  unfold nth
  rw [min_eq_left (by omega), List.getD_eq_getElem _ _ hk]

theorem nth_mem {v : List K} (hv : v ≠ []) (k : ℕ) : nth v k ∈ v := by
  have : 0 < v.length := List.length_pos_iff.2 hv
  unfold nth
  rw [List.getD_eq_getElem _ _ (by omega)]
  exact List.getElem_mem _

theorem nth_mono {v : List K} (hs : v.Pairwise (· ≤ ·)) : Monotone (nth v) := by
  intro i j hij
  rcases Nat.eq_zero_or_pos v.length with h0 | h0
  · unfold nth
    simp [h0]
  unfold nth
  rw [List.getD_eq_getElem _ _ (by omega), List.getD_eq_getElem _ _ (by omega)]
  rcases (Nat.lt_or_ge (min i (v.length - 1)) (min j (v.length - 1))) with h | h
  · exact List.pairwise_iff_getElem.1 hs _ _ _ _ h
  · have : min i (v.length - 1) = min j (v.length - 1) := by omega
    simp [this]

theorem floor_lt_length {v : List K} (hv : v ≠ []) {q : K} (h1 : q ≤ 1) :
    ⌊q * ((v.length - 1 : ℕ) : K)⌋₊ ≤ v.length - 1 := by
  have : q * ((v.length - 1 : ℕ) : K) ≤ ((v.length - 1 : ℕ) : K) :=
    mul_le_of_le_one_left (Nat.cast_nonneg _) h1
  exact (Nat.floor_mono this).trans (by rw [Nat.floor_natCast])

theorem npQuantile_ok {v : List K} (hv : v ≠ []) {q : K} (h0 : 0 ≤ q) (h1 : q ≤ 1) :
    npQuantile v q = .ok (lerp (nth v) (q * ((v.length - 1 : ℕ) : K))) := by
  have hl : 0 < v.length := List.length_pos_iff.2 hv
  have hf := floor_lt_length hv h1
  unfold npQuantile
  rw [if_pos ⟨h0, h1⟩]
  simp only
  rw [List.getElem?_eq_getElem (show ⌊q * ((v.length - 1 : ℕ) : K)⌋₊ < v.length by omega),
    List.getElem?_eq_getElem (show min (⌊q * ((v.length - 1 : ℕ) : K)⌋₊ + 1) (v.length - 1) < v.length by omega)]
  simp only
  congr 1
  unfold lerp
  rw [nth_eq (show ⌊q * ((v.length - 1 : ℕ) : K)⌋₊ < v.length by omega)]
  congr 2
  unfold nth
  rw [List.getD_eq_getElem _ _ (by omega)]

theorem npQuantile_error {v : List K} {q : K} (h : ¬ (0 ≤ q ∧ q ≤ 1)) :
    npQuantile v q = .error .valueError := by
  unfold npQuantile
  rw [if_neg h]

/-! ### The distinct sorted values -/

theorem quantiles_perm (L : List K) : (ecdfQuantiles L).Perm L.dedup :=
  List.perm_insertionSort _ _

theorem mem_quantiles {L : List K} {x : K} : x ∈ ecdfQuantiles L ↔ x ∈ L := by
  rw [(quantiles_perm L).mem_iff, List.mem_dedup]

theorem quantiles_ne_nil {L : List K} (h : L ≠ []) : ecdfQuantiles L ≠ [] := by
  obtain ⟨x, hx⟩ := List.exists_mem_of_ne_nil L h
  exact List.ne_nil_of_mem (mem_quantiles.2 hx)

theorem quantiles_sorted (L : List K) : (ecdfQuantiles L).Pairwise (· ≤ ·) :=
  List.pairwise_insertionSort _ _

theorem quantiles_congr {L L' : List K} (h : ∀ x, x ∈ L ↔ x ∈ L') : ecdfQuantiles L = ecdfQuantiles L' := by
  unfold ecdfQuantiles
  apply List.Perm.eq_of_pairwise (le := (· ≤ ·))
  · intro a b _ _ h1 h2; exact le_antisymm h1 h2
  · exact List.pairwise_insertionSort _ _
  · exact List.pairwise_insertionSort _ _
  · refine (List.perm_insertionSort _ _).trans (List.Perm.trans ?_ (List.perm_insertionSort _ _).symm)
    rw [List.perm_ext_iff_of_nodup (List.nodup_dedup _) (List.nodup_dedup _)]
    simp [h]

/-! ### Counting -/

theorem countP_ge_of_le {v : List K} (hs : v.Pairwise (· ≤ ·)) {k : ℕ} {s : K} (hk : k < v.length)
    (h : v[k] ≤ s) : k + 1 ≤ v.countP (fun x => decide (x ≤ s)) := by
  have h1 : (v.take (k + 1)).countP (fun x => decide (x ≤ s)) = k + 1 := by
    have : (v.take (k + 1)).length = k + 1 := by rw [List.length_take]; omega
    refine Eq.trans (List.countP_eq_length.2 ?_) this
    intro x hx
    obtain ⟨i, hi, rfl⟩ := List.getElem_of_mem hx
    rw [List.getElem_take, decide_eq_true_eq]
    rw [this] at hi
    rcases Nat.lt_or_ge i k with h2 | h2
    · exact (List.pairwise_iff_getElem.1 hs _ _ _ _ h2).trans h
    · have : i = k := by omega
      subst this
      exact h
  have h2 := (List.take_sublist (k + 1) v).countP_le (p := fun x => decide (x ≤ s))
  omega

theorem countP_le_of_lt {v : List K} (hs : v.Pairwise (· ≤ ·)) {k : ℕ} {s : K} (hk : k < v.length)
    (h : s < v[k]) : v.countP (fun x => decide (x ≤ s)) ≤ k := by
  have h1 : (v.drop k).countP (fun x => decide (x ≤ s)) = 0 := by
    rw [List.countP_eq_zero]
    intro x hx
    obtain ⟨i, hi, rfl⟩ := List.getElem_of_mem hx
    rw [List.getElem_drop, decide_eq_true_eq, not_le]
    rcases Nat.eq_zero_or_pos i with h2 | h2
    · subst h2; exact h
    · exact h.trans_le (List.pairwise_iff_getElem.1 hs _ _ _ _ (by omega))
  have h2 : v.countP (fun x => decide (x ≤ s)) =
      (v.take k).countP (fun x => decide (x ≤ s)) + (v.drop k).countP (fun x => decide (x ≤ s)) := by
    rw [← List.countP_append, List.take_append_drop]
  have h3 := List.countP_le_length (l := v.take k) (p := fun x => decide (x ≤ s))
  rw [List.length_take] at h3
  omega

theorem ecdfEvaluate_ok {L : List K} (hL : L ≠ []) (s : K) :
    ecdfEvaluate L s = .ok ((L.countP (fun x => decide (x ≤ s)) : ℕ) / (L.length : K)) := by
  have : 0 < L.length := List.length_pos_iff.2 hL
  unfold ecdfEvaluate
  rw [if_neg (by omega)]

end Pysatl.Decision
