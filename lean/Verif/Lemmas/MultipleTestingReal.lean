import Mathlib.Analysis.Complex.ExponentialBounds
import Mathlib.Data.Rat.Cast.Order
import Verif.Lemmas.MultipleTesting

/-!
# Helper lemmas: the five procedures over `ℝ`
-/

set_option linter.unusedSectionVars false

namespace Pysatl.MultipleTesting

open Pysatl.Spec

/-- All p-values in `[0,1]`. -/
def Valid (p : List ℝ) : Prop := ∀ x ∈ p, 0 ≤ x ∧ x ≤ 1

theorem validate_eq (p : List ℝ) :
    (Valid p ∧ validatePValues p = .ok ()) ∨ (¬ Valid p ∧ validatePValues p = .error .valueError) := by
  unfold validatePValues Valid
  by_cases h : ∀ x ∈ p, 0 ≤ x ∧ x ≤ 1
  · left
    refine ⟨h, if_pos ?_⟩
    simpa using h
  · right
    refine ⟨h, if_neg ?_⟩
    simpa using h

theorem byFactor_ge_one (n : ℕ) (hn : 0 < n) : 1 ≤ byFactor n := by
  unfold byFactor
  split
  · rename_i h
    have h1 : (1 : ℝ) ≤ Real.log n := by
      rw [Real.le_log_iff_exp_le (by positivity)]
      have : (10000 : ℝ) < n := by exact_mod_cast h
      linarith [Real.exp_one_lt_d9]
    have : (0 : ℝ) ≤ 0.5772156649015328606065120900824024310421 := by norm_num
    linarith
  · exact one_le_harmonicSum n hn

/-- The closed forms of the five procedures. -/
noncomputable def adjFn {n : ℕ} : Procedure → (Fin n → ℝ) → Fin n → ℝ
  | .bonferroni, p => fun i => min (p i * n) 1
  | .sidak, p => fun i => 1 - (1 - p i) ^ n
  | .holm, p => stepUp (holmW ℝ n) p
  | .sidakHolm, p => fun i => min 1 (1 - (1 - p i) ^ n)
  | .benjaminiYekutieli, p => stepUp (byW n (byFactor n)) p

theorem map_eq_ofFn {α β : Type} (p : List α) (f : α → β) :
    p.map f = List.ofFn (fun i : Fin p.length => f (p.get i)) := by
  apply List.ext_getElem <;> simp

theorem adjust_eq (proc : Procedure) (p : List ℝ) (hp : Valid p) :
    adjust proc p = .ok (List.ofFn (adjFn proc p.get)) := by
  have hv : validatePValues p = .ok () := by
    rcases validate_eq p with h | h
    · exact h.2
    · exact absurd hp h.1
  have hp0 : ∀ x ∈ p, 0 ≤ x := fun x hx => (hp x hx).1
  cases proc with
  | bonferroni =>
    simp only [adjust, bonferroniAdjust, hv, bind, Except.bind, pure, Except.pure, adjFn]
    rw [map_eq_ofFn]
  | sidak =>
    simp only [adjust, sidakAdjust, hv, bind, Except.bind, pure, Except.pure, adjFn]
    rw [map_eq_ofFn]
  | holm => simp only [adjust, adjFn]; rw [holmAdjust_eq p hp0]
  | sidakHolm =>
    simp only [adjust, adjFn, sidakHolmAdjust]
    split
    · rename_i h
      have : p = [] := List.length_eq_zero_iff.1 h
      subst this
      rfl
    · rw [map_eq_ofFn]
  | benjaminiYekutieli =>
    simp only [adjust, adjFn, byAdjust]
    by_cases h : p.length = 0
    · have : p = [] := List.length_eq_zero_iff.1 h
      subst this
      rfl
    · rw [byAdjustWith_eq _ (zero_le_one.trans (byFactor_ge_one _ (by omega))) p hp0]

theorem test_eq (proc : Procedure) (p : List ℝ) (thr : ℝ) (hp : Valid p) :
    test proc p thr = .ok ((List.ofFn (adjFn proc p.get)).map (fun x => decide (x < thr)),
      List.ofFn (adjFn proc p.get)) := by
  have hv : validatePValues p = .ok () := by
    rcases validate_eq p with h | h
    · exact h.2
    · exact absurd hp h.1
  simp only [test, hv, bind, Except.bind, pure, Except.pure, adjust_eq proc p hp]

theorem test_error (proc : Procedure) (p : List ℝ) (thr : ℝ) (hp : ¬ Valid p) :
    test proc p thr = .error .valueError := by
  have hv : validatePValues p = .error .valueError := by
    rcases validate_eq p with h | h
    · exact absurd h.1 hp
    · exact h.2
  simp only [test, hv, bind, Except.bind]

theorem valid_of_ok {proc : Procedure} {p : List ℝ} {thr : ℝ} {x : List Bool × List ℝ}
    (h : test proc p thr = .ok x) : Valid p := by
  by_contra hp
  rw [test_error proc p thr hp] at h
  cases h

/-- Everything a successful `test` returns. -/
theorem test_ok {proc : Procedure} {p : List ℝ} {thr : ℝ} {r : List Bool} {a : List ℝ}
    (h : test proc p thr = .ok (r, a)) :
    Valid p ∧ a = List.ofFn (adjFn proc p.get) ∧ r = a.map (fun x => decide (x < thr)) := by
  have hv := valid_of_ok h
  rw [test_eq proc p thr hv] at h
  simp only [Except.ok.injEq, Prod.mk.injEq] at h
  exact ⟨hv, h.2.symm, by rw [← h.2]; exact h.1.symm⟩

theorem valid_ofFn {n : ℕ} (p : Fin n → ℝ) : Valid (List.ofFn p) ↔ ∀ i, 0 ≤ p i ∧ p i ≤ 1 := by
  simp [Valid, List.mem_ofFn]

/-- `adjFn` on a list of the form `List.ofFn p`. -/
theorem ofFn_adjFn_get (proc : Procedure) {n : ℕ} (p : Fin n → ℝ) :
    List.ofFn (adjFn proc (List.ofFn p).get) = List.ofFn (adjFn proc p) := by
  have key : ∀ (m : ℕ) (hm : m = n) (q : Fin m → ℝ), (∀ i : Fin m, q i = p (Fin.cast hm i)) →
      List.ofFn (adjFn proc q) = List.ofFn (adjFn proc p) := by
    intro m hm q hq
    subst hm
    congr 1
    have : q = p := funext fun i => by simpa using hq i
    rw [this]
  exact key _ List.length_ofFn _ (fun i => by simp; rfl)

theorem test_ofFn (proc : Procedure) {n : ℕ} (p : Fin n → ℝ) (thr : ℝ) (hp : ∀ i, 0 ≤ p i ∧ p i ≤ 1) :
    test proc (List.ofFn p) thr = .ok (List.ofFn (fun i => decide (adjFn proc p i < thr)),
      List.ofFn (adjFn proc p)) := by
  rw [test_eq proc _ thr ((valid_ofFn p).2 hp), ofFn_adjFn_get]
  congr 2
  rw [List.map_ofFn]
  rfl

/-- Rejection in terms of the closed form. -/
theorem rejects_iff (proc : Procedure) {n : ℕ} (p : Fin n → ℝ) (α : ℝ) (i : Fin n)
    (hp : ∀ i, 0 ≤ p i ∧ p i ≤ 1) : Rejects (test proc) p α i ↔ adjFn proc p i < α := by
  unfold Rejects
  rw [test_ofFn proc p α hp]
  constructor
  · rintro ⟨r, a, h, hr⟩
    simp only [Except.ok.injEq, Prod.mk.injEq] at h
    rw [← h.1] at hr
    simpa using hr
  · intro h
    exact ⟨_, _, rfl, by simpa using h⟩

theorem rejects_valid {proc : Procedure} {n : ℕ} {p : Fin n → ℝ} {α : ℝ} {i : Fin n}
    (h : Rejects (test proc) p α i) : ∀ i, 0 ≤ p i ∧ p i ≤ 1 := by
  obtain ⟨r, a, h, _⟩ := h
  exact (valid_ofFn p).1 (valid_of_ok h)

/-! ### Evaluation of rational examples -/

section Cast

theorem insertionSort_congr {α : Type} (r s : α → α → Prop) [DecidableRel r] [DecidableRel s]
    (h : ∀ a b, r a b ↔ s a b) (l : List α) : l.insertionSort r = l.insertionSort s := by
  have ho : ∀ a l, List.orderedInsert r a l = List.orderedInsert s a l := by
    intro a l
    induction l with
    | nil => rfl
    | cons b l ih => simp only [List.orderedInsert, h, ih]
  induction l with
  | nil => rfl
  | cons a l ih =>
    simp only [List.insertionSort_cons, ih, ho]

theorem sortedIndices_cast {n : ℕ} (p : Fin n → ℚ) :
    sortedIndices (fun i => (p i : ℝ)) = sortedIndices p :=
  insertionSort_congr _ _ (fun a b => by simp) _

theorem holmForward_cast {n : ℕ} (p : Fin n → ℚ) (i : ℕ) (L : List (Fin n)) (a : Fin n → ℚ) :
    holmForward (fun i => (p i : ℝ)) i L (fun i => (a i : ℝ)) =
      fun j => ((holmForward p i L a j : ℚ) : ℝ) := by
  induction L generalizing i a with
  | nil => rfl
  | cons x L ih =>
    simp only [holmForward]
    rw [← ih]
    congr 1
    funext j
    by_cases h : j = x
    · subst h; simp
    · simp [Function.update_of_ne h]

theorem holmBackward_cast {n : ℕ} (L : List (Fin n)) (a : Fin n → ℚ) :
    holmBackward L (fun i => (a i : ℝ)) = fun j => ((holmBackward L a j : ℚ) : ℝ) := by
  induction L with
  | nil => rfl
  | cons x L ih =>
    cases L with
    | nil => rfl
    | cons y L =>
      simp only [holmBackward]
      rw [ih]
      simp only [Rat.cast_lt]
      split
      · funext j
        by_cases h : j = x
        · subst h; simp
        · simp [Function.update_of_ne h]
      · rfl

theorem holmAdjust_cast (p : List ℚ) :
    holmAdjust (p.map (fun x : ℚ => (x : ℝ))) = (holmAdjust p).map (fun x : ℚ => (x : ℝ)) := by
  by_cases h : p.length = 0
  · have : p = [] := List.length_eq_zero_iff.1 h
    subst this
    rfl
  · have key : ∀ (m : ℕ) (hm : m = p.length) (q : Fin m → ℝ),
        (∀ i, q i = (p.get (Fin.cast hm i) : ℝ)) →
        List.ofFn (holmBackward (sortedIndices q) (holmForward q 0 (sortedIndices q) fun _ => 0)) =
          (List.ofFn (holmBackward (sortedIndices p.get)
            (holmForward p.get 0 (sortedIndices p.get) fun _ => 0))).map (fun x : ℚ => (x : ℝ)) := by
      intro m hm q hq
      subst hm
      have hq' : q = fun i => (p.get i : ℝ) := funext fun i => by simpa using hq i
      subst hq'
      rw [sortedIndices_cast]
      have := holmForward_cast p.get 0 (sortedIndices p.get) (fun _ => 0)
      simp only [Rat.cast_zero] at this
      rw [this, holmBackward_cast, List.map_ofFn]
      rfl
    unfold holmAdjust
    rw [if_neg (by simpa using h), if_neg h]
    exact key _ (by simp) _ (fun i => by simp)

end Cast

end Pysatl.MultipleTesting
