import Verif.Model.NonFinite
import Verif.Props.Decision
import Verif.Props.MultipleTesting

/-!
# Properties C139 and C140: values that are not numbers, and p-values that are not probabilities

C139: a test does not decide about values that are not numbers.  Simulated values that are NaN or
infinite, p-values that are NaN or infinite and levels without meaning raise; an infinite statistic
is judged as the most extreme value there is; but a statistic that is NaN is *rejected* by the
critical-value method under every alternative and by the p-value method under two of three.

C140: `adjust` of the corrections is not as careful as `test`.
-/

namespace Pysatl.Props

open Pysatl.Decision
open Pysatl.NonFinite (Num finiteValues)

variable {K : Type} [Field K] [LinearOrder K] [IsStrictOrderedRing K] [FloorSemiring K]
variable {σ : Type}

set_option linter.unusedSectionVars false

omit [Field K] [LinearOrder K] [IsStrictOrderedRing K] [FloorSemiring K] in
theorem finiteValues_map (l : List K) : finiteValues (l.map Num.fin) = .ok l := by
  induction l with
  | nil => rfl
  | cons a l ih => simp only [List.map_cons, finiteValues, ih]; rfl

omit [Field K] [LinearOrder K] [IsStrictOrderedRing K] [FloorSemiring K] in
theorem finiteValues_error : ∀ {L : List (Num K)}, (∃ v ∈ L, ∀ x, v ≠ .fin x) →
    finiteValues L = .error .valueError
  | [], ⟨_, h, _⟩ => by simp at h
  | .fin x :: L, ⟨v, hv, h⟩ => by
    have hv' : v ∈ L := by
      rcases List.mem_cons.1 hv with rfl | h'
      · exact absurd rfl (h x)
      · exact h'
    simp only [finiteValues, finiteValues_error ⟨v, hv', h⟩]
    rfl
  | .posInf :: _, _ => rfl
  | .negInf :: _, _ => rfl
  | .nan :: _, _ => rfl

theorem nf_ecdf_nan {L : List K} (hL : L ≠ []) {v : Num K} (hv : v = .nan ∨ v = .posInf) :
    NonFinite.ecdfEvaluate (L.map .fin) v = .ok 1 := by
  have : L.length ≠ 0 := by simpa using hL
  simp only [NonFinite.ecdfEvaluate, finiteValues_map]
  rcases hv with rfl | rfl <;> simp [Bind.bind, Except.bind, hL]

theorem nf_ecdf_neg {L : List K} (hL : L ≠ []) :
    NonFinite.ecdfEvaluate (L.map .fin) .negInf = .ok (0 : K) := by
  simp only [NonFinite.ecdfEvaluate, finiteValues_map]
  simp [Bind.bind, Except.bind, hL]

theorem nf_pDecide_run {r : Resolver σ (Num K)} {st : Statistic (Num K)} {s α : Num K} {n : ℤ} {w w' : σ}
    {L : List (Num K)} {p : K} (hr : (r st n).exec w = (.ok (some L), w'))
    (hp : NonFinite.pValue (getConcreteFactory st.alternative) L s = .ok p) :
    (NonFinite.pValueDecide r st s α n).exec w =
      (.ok { statistic := s, significanceLevel := α, pValue := some (.fin p), criticalValue := none,
             rejected := (Num.fin p).le α }, w') := by
  unfold NonFinite.pValueDecide
  rw [exec_bind, hr]
  simp only [exec_bind, exec_lift, hp, exec_pure]

theorem nf_cvDecide_run {r : Resolver σ (Num K)} {st : Statistic (Num K)} {s α : Num K} {n : ℤ} {w w' : σ}
    {L : List (Num K)} {cv : CriticalValue K} {area : CriticalArea K}
    (hr : (r st n).exec w = (.ok (some L), w'))
    (hcv : NonFinite.criticalValue (getConcreteFactory st.alternative) L α = .ok cv)
    (ha : (getConcreteFactory st.alternative).criticalArea cv = .ok area) :
    (NonFinite.criticalValueDecide r st s α n).exec w =
      (.ok { statistic := s, significanceLevel := α, pValue := none,
             criticalValue := some (NonFinite.report cv),
             rejected := !(NonFinite.contains area s) }, w') := by
  unfold NonFinite.criticalValueDecide
  rw [exec_bind, hr]
  simp only [exec_bind, exec_lift, hcv, ha, exec_pure]

theorem nf_pDecide_error {r : Resolver σ (Num K)} {st : Statistic (Num K)} {s α : Num K} {n : ℤ} {w w' : σ}
    {L : List (Num K)} {e : PyErr} (hr : (r st n).exec w = (.ok (some L), w'))
    (hp : NonFinite.pValue (getConcreteFactory st.alternative) L s = .error e) :
    (NonFinite.pValueDecide r st s α n).exec w = (.error e, w') := by
  unfold NonFinite.pValueDecide
  rw [exec_bind, hr]
  simp only [exec_bind, exec_lift, hp]

theorem nf_cvDecide_error {r : Resolver σ (Num K)} {st : Statistic (Num K)} {s α : Num K} {n : ℤ} {w w' : σ}
    {L : List (Num K)} {e : PyErr} (hr : (r st n).exec w = (.ok (some L), w'))
    (hcv : NonFinite.criticalValue (getConcreteFactory st.alternative) L α = .error e) :
    (NonFinite.criticalValueDecide r st s α n).exec w = (.error e, w') := by
  unfold NonFinite.criticalValueDecide
  rw [exec_bind, hr]
  simp only [exec_bind, exec_lift, hcv]

/-- **C139.** On finite numbers the tests decide as described by the other properties: with finite
simulated values, a finite statistic and a finite level both methods report what
`Verif.Model.Decision` computes. -/
theorem C139_finite (r : Resolver σ (Num K)) (st : Statistic (Num K)) (s α : K) (n : ℤ) (w w' : σ)
    (L : List K) (hr : (r st n).exec w = (.ok (some (L.map .fin)), w')) :
    (∀ p, (getConcreteFactory st.alternative).pValue L s = .ok p →
      (NonFinite.decide (.pValue r) st (.fin s) (.fin α) n).exec w =
        (.ok { statistic := .fin s, significanceLevel := .fin α, pValue := some (.fin p),
               criticalValue := none, rejected := decide (p ≤ α) }, w')) ∧
    (∀ cv area, (getConcreteFactory st.alternative).criticalValue L α = .ok cv →
      (getConcreteFactory st.alternative).criticalArea cv = .ok area →
      (NonFinite.decide (.criticalValue r) st (.fin s) (.fin α) n).exec w =
        (.ok { statistic := .fin s, significanceLevel := .fin α, pValue := none,
               criticalValue := some (NonFinite.report cv), rejected := !(area.contains s) }, w')) := by
  constructor
  · intro p hp
    refine nf_pDecide_run hr ?_
    cases hf : getConcreteFactory st.alternative <;>
      simp only [hf, Factory.pValue, leftPValue, rightPValue, twoSidedPValue] at hp <;>
      simp only [NonFinite.pValue, NonFinite.ecdfEvaluate, finiteValues_map, Bind.bind, Except.bind] at hp ⊢ <;>
      cases he : ecdfEvaluate L s <;> rw [he] at hp <;>
      simp_all [pure, Except.pure]
  · intro cv area hcv ha
    rw [show area.contains s = NonFinite.contains area (.fin s) by
      cases area <;> simp [CriticalArea.contains, NonFinite.contains, Num.le]]
    refine nf_cvDecide_run hr ?_ ha
    simp only [NonFinite.criticalValue, finiteValues_map, Bind.bind, Except.bind, hcv]

/-- **C139.** A simulated value that is NaN or infinite raises `ValueError` in both methods: no
decision is made. -/
theorem C139_simulated (r : Resolver σ (Num K)) (st : Statistic (Num K)) (s α : Num K) (n : ℤ) (w w' : σ)
    (L : List (Num K)) (hr : (r st n).exec w = (.ok (some L), w')) (hL : ∃ v ∈ L, ∀ x, v ≠ .fin x) :
    (NonFinite.decide (.pValue r) st s α n).exec w = (.error .valueError, w') ∧
    (NonFinite.decide (.criticalValue r) st s α n).exec w = (.error .valueError, w') := by
  have h := finiteValues_error hL
  exact ⟨nf_pDecide_error hr (by
      simp only [NonFinite.pValue, NonFinite.ecdfEvaluate, h, Bind.bind, Except.bind]),
    nf_cvDecide_error hr (by simp only [NonFinite.criticalValue, h, Bind.bind, Except.bind])⟩

/-- **C139.** A level that is NaN or infinite raises `ValueError` in the critical-value method; with
the p-value method a level that is NaN rejects nothing. -/
theorem C139_level (r : Resolver σ (Num K)) (st : Statistic (Num K)) (s : Num K) (n : ℤ) (w w' : σ)
    (L : List K) (hr : (r st n).exec w = (.ok (some (L.map .fin)), w')) :
    (∀ α : Num K, (∀ x, α ≠ .fin x) →
      (NonFinite.decide (.criticalValue r) st s α n).exec w = (.error .valueError, w')) ∧
    (∀ res w'', (NonFinite.decide (.pValue r) st s .nan n).exec w = (.ok res, w'') →
      res.rejected = false) := by
  constructor
  · intro α hα
    refine nf_cvDecide_error hr ?_
    cases α with
    | fin x => exact absurd rfl (hα x)
    | _ => simp only [NonFinite.criticalValue, finiteValues_map, Bind.bind, Except.bind]
  · intro res w'' h
    simp only [NonFinite.decide] at h
    unfold NonFinite.pValueDecide at h
    rw [exec_bind, hr] at h
    simp only [exec_bind, exec_lift] at h
    cases hp : NonFinite.pValue (getConcreteFactory st.alternative) (L.map .fin) s with
    | error e => simp [hp] at h
    | ok p =>
      simp only [hp, exec_pure, Prod.mk.injEq, Except.ok.injEq] at h
      obtain ⟨rfl, -⟩ := h
      rfl

/-- The critical values of a finite non-empty simulation at a level between 0 and 1. -/
theorem nf_areas {L : List K} (hL : L ≠ []) {a : K} (h0 : 0 ≤ a) (h1 : a ≤ 1) (t : AlternativeType) :
    ∃ cv area, NonFinite.criticalValue (getConcreteFactory t) (L.map .fin) (.fin a) = .ok cv ∧
      (getConcreteFactory t).criticalArea cv = .ok area ∧
      match t with
      | .left => ∃ c, area = .left c
      | .right => ∃ c, area = .right c
      | .twoTailed => ∃ b c, area = .twoSided b c := by
  obtain ⟨cv, hcv, -⟩ := C21_critical_value_in_range t L hL a h0 h1
  refine ⟨cv, ?_⟩
  have e : NonFinite.criticalValue (getConcreteFactory t) (L.map .fin) (.fin a) = .ok cv := by
    simp only [NonFinite.criticalValue, finiteValues_map, Bind.bind, Except.bind, hcv]
  rw [e]
  cases t <;> simp only [getConcreteFactory, reduceCtorEq, if_false, if_true, Factory.criticalValue,
    Bind.bind, Except.bind] at hcv ⊢ <;>
    [cases hq : rightCriticalValue L a; cases hq : leftCriticalValue L a; cases hq : twoSidedCriticalValue L a] <;>
    simp only [hq, reduceCtorEq, pure, Except.pure, Except.ok.injEq] at hcv <;> subst hcv <;>
    simp [Factory.criticalArea]

/-- **C139.** An infinite statistic is the most extreme value there is.  `+∞` is rejected by both
methods, with p-value zero, at every level between 0 and 1 under the right and the two-sided
alternative, and is the least suspicious value under the left one (accepted, p-value 1). -/
theorem C139_infinite (r : Resolver σ (Num K)) (st : Statistic (Num K)) (a : K) (n : ℤ) (w w' : σ)
    (h0 : 0 ≤ a) (h1 : a ≤ 1) (L : List K) (hL : L ≠ [])
    (hr : (r st n).exec w = (.ok (some (L.map .fin)), w')) :
    ∃ rp rc, (NonFinite.decide (.pValue r) st .posInf (.fin a) n).exec w = (.ok rp, w') ∧
      (NonFinite.decide (.criticalValue r) st .posInf (.fin a) n).exec w = (.ok rc, w') ∧
      (st.alternative ≠ .left → rp.pValue = some (.fin 0) ∧ rp.rejected = true ∧ rc.rejected = true) ∧
      (st.alternative = .left → rp.pValue = some (.fin 1) ∧ rc.rejected = false) := by
  obtain ⟨cv, area, hcv, ha, hform⟩ := nf_areas hL h0 h1 st.alternative
  have hp : NonFinite.pValue (getConcreteFactory st.alternative) (L.map .fin) .posInf =
      .ok (if st.alternative = .left then (1 : K) else 0) := by
    simp only [NonFinite.pValue, nf_ecdf_nan hL (.inr rfl), Bind.bind, Except.bind]
    cases st.alternative <;> simp [getConcreteFactory, pure, Except.pure]
  refine ⟨_, _, nf_pDecide_run hr hp, nf_cvDecide_run hr hcv ha, ?_, ?_⟩
  · intro hne
    refine ⟨by simp [hne], by simp [hne, Num.le, h0], ?_⟩
    cases ht : st.alternative <;> rw [ht] at hform hne
    · obtain ⟨c, rfl⟩ := hform; rfl
    · exact absurd rfl hne
    · obtain ⟨b, c, rfl⟩ := hform; rfl
  · intro he
    rw [he] at hform
    obtain ⟨c, rfl⟩ := hform
    exact ⟨by simp [he], rfl⟩

/-- **C139.** The same for `-∞`, with the alternatives exchanged. -/
theorem C139_infinite_neg (r : Resolver σ (Num K)) (st : Statistic (Num K)) (a : K) (n : ℤ) (w w' : σ)
    (h0 : 0 ≤ a) (h1 : a ≤ 1) (L : List K) (hL : L ≠ [])
    (hr : (r st n).exec w = (.ok (some (L.map .fin)), w')) :
    ∃ rp rc, (NonFinite.decide (.pValue r) st .negInf (.fin a) n).exec w = (.ok rp, w') ∧
      (NonFinite.decide (.criticalValue r) st .negInf (.fin a) n).exec w = (.ok rc, w') ∧
      (st.alternative ≠ .right → rp.pValue = some (.fin 0) ∧ rp.rejected = true ∧ rc.rejected = true) ∧
      (st.alternative = .right → rp.pValue = some (.fin 1) ∧ rc.rejected = false) := by
  obtain ⟨cv, area, hcv, ha, hform⟩ := nf_areas hL h0 h1 st.alternative
  have hp : NonFinite.pValue (getConcreteFactory st.alternative) (L.map .fin) .negInf =
      .ok (if st.alternative = .right then (1 : K) else 0) := by
    simp only [NonFinite.pValue, nf_ecdf_neg hL, Bind.bind, Except.bind]
    cases st.alternative <;> simp [getConcreteFactory, pure, Except.pure]
  refine ⟨_, _, nf_pDecide_run hr hp, nf_cvDecide_run hr hcv ha, ?_, ?_⟩
  · intro hne
    refine ⟨by simp [hne], by simp [hne, Num.le, h0], ?_⟩
    cases ht : st.alternative <;> rw [ht] at hform hne
    · exact absurd rfl hne
    · obtain ⟨c, rfl⟩ := hform; rfl
    · obtain ⟨b, c, rfl⟩ := hform; rfl
  · intro he
    rw [he] at hform
    obtain ⟨c, rfl⟩ := hform
    exact ⟨by simp [he], rfl⟩

/-- **C139 is false for NaN.** With the critical-value method a statistic that is NaN is rejected,
whatever the alternative, the (finite, non-empty) simulation and the level between 0 and 1. -/
theorem C139_refuted_critical (r : Resolver σ (Num K)) (st : Statistic (Num K)) (a : K) (n : ℤ) (w w' : σ)
    (h0 : 0 ≤ a) (h1 : a ≤ 1) (L : List K) (hL : L ≠ [])
    (hr : (r st n).exec w = (.ok (some (L.map .fin)), w')) :
    ∃ res, (NonFinite.decide (.criticalValue r) st .nan (.fin a) n).exec w = (.ok res, w') ∧
      res.statistic = .nan ∧ res.rejected = true := by
  obtain ⟨cv, area, hcv, ha, hform⟩ := nf_areas hL h0 h1 st.alternative
  refine ⟨_, nf_cvDecide_run hr hcv ha, rfl, ?_⟩
  cases ht : st.alternative <;> rw [ht] at hform
  · obtain ⟨c, rfl⟩ := hform; rfl
  · obtain ⟨c, rfl⟩ := hform; rfl
  · obtain ⟨b, c, rfl⟩ := hform; rfl

/-- **C139 is false for NaN.** With the p-value method a statistic that is NaN has p-value zero and
is rejected at every level under the right and the two-sided alternative. -/
theorem C139_refuted_pvalue (r : Resolver σ (Num K)) (st : Statistic (Num K)) (a : K) (n : ℤ) (w w' : σ)
    (h0 : 0 ≤ a) (L : List K) (hL : L ≠ []) (hr : (r st n).exec w = (.ok (some (L.map .fin)), w'))
    (ht : st.alternative ≠ .left) :
    ∃ res, (NonFinite.decide (.pValue r) st .nan (.fin a) n).exec w = (.ok res, w') ∧
      res.statistic = .nan ∧ res.pValue = some (.fin 0) ∧ res.rejected = true := by
  have hp : NonFinite.pValue (getConcreteFactory st.alternative) (L.map .fin) .nan = .ok (0 : K) := by
    simp only [NonFinite.pValue, nf_ecdf_nan hL (.inl rfl), Bind.bind, Except.bind]
    cases h : st.alternative <;> simp_all [getConcreteFactory, pure, Except.pure]
  exact ⟨_, nf_pDecide_run hr hp, rfl, rfl, by simp [Num.le, h0]⟩

/-- **C139.** Under the left alternative the p-value of NaN is 1: at levels below 1 the p-value
method does not reject. -/
theorem C139_left_partial (r : Resolver σ (Num K)) (st : Statistic (Num K)) (a : K) (n : ℤ) (w w' : σ)
    (L : List K) (hL : L ≠ []) (hr : (r st n).exec w = (.ok (some (L.map .fin)), w'))
    (ht : st.alternative = .left) :
    ∃ res, (NonFinite.decide (.pValue r) st .nan (.fin a) n).exec w = (.ok res, w') ∧
      res.pValue = some (.fin 1) ∧ (res.rejected = true ↔ 1 ≤ a) := by
  have hp : NonFinite.pValue (getConcreteFactory st.alternative) (L.map .fin) .nan = .ok (1 : K) := by
    simp only [NonFinite.pValue, nf_ecdf_nan hL (.inl rfl), Bind.bind, Except.bind]
    simp [ht, getConcreteFactory, pure, Except.pure]
  exact ⟨_, nf_pDecide_run hr hp, rfl, by simp [Num.le]⟩

/-- The Jarque-Bera criterion as the tests see it, `normal.py` 261-304. -/
noncomputable def jbObject : Statistic (Num ℝ) :=
  { code := "JB_NORMALITY_GOODNESS_OF_FIT", params := none, distribution := "normal",
    alternative := .right, execute := NonFinite.jarqueBera }

theorem jbObject_constant (n : ℕ) (hn : 0 < n) (c : ℝ) :
    jbObject.execute (List.replicate n (.fin c)) = .ok .nan := by
  have e : (List.replicate n (Num.fin c)) = (List.replicate n c).map .fin := by simp
  have hm : Graph.mean (List.replicate n c) = c := by
    have : (n : ℝ) ≠ 0 := by positivity
    simp only [Graph.mean, List.sum_replicate, List.length_replicate, nsmul_eq_mul]
    field_simp
  have h2 : Normal.moment 2 (List.replicate n c) = 0 := by
    simp only [Normal.moment, hm, List.map_replicate, sub_self]
    simp [Graph.mean]
  simp only [jbObject, NonFinite.jarqueBera, e, finiteValues_map, List.length_replicate, h2]
  simp [hn.ne']

/-- **C139 is false for NaN**, in a case that occurs: the Jarque-Bera test of a sample all of whose
values are equal reports that normality is rejected - with both methods, at every level, whatever was
simulated. -/
theorem C139_refuted_jarqueBera (r : Resolver σ (Num ℝ)) (n : ℕ) (hn : 0 < n) (c a : ℝ) (w w' : σ)
    (h0 : 0 ≤ a) (h1 : a ≤ 1) (L : List ℝ) (hL : L ≠ [])
    (hr : (r jbObject n).exec w = (.ok (some (L.map .fin)), w')) :
    ∃ rp rc,
      (NonFinite.gofTest jbObject (List.replicate n (.fin c)) (.fin a) (.pValue r)).exec w = (.ok rp, w') ∧
      (NonFinite.gofTest jbObject (List.replicate n (.fin c)) (.fin a) (.criticalValue r)).exec w =
        (.ok rc, w') ∧
      rp.rejected = true ∧ rp.pValue = some (.fin 0) ∧ rc.rejected = true := by
  have hx := jbObject_constant n hn c
  obtain ⟨rp, ep, -, hp0, hp⟩ := C139_refuted_pvalue r jbObject a n w w' h0 L hL hr (by simp [jbObject])
  obtain ⟨rc, ec, -, hc⟩ := C139_refuted_critical r jbObject a n w w' h0 h1 L hL hr
  refine ⟨rp, rc, ?_, ?_, hp, hp0, hc⟩
  · unfold NonFinite.gofTest
    rw [exec_bind, exec_lift, hx]
    simpa only [List.length_replicate] using ep
  · unfold NonFinite.gofTest
    rw [exec_bind, exec_lift, hx]
    simpa only [List.length_replicate] using ec

/-- The cases are not empty: five simulated values, eight equal observations, level 5%. -/
example : ∃ rp, (NonFinite.gofTest jbObject (List.replicate 8 (.fin 3.5)) (.fin 0.05)
    (.pValue fun _ _ => pure (some ([1, 2, 3, 4, 5].map .fin)))).exec () = (.ok rp, ()) ∧
      rp.rejected = true := by
  obtain ⟨rp, rc, h, -, hr, -⟩ := C139_refuted_jarqueBera
    (fun _ _ => pure (some ([1, 2, 3, 4, 5].map .fin))) 8 (by norm_num) 3.5 0.05 () () (by norm_num)
    (by norm_num) [1, 2, 3, 4, 5] (by simp) rfl
  exact ⟨rp, h, hr⟩

open MultipleTesting in
/-- **C139.** The corrections for multiple testing raise `ValueError` when a p-value is NaN or
infinite; on finite lists they are those of the other properties; a threshold that is NaN rejects
nothing. -/
theorem C139_multiple (proc : Procedure) :
    (∀ (p : List (Num ℝ)) (thr : Num ℝ), (∃ v ∈ p, ∀ x, v ≠ .fin x) →
      NonFinite.test proc p thr = .error .valueError) ∧
    (∀ (p : List ℝ) (thr : ℝ), NonFinite.test proc (p.map .fin) (.fin thr) = test proc p thr) ∧
    (∀ (p : List (Num ℝ)) rej a, NonFinite.test proc p .nan = .ok (rej, a) → ∀ b ∈ rej, b = false) := by
  refine ⟨fun p thr ⟨v, hv, h⟩ => ?_, fun p thr => ?_, fun p rej a h => ?_⟩
  · have : ¬ (p.all (fun x => (Num.fin 0).le x && x.le (.fin 1)) = true) := by
      intro hall
      have := List.all_eq_true.1 hall v hv
      cases v with
      | fin x => exact h x rfl
      | _ => simp [Num.le] at this
    simp only [NonFinite.test, NonFinite.validatePValues, this, Bind.bind, Except.bind]
    rfl
  · have e : NonFinite.validatePValues (p.map Num.fin) = validatePValues p := by
      simp only [NonFinite.validatePValues, validatePValues, List.all_map, Function.comp_def, Num.le]
    simp only [NonFinite.test, test, e, finiteValues_map, Bind.bind, Except.bind, Num.lt]
  · simp only [NonFinite.test, Bind.bind, Except.bind] at h
    cases hv : NonFinite.validatePValues p with
    | error e => simp [hv] at h
    | ok u =>
      cases hf : finiteValues p with
      | error e => simp [hv, hf] at h
      | ok l =>
        cases ha : adjust proc l with
        | error e => simp [hv, hf, ha] at h
        | ok b =>
          simp only [hv, hf, ha, pure, Except.pure, Except.ok.injEq, Prod.mk.injEq] at h
          intro x hx
          rw [← h.1, List.mem_map] at hx
          obtain ⟨y, -, rfl⟩ := hx
          rfl

open MultipleTesting in
/-- **C140.** `adjust` of Bonferroni and Sidak raises `ValueError` exactly when some p-value is
outside `[0, 1]`. -/
theorem C140_adjust_partial (proc : Procedure) (h : proc = .bonferroni ∨ proc = .sidak) (p : List ℝ) :
    (adjust proc p = .error .valueError ↔ ∃ x ∈ p, x < 0 ∨ 1 < x) ∧
    ((∃ a, adjust proc p = .ok a) ↔ ∀ x ∈ p, 0 ≤ x ∧ x ≤ 1) := by
  have key : (validatePValues p = .error .valueError ↔ ∃ x ∈ p, x < 0 ∨ 1 < x) ∧
      (validatePValues p = .ok () ↔ ∀ x ∈ p, 0 ≤ x ∧ x ≤ 1) := by
    unfold validatePValues
    by_cases hp : ∀ x ∈ p, 0 ≤ x ∧ x ≤ 1
    · have : p.all (fun x => decide (0 ≤ x) && decide (x ≤ 1)) = true := by
        simpa [List.all_eq_true] using hp
      rw [if_pos this]
      refine ⟨⟨(fun h => by cases h), fun ⟨x, hx, h⟩ => ?_⟩, fun _ => hp, fun _ => rfl⟩
      rcases h with h | h <;> linarith [(hp x hx).1, (hp x hx).2]
    · have : ¬ p.all (fun x => decide (0 ≤ x) && decide (x ≤ 1)) = true := by
        simpa [List.all_eq_true] using hp
      rw [if_neg this]
      refine ⟨⟨fun _ => ?_, fun _ => rfl⟩, (fun h => by cases h), fun h => absurd h hp⟩
      push Not at hp
      obtain ⟨x, hx, h⟩ := hp
      exact ⟨x, hx, (lt_or_ge x 0).imp_right fun h0 => h h0⟩
  rcases h with rfl | rfl
  all_goals
    simp only [adjust, bonferroniAdjust, sidakAdjust, Bind.bind, Except.bind]
    rw [← key.1, ← key.2]
    cases validatePValues p with
    | error e => simp
    | ok u => simp [pure, Except.pure]

open MultipleTesting in
/-- **C140 is false of Holm, Sidak-Holm and Benjamini-Yekutieli.** Their `adjust` never raises; it
returns "adjusted p-values" for numbers that are no probabilities, below 0 for a negative one. -/
theorem C140_refuted :
    (∀ proc, proc = .holm ∨ proc = .sidakHolm ∨ proc = .benjaminiYekutieli → ∀ p, ∃ a, adjust proc p = .ok a) ∧
    (∀ x : ℝ, x < 0 → adjust .holm [x] = .ok [x] ∧ adjust .sidakHolm [x] = .ok [x] ∧
      adjust .benjaminiYekutieli [x] = .ok [x]) := by
  refine ⟨?_, fun x hx => ⟨?_, ?_, ?_⟩⟩
  · rintro _ (rfl | rfl | rfl) p <;> exact ⟨_, rfl⟩
  · simp only [adjust, holmAdjust, sortedIndices]
    simp [holmForward, holmBackward, hx.le.trans zero_le_one, List.finRange_succ]
  · simp only [adjust, sidakHolmAdjust]
    simp [hx.le.trans zero_le_one]
  · simp only [adjust, byAdjust, byAdjustWith, sortedIndices, byFactor, harmonicSum]
    simp [byForward, byBackward, hx.le.trans zero_le_one, List.finRange_succ]

/-- Concrete cases: a simulation with an infinite value, an infinite statistic, a NaN p-value, and a
"p-value" of -3. -/
example : (NonFinite.decide (.criticalValue fun _ _ => pure (some [.fin (1 : ℚ), .posInf]))
      ⟨"KS", none, "normal", .right, fun _ => .ok (.fin 1)⟩ (.fin 1) (.fin (1 / 20)) 5).exec () =
        (.error .valueError, ()) :=
  (C139_simulated _ _ _ _ _ _ _ [.fin (1 : ℚ), .posInf] rfl
    ⟨.posInf, by simp, fun _ => by simp⟩).2

example : ∃ rc, (NonFinite.decide (.criticalValue fun _ _ => pure (some ([(1 : ℚ), 2].map .fin)))
      ⟨"AD", none, "normal", .right, fun _ => .ok .posInf⟩ .posInf (.fin (1 / 20)) 5).exec () =
        (.ok rc, ()) ∧ rc.rejected = true := by
  obtain ⟨_, rc, _, h, h', _⟩ := C139_infinite (fun _ _ => pure (some ([(1 : ℚ), 2].map .fin)))
    ⟨"AD", none, "normal", .right, fun _ => .ok .posInf⟩ (1 / 20) 5 () () (by norm_num) (by norm_num)
    [1, 2] (by simp) rfl
  exact ⟨rc, h, (h' (by simp)).2.2⟩

example : NonFinite.test .holm [.fin 0.01, .nan] (.fin 0.05) = .error .valueError ∧
    MultipleTesting.adjust .holm [-3] = .ok [-3] ∧
    MultipleTesting.adjust .bonferroni [-3] = .error .valueError :=
  ⟨(C139_multiple .holm).1 _ _ ⟨.nan, by simp, fun _ => by simp⟩, (C140_refuted.2 (-3) (by norm_num)).1,
    (C140_adjust_partial .bonferroni (.inl rfl) [-3]).1.2 ⟨-3, by simp, .inl (by norm_num)⟩⟩

end Pysatl.Props
