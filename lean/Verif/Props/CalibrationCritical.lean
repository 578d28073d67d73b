import Verif.Props.Calibration

/-! # C126: the level of the test with critical values -/

namespace Pysatl.Props

open Pysatl.Decision Pysatl.Resolver Pysatl.Spec
open MeasureTheory

/-- `GoodnessOfFitTest` with the critical value method and `B` simulations, on the sample `x` when the simulated
samples turn out to be `y`, returns a result that says "rejected". -/
def CvRejects {n B : ℕ} (st : Statistic ℝ) (α : ℝ) (x : Fin n → ℝ) (y : Fin B → Fin n → ℝ) : Prop :=
  ∃ r w, (gofTest st (List.ofFn x) α (.criticalValue (monteCarlo B))).exec
    (List.ofFn fun j => List.ofFn (y j)) = (.ok r, w) ∧ r.rejected = true

/-- The bound for the critical value method: the critical values are interpolated between the `B` ordered
simulated values. -/
noncomputable def criticalBound (t : AlternativeType) (α : ℝ) (B : ℕ) : ℕ :=
  match t with
  | .left | .right => ⌈α * ((B : ℝ) - 1)⌉₊ + 1
  | .twoTailed => 2 * (⌈α / 2 * ((B : ℝ) - 1)⌉₊ + 1)

/-- The test rejects when every evaluation succeeds and the observed value is outside the region. -/
theorem cvRejects_iff {n B : ℕ} (hn : 0 < n) (st : Statistic ℝ) (α : ℝ) (x : Fin n → ℝ)
    (y : Fin B → Fin n → ℝ) :
    CvRejects st α x y ↔ (∃ d, st.execute (List.ofFn x) = .ok d) ∧
      (∀ j, ∃ d, st.execute (List.ofFn (y j)) = .ok d) ∧
      ∃ cv area, (getConcreteFactory st.alternative).criticalValue
        (List.ofFn fun j => outcomeVal (st.execute (List.ofFn (y j)))) α = .ok cv ∧
        (getConcreteFactory st.alternative).criticalArea cv = .ok area ∧
        area.contains (outcomeVal (st.execute (List.ofFn x))) = false := by
  have hloop := mcLoop_handOut st.execute (n : ℤ) (List.ofFn fun j => List.ofFn (y j))
  rw [List.length_ofFn, List.map_ofFn] at hloop
  have hres : ∀ L w, ((monteCarlo B) st n).exec (List.ofFn fun j => List.ofFn (y j)) = (.ok (some L), w) ↔
      (mcLoop handOut (fun xs => liftM (st.execute xs)) n B).exec (List.ofFn fun j => List.ofFn (y j)) =
        (.ok L, w) := by
    intro L w
    have hn' : ¬ ((n : ℤ) ≤ 0) := by omega
    simp only [monteCarlo, mcResolve, if_neg hn', exec_bind, exec_pure]
    rcases (mcLoop handOut (fun xs => liftM (st.execute xs)) (n : ℤ) B).exec _ with ⟨e | L', w'⟩ <;> simp
  unfold CvRejects
  constructor
  · rintro ⟨r, w, h, hr⟩
    unfold gofTest at h
    rw [exec_bind, exec_lift] at h
    cases he : st.execute (List.ofFn x) with
    | error e => simp [he] at h
    | ok v =>
      simp only [he] at h
      obtain ⟨L, cv, area, hL, hcv, ha, rfl⟩ := cvDecide_ok h
      rw [List.length_ofFn, hres, hloop] at hL
      obtain ⟨_, rfl, hok⟩ := hL
      refine ⟨⟨v, rfl⟩, fun j => hok _ (by simp), cv, area, hcv, ha, by simpa [outcomeVal] using hr⟩
  · rintro ⟨⟨v, hv⟩, hok, cv, area, hcv, ha, hc⟩
    have hL := (hres _ _).2 ((hloop (List.ofFn fun j => outcomeVal (st.execute (List.ofFn (y j)))) []).2
      ⟨rfl, rfl, by simpa using hok⟩)
    rw [hv] at hc
    have hrun : (gofTest st (List.ofFn x) α (.criticalValue (monteCarlo B))).exec
        (List.ofFn fun j => List.ofFn (y j)) =
        (criticalValueDecide (monteCarlo B) st v α n).exec (List.ofFn fun j => List.ofFn (y j)) := by
      unfold gofTest
      rw [exec_bind, exec_lift, hv, List.length_ofFn]
      rfl
    exact ⟨_, _, hrun.trans (cvDecide_run hL hcv ha), by simpa [outcomeVal] using hc⟩

/-- The level at which the p-value method rejects whatever the critical value method rejects at level `α`. -/
noncomputable def pLevel (t : AlternativeType) (α : ℝ) (B : ℕ) : ℝ :=
  match t with
  | .left | .right => ⌈α * ((B : ℝ) - 1)⌉₊ / B
  | .twoTailed => 2 * ⌈α / 2 * ((B : ℝ) - 1)⌉₊ / B

theorem rankBound_pLevel (t : AlternativeType) (α : ℝ) {B : ℕ} (hB : 0 < B) :
    rankBound t (pLevel t α B) B = criticalBound t α B := by
  have hB' : (B : ℝ) ≠ 0 := by exact_mod_cast hB.ne'
  cases t <;> simp only [rankBound, pLevel, criticalBound]
  · rw [div_mul_cancel₀ _ hB', Nat.floor_natCast]
  · rw [div_mul_cancel₀ _ hB', Nat.floor_natCast]
  · rw [show (2 * (⌈α / 2 * ((B : ℝ) - 1)⌉₊ : ℝ) / B / 2 * B) = ⌈α / 2 * ((B : ℝ) - 1)⌉₊ by field_simp,
      Nat.floor_natCast]

theorem fracLe_of_lt {L : List ℝ} (hL : L ≠ []) (hnd : L.Nodup) {q s : ℝ} (h0 : 0 ≤ q) (h1 : q ≤ 1)
    (h : s < uniqueQuantile L q) : fracLe L s ≤ ⌈q * ((L.length : ℝ) - 1)⌉₊ / L.length := by
  have hpos' : (0 : ℝ) < L.length := by exact_mod_cast List.length_pos_iff.2 hL
  have := count_of_lt_quantile hL hnd h0 h1 h
  rw [fracLe_eq_countP] at this ⊢
  rw [div_lt_div_iff_of_pos_right hpos'] at this
  refine div_le_div_of_nonneg_right ?_ hpos'.le
  have h2 := Nat.le_ceil (q * ((L.length : ℝ) - 1))
  have h3 : ((L.countP fun x => decide (x ≤ s) : ℕ) : ℝ) < (⌈q * ((L.length : ℝ) - 1)⌉₊ + 1 : ℕ) := by
    push_cast; linarith
  exact_mod_cast Nat.lt_succ_iff.1 (by exact_mod_cast h3)

theorem fracGt_of_lt {L : List ℝ} (hL : L ≠ []) (hnd : L.Nodup) {α s : ℝ} (h0 : 0 ≤ α) (h1 : α ≤ 1)
    (h : uniqueQuantile L (1 - α) < s) : fracGt L s ≤ ⌈α * ((L.length : ℝ) - 1)⌉₊ / L.length := by
  have hpos' : (0 : ℝ) < L.length := by exact_mod_cast List.length_pos_iff.2 hL
  have := count_of_ge_quantile hL hnd (q := 1 - α) (by linarith) (by linarith) h.le
  rw [fracGt_eq hL]
  rw [fracLe_eq_countP] at this ⊢
  rw [div_lt_div_iff_of_pos_right hpos'] at this
  have hc : L.countP (fun x => decide (x ≤ s)) ≤ L.length := List.countP_le_length
  have e : 1 - ((L.countP fun x => decide (x ≤ s) : ℕ) : ℝ) / L.length =
      ((L.length - L.countP (fun x => decide (x ≤ s)) : ℕ) : ℝ) / L.length := by
    rw [Nat.cast_sub hc]
    field_simp
  rw [e]
  refine div_le_div_of_nonneg_right ?_ hpos'.le
  have h2 := Nat.le_ceil (α * ((L.length : ℝ) - 1))
  have h3 : ((L.length - L.countP (fun x => decide (x ≤ s)) : ℕ) : ℝ) <
      (⌈α * ((L.length : ℝ) - 1)⌉₊ + 1 : ℕ) := by
    rw [Nat.cast_sub hc]
    push_cast; linarith
  exact_mod_cast Nat.lt_succ_iff.1 (by exact_mod_cast h3)

/-- A rejection by the critical values of distinct simulated values is one by p-value, at a slightly higher
level. -/
theorem cvRejects_imp {n B : ℕ} (hn : 0 < n) (hB : 0 < B) {st : Statistic ℝ} {α : ℝ} (h0 : 0 ≤ α) (h1 : α ≤ 1)
    {x : Fin n → ℝ} {y : Fin B → Fin n → ℝ}
    (hnd : (List.ofFn fun j => outcomeVal (st.execute (List.ofFn (y j)))).Nodup)
    (h : CvRejects st α x y) : TestRejects st (pLevel st.alternative α B) x y := by
  rw [cvRejects_iff hn] at h
  rw [testRejects_iff hn]
  obtain ⟨hx, hy, cv, area, hcv, ha, hc⟩ := h
  refine ⟨hx, hy, ?_⟩
  have hL : (List.ofFn fun j => outcomeVal (st.execute (List.ofFn (y j)))) ≠ [] := by
    rw [Ne, List.ofFn_eq_nil_iff]; omega
  have hlen : (List.ofFn fun j => outcomeVal (st.execute (List.ofFn (y j)))).length = B := List.length_ofFn
  generalize (List.ofFn fun j => outcomeVal (st.execute (List.ofFn (y j)))) = L at *
  generalize outcomeVal (st.execute (List.ofFn x)) = s at *
  subst hlen
  cases ht : st.alternative with
  | left =>
    simp only [ht, getConcreteFactory, if_true, Factory.criticalValue,
      leftCriticalValue, Factory.pValue, leftPValue_eq hL, npQuantile_unique hL h0 h1, bind, Except.bind,
      pure, Except.pure, Except.ok.injEq] at hcv ha ⊢
    subst hcv
    simp only [Factory.criticalArea, Except.ok.injEq] at ha
    subst ha
    simp only [CriticalArea.contains, decide_eq_false_iff_not, not_le] at hc
    exact ⟨_, rfl, fracLe_of_lt hL hnd h0 h1 hc⟩
  | right =>
    have g0 : 0 ≤ 1 - α := by linarith
    have g1 : 1 - α ≤ 1 := by linarith
    simp only [ht, getConcreteFactory, reduceCtorEq, if_false, if_true, Factory.criticalValue,
      rightCriticalValue, Factory.pValue, rightPValue_eq hL, npQuantile_unique hL g0 g1, bind, Except.bind,
      pure, Except.pure, Except.ok.injEq] at hcv ha ⊢
    subst hcv
    simp only [Factory.criticalArea, Except.ok.injEq] at ha
    subst ha
    simp only [CriticalArea.contains, decide_eq_false_iff_not, not_le] at hc
    exact ⟨_, rfl, fracGt_of_lt hL hnd h0 h1 hc⟩
  | twoTailed =>
    have a0 : 0 ≤ α / 2 := by linarith
    have a1 : α / 2 ≤ 1 := by linarith
    have g0 : 0 ≤ 1 - α / 2 := by linarith
    have g1 : 1 - α / 2 ≤ 1 := by linarith
    simp only [ht, getConcreteFactory, reduceCtorEq, if_false, Factory.criticalValue,
      twoSidedCriticalValue, Factory.pValue, twoSidedPValue_eq hL, npQuantile_unique hL g0 g1,
      npQuantile_unique hL a0 a1, bind, Except.bind, pure, Except.pure, Except.ok.injEq] at hcv ha ⊢
    subst hcv
    simp only [Factory.criticalArea, Except.ok.injEq] at ha
    subst ha
    simp only [CriticalArea.contains, Bool.and_eq_false_iff, decide_eq_false_iff_not, not_le] at hc
    refine ⟨_, rfl, ?_⟩
    rw [pLevel, mul_div_assoc]
    refine mul_le_mul_of_nonneg_left ?_ zero_le_two
    rcases hc with hc | hc
    · exact (min_le_left _ _).trans (fracLe_of_lt hL hnd a0 a1 hc)
    · exact (min_le_right _ _).trans (fracGt_of_lt hL hnd a0 a1 hc)

/-- If no value of the statistic has positive probability, the critical value method at level `α` rejects at most
as often as the p-value method at the level `pLevel`. -/
theorem critical_le {n B : ℕ} (hn : 0 < n) (hB : 0 < B) {st : Statistic ℝ} {ν μ : Measure (Fin n → ℝ)}
    [IsProbabilityMeasure μ] [SFinite ν] (hm : OutcomeMeas fun x : Fin n → ℝ => st.execute (List.ofFn x))
    (hties : ∀ c, μ {x | st.execute (List.ofFn x) = .ok c} = 0) {α : ℝ} (h0 : 0 ≤ α) (h1 : α ≤ 1) :
    (ν.prod (Measure.pi fun _ : Fin B => μ)) {ω | CvRejects st α ω.1 ω.2} ≤
      (ν.prod (Measure.pi fun _ : Fin B => μ)) {ω | TestRejects st (pLevel st.alternative α B) ω.1 ω.2} := by
  obtain ⟨B, rfl⟩ := Nat.exists_eq_succ_of_ne_zero hB.ne'
  have h : ∀ᵐ y ∂(Measure.pi fun _ : Fin (B + 1) => μ), ∀ i j, j ≠ i →
      ∀ c, st.execute (List.ofFn (y i)) = .ok c → st.execute (List.ofFn (y j)) ≠ .ok c := by
    rw [ae_all_iff]; intro i
    rw [ae_all_iff]; intro j
    by_cases hij : j = i
    · simp [hij]
    · simpa [hij] using no_ties (f := fun x : Fin n → ℝ => st.execute (List.ofFn x)) hm hties hij
  have h' : ∀ᵐ ω ∂(ν.prod (Measure.pi fun _ : Fin (B + 1) => μ)), ∀ i j, j ≠ i →
      ∀ c, st.execute (List.ofFn (ω.2 i)) = .ok c → st.execute (List.ofFn (ω.2 j)) ≠ .ok c :=
    Measure.quasiMeasurePreserving_snd.ae h
  refine measure_mono_ae ?_
  filter_upwards [h'] with ω hω hr
  have hr' : CvRejects st α ω.1 ω.2 := hr
  refine cvRejects_imp hn hB h0 h1 ?_ hr'
  rw [List.nodup_ofFn]
  intro i j hij
  by_contra hne
  obtain ⟨-, hok, -⟩ := (cvRejects_iff hn st α ω.1 ω.2).1 hr'
  obtain ⟨c, hc⟩ := hok i
  obtain ⟨d, hd⟩ := hok j
  simp only [hc, hd, outcomeVal] at hij
  subst hij
  exact hω i j (Ne.symm hne) c hc hd

/-- The test keeps its level with both methods when the data have the law `ν` and the simulated samples the law
`μ`. -/
def KeepsLevel {n : ℕ} (st : Statistic ℝ) (ν μ : Measure (Fin n → ℝ)) (B : ℕ) : Prop :=
  (∀ α, (ν.prod (Measure.pi fun _ : Fin B => μ)) {ω | TestRejects st α ω.1 ω.2} ≤
    (rankBound st.alternative α B : ENNReal) / (B + 1 : ℕ)) ∧
  ∀ α, 0 ≤ α → α ≤ 1 → (ν.prod (Measure.pi fun _ : Fin B => μ)) {ω | CvRejects st α ω.1 ω.2} ≤
    (criticalBound st.alternative α B : ENNReal) / (B + 1 : ℕ)

theorem keepsLevel {n B : ℕ} (hn : 0 < n) (hB : 0 < B) {st : Statistic ℝ} {ν μ : Measure (Fin n → ℝ)}
    [IsProbabilityMeasure μ] [SFinite ν] (hm : OutcomeMeas fun x : Fin n → ℝ => st.execute (List.ofFn x))
    (hties : ∀ c, μ {x | st.execute (List.ofFn x) = .ok c} = 0)
    (h : ∀ α, (ν.prod (Measure.pi fun _ : Fin B => μ)) {ω | TestRejects st α ω.1 ω.2} ≤
      (rankBound st.alternative α B : ENNReal) / (B + 1 : ℕ)) : KeepsLevel st ν μ B := by
  refine ⟨h, fun α h0 h1 => (critical_le hn hB hm hties h0 h1).trans ?_⟩
  rw [← rankBound_pLevel _ _ hB]
  exact h _

end Pysatl.Props
