import Verif.Lemmas.Level
import Verif.Props.NullLaw
import Verif.Props.Resolver
import Mathlib.MeasureTheory.Measure.Prod

/-! # C123: the whole Monte Carlo test keeps its level over the whole family -/

namespace Pysatl.Props

open Pysatl.Decision Pysatl.Resolver Pysatl.Spec
open MeasureTheory

/-- A random source: the samples that successive calls of `generate` will return. -/
abbrev Source := List (List ℝ)

/-- A generator that hands out the samples of the source, one per call. -/
def handOut : ℤ → Py Source (List ℝ) := fun _ => do
  match ← get with
  | [] => throw .valueError
  | x :: rest => set rest; return x

/-- `MonteCarloLimitDistributionResolver` with `count` simulations drawing from the source. -/
def monteCarlo (count : ℕ) : Resolver Source ℝ := fun st size => do
  let L ← mcResolve count (pure handOut) (fun xs => liftM (st.execute xs)) size
  return some L

/-- `GoodnessOfFitTest` with the p-value method and `B` simulations, on the sample `x` when the simulated
samples turn out to be `y`, returns a result that says "rejected". -/
def TestRejects {n B : ℕ} (st : Statistic ℝ) (α : ℝ) (x : Fin n → ℝ) (y : Fin B → Fin n → ℝ) : Prop :=
  ∃ r w, (gofTest st (List.ofFn x) α (.pValue (monteCarlo B))).exec
    (List.ofFn fun j => List.ofFn (y j)) = (.ok r, w) ∧ r.rejected = true

/-- The value of an outcome, `0` for an exception. -/
def outcomeVal : Except PyErr ℝ → ℝ
  | .ok d => d
  | .error _ => 0

theorem exec_handOut (size : ℤ) (x : List ℝ) (rest : Source) :
    (handOut size).exec (x :: rest) = (.ok x, rest) := rfl

theorem mcLoop_handOut (f : List ℝ → Except PyErr ℝ) (size : ℤ) : ∀ (ys : List (List ℝ)) (L : List ℝ) (w : Source),
    (mcLoop handOut (fun xs => liftM (f xs)) size ys.length).exec ys = (.ok L, w) ↔
      w = [] ∧ L = ys.map (fun y => outcomeVal (f y)) ∧ ∀ y ∈ ys, ∃ d, f y = .ok d
  | [], L, w => by
    simp only [List.length_nil, mcLoop, exec_pure, Prod.mk.injEq, Except.ok.injEq, List.map_nil]
    constructor
    · rintro ⟨rfl, rfl⟩; simp
    · rintro ⟨rfl, rfl, _⟩; simp
  | y :: ys, L, w => by
    simp only [List.length_cons, mcLoop, exec_bind, exec_handOut, exec_lift]
    cases hy : f y with
    | error e =>
      simp [hy]
    | ok d =>
      have ih := mcLoop_handOut f size ys
      rcases hr : (mcLoop handOut (fun xs => liftM (f xs)) size ys.length).exec ys with ⟨e | L', w'⟩
      · have : ¬ ∀ z ∈ ys, ∃ d, f z = .ok d := by
          intro h
          have := (ih (ys.map fun y => outcomeVal (f y)) []).2 ⟨rfl, rfl, h⟩
          rw [hr] at this
          simp at this
        simp only [hr, Prod.mk.injEq, reduceCtorEq, false_and, false_iff, not_and]
        intro _ _ h
        exact this fun z hz => h z (by simp [hz])
      · obtain ⟨rfl, rfl, h⟩ := (ih L' w').1 hr
        simp only [hr, exec_pure, Prod.mk.injEq, Except.ok.injEq, List.map_cons, List.mem_cons,
          forall_eq_or_imp, hy, outcomeVal, exists_eq', true_and]
        constructor
        · rintro ⟨rfl, rfl⟩; exact ⟨rfl, rfl, h⟩
        · rintro ⟨rfl, rfl, _⟩; exact ⟨rfl, rfl⟩

/-- The test rejects when every evaluation succeeds and the observed value ranks accordingly. -/
theorem testRejects_iff {n B : ℕ} (hn : 0 < n) (st : Statistic ℝ) (α : ℝ) (x : Fin n → ℝ)
    (y : Fin B → Fin n → ℝ) :
    TestRejects st α x y ↔ (∃ d, st.execute (List.ofFn x) = .ok d) ∧
      (∀ j, ∃ d, st.execute (List.ofFn (y j)) = .ok d) ∧
      ∃ p, (getConcreteFactory st.alternative).pValue
        (List.ofFn fun j => outcomeVal (st.execute (List.ofFn (y j))))
        (outcomeVal (st.execute (List.ofFn x))) = .ok p ∧ p ≤ α := by
  have hloop := mcLoop_handOut st.execute (n : ℤ) (List.ofFn fun j => List.ofFn (y j))
  rw [List.length_ofFn, List.map_ofFn] at hloop
  have hres : ∀ L w, ((monteCarlo B) st n).exec (List.ofFn fun j => List.ofFn (y j)) = (.ok (some L), w) ↔
      (mcLoop handOut (fun xs => liftM (st.execute xs)) n B).exec (List.ofFn fun j => List.ofFn (y j)) =
        (.ok L, w) := by
    intro L w
    have hn' : ¬ ((n : ℤ) ≤ 0) := by omega
    simp only [monteCarlo, mcResolve, if_neg hn', exec_bind, exec_pure]
    rcases (mcLoop handOut (fun xs => liftM (st.execute xs)) (n : ℤ) B).exec _ with ⟨e | L', w'⟩ <;> simp
  unfold TestRejects
  constructor
  · rintro ⟨r, w, h, hr⟩
    unfold gofTest at h
    rw [exec_bind, exec_lift] at h
    cases he : st.execute (List.ofFn x) with
    | error e => simp [he] at h
    | ok v =>
      simp only [he] at h
      obtain ⟨L, p, hL, hp, rfl⟩ := pDecide_ok h
      rw [List.length_ofFn, hres, hloop] at hL
      obtain ⟨_, rfl, hok⟩ := hL
      refine ⟨⟨v, rfl⟩, fun j => hok _ (by simp), p, hp, by simpa using hr⟩
  · rintro ⟨⟨v, hv⟩, hok, p, hp, hpα⟩
    have hL := (hres _ _).2 ((hloop (List.ofFn fun j => outcomeVal (st.execute (List.ofFn (y j)))) []).2
      ⟨rfl, rfl, by simpa using hok⟩)
    rw [hv] at hp
    have hrun : (gofTest st (List.ofFn x) α (.pValue (monteCarlo B))).exec
        (List.ofFn fun j => List.ofFn (y j)) =
        (pValueDecide (monteCarlo B) st v α n).exec (List.ofFn fun j => List.ofFn (y j)) := by
      unfold gofTest
      rw [exec_bind, exec_lift, hv, List.length_ofFn]
      rfl
    exact ⟨_, _, hrun.trans (pDecide_run hL hp), by simpa using hpα⟩

section
variable {α : Type} [MeasurableSpace α] {f : α → Except PyErr ℝ}

theorem measurable_isOk (h : OutcomeMeas f) : MeasurableSet {a | ∃ d, f a = .ok d} := by
  have : {a | ∃ d, f a = .ok d} = ⋃ k : ℕ, {a | ∃ d ≤ (k : ℝ), f a = .ok d} := by
    ext a
    simp only [Set.mem_ofPred_eq, Set.mem_iUnion]
    constructor
    · rintro ⟨d, hd⟩
      obtain ⟨k, hk⟩ := exists_nat_ge d
      exact ⟨k, d, hk, hd⟩
    · rintro ⟨k, d, _, hd⟩; exact ⟨d, hd⟩
  rw [this]
  exact MeasurableSet.iUnion fun k => h k

theorem measurable_outcomeVal (h : OutcomeMeas f) : Measurable fun a => outcomeVal (f a) := by
  refine measurable_of_Iic fun c => ?_
  have : (fun a => outcomeVal (f a)) ⁻¹' Set.Iic c =
      {a | ∃ d ≤ c, f a = .ok d} ∪ ({a | ∃ d, f a = .ok d}ᶜ ∩ {_a | (0 : ℝ) ≤ c}) := by
    ext a
    simp only [Set.mem_preimage, Set.mem_Iic, Set.mem_union, Set.mem_inter_iff, Set.mem_compl_iff, Set.mem_ofPred_eq]
    cases f a <;> simp [outcomeVal]
  rw [this]
  exact (h c).union ((measurable_isOk h).compl.inter (by measurability))

end

/-- Two samples drawn independently have different values when no value has positive probability. -/
theorem no_ties {S : Type} [MeasurableSpace S] {M : Measure S} [IsProbabilityMeasure M] {B : ℕ}
    {f : S → Except PyErr ℝ} (hf : OutcomeMeas f) (h : ∀ c, M {x | f x = .ok c} = 0) {i j : Fin (B + 1)}
    (hij : j ≠ i) : ∀ᵐ ω ∂(Measure.pi fun _ : Fin (B + 1) => M), ∀ c, f (ω i) = .ok c → f (ω j) ≠ .ok c := by
  obtain ⟨k, rfl⟩ := Fin.exists_succAbove_eq hij
  set N : Set (S × (Fin B → S)) := {p | (∃ d, f p.1 = .ok d) ∧ (∃ d, f (p.2 k) = .ok d) ∧
    outcomeVal (f p.1) = outcomeVal (f (p.2 k))} with hN
  have hmN : MeasurableSet N := by
    have h1 : Measurable fun p : S × (Fin B → S) => p.2 k := (measurable_pi_apply k).comp measurable_snd
    refine ((measurable_fst (measurable_isOk hf)).inter ((h1 (measurable_isOk hf)).inter ?_))
    exact measurableSet_eq_fun ((measurable_outcomeVal hf).comp measurable_fst)
      ((measurable_outcomeVal hf).comp h1)
  have hz : (M.prod (Measure.pi fun _ : Fin B => M)) N = 0 := by
    rw [Measure.prod_apply hmN]
    refine (lintegral_eq_zero_iff (measurable_measure_prodMk_left hmN)).2 (Filter.Eventually.of_forall fun x => ?_)
    simp only [Pi.zero_apply]
    have hsub : Prod.mk x ⁻¹' N ⊆ (fun y : Fin B → S => y k) ⁻¹' {z | f z = .ok (outcomeVal (f x))} := by
      rintro y ⟨_, ⟨d, hd⟩, he⟩
      simp only at hd he
      rw [Set.mem_preimage, Set.mem_ofPred_eq, he, hd]
      rfl
    refine measure_mono_null hsub ?_
    have hm : MeasurableSet {z | f z = .ok (outcomeVal (f x))} := by
      have : {z | f z = .ok (outcomeVal (f x))} =
          {z | ∃ d, f z = .ok d} ∩ {z | outcomeVal (f z) = outcomeVal (f x)} := by
        ext z
        simp only [Set.mem_inter_iff, Set.mem_ofPred_eq]
        cases f z <;> simp [outcomeVal]
      rw [this]
      exact (measurable_isOk hf).inter (measurableSet_eq_fun (measurable_outcomeVal hf) measurable_const)
    rw [(measurePreserving_eval (fun _ : Fin B => M) k).measure_preimage hm.nullMeasurableSet]
    exact h _
  have hp := measurePreserving_piFinSuccAbove (fun _ : Fin (B + 1) => M) i
  have h0 := hp.measure_preimage hmN.nullMeasurableSet
  rw [hz] at h0
  rw [ae_iff]
  refine measure_mono_null (fun ω hω => ?_) h0
  simp only [Set.mem_ofPred_eq, not_forall, not_not] at hω
  obtain ⟨c, h1, h2⟩ := hω
  refine ⟨⟨c, h1⟩, ⟨c, h2⟩, ?_⟩
  show outcomeVal (f (ω i)) = outcomeVal (f (ω (i.succAbove k)))
  rw [h1, h2]

/-- **Level of the whole test.** -/
theorem monteCarlo_level (st : Statistic ℝ) {n B : ℕ} (hn : 0 < n) (hB : 0 < B) {ν μ : Measure (Fin n → ℝ)}
    [IsProbabilityMeasure μ] {T : (Fin n → ℝ) → Fin n → ℝ} (hT : Measurable T) (hmap : μ.map T = ν)
    (hinv : ∀ᵐ x ∂μ, st.execute (List.ofFn (T x)) = st.execute (List.ofFn x))
    (hm : OutcomeMeas fun x : Fin n → ℝ => st.execute (List.ofFn x))
    (hties : st.alternative ≠ .left → ∀ c, μ {x | st.execute (List.ofFn x) = .ok c} = 0) (α : ℝ) :
    (ν.prod (Measure.pi fun _ : Fin B => μ)) {ω | TestRejects st α ω.1 ω.2} ≤
      (rankBound st.alternative α B : ENNReal) / (B + 1 : ℕ) := by
  set f : (Fin n → ℝ) → Except PyErr ℝ := fun x => st.execute (List.ofFn x) with hf
  set A : Fin (B + 1) → Set (Fin (B + 1) → Fin n → ℝ) := fun i =>
    {ω | (∀ j, ∃ d, f (ω j) = .ok d) ∧
      RankRejects st.alternative α (fun j => outcomeVal (f (ω j))) i} with hA
  set E : Set ((Fin n → ℝ) × (Fin B → Fin n → ℝ)) := {ω | TestRejects st α ω.1 ω.2} with hE
  have hAm : ∀ i, MeasurableSet (A i) := by
    intro i
    have h1 : Measurable fun ω : Fin (B + 1) → Fin n → ℝ => fun j => outcomeVal (f (ω j)) :=
      measurable_pi_lambda _ fun j => (measurable_outcomeVal hm).comp (measurable_pi_apply j)
    have h2 : MeasurableSet {ω : Fin (B + 1) → Fin n → ℝ | ∀ j, ∃ d, f (ω j) = .ok d} := by
      rw [Set.ofPred_forall]
      exact MeasurableSet.iInter fun j => (measurable_pi_apply j) (measurable_isOk hm)
    exact h2.inter (h1 (measurable_rankRejects hB st.alternative α i))
  have hAE : A 0 = (MeasurableEquiv.piFinSuccAbove (fun _ : Fin (B + 1) => Fin n → ℝ) 0) ⁻¹' E := by
    ext ω
    rw [Set.mem_preimage]
    show _ ↔ TestRejects st α (ω 0) (fun j => ω (Fin.succAbove 0 j))
    rw [testRejects_iff hn]
    simp only [hA, Set.mem_ofPred_eq, RankRejects]
    rw [Fin.forall_fin_succ, and_assoc]
    rfl
  have hEm : MeasurableSet E := by
    have := (hAm 0)
    rw [hAE] at this
    exact (MeasurableEquiv.measurableSet_preimage _).1 this
  have hν : (ν.prod (Measure.pi fun _ : Fin B => μ)) E = (μ.prod (Measure.pi fun _ : Fin B => μ)) E := by
    have h1 : ν.prod (Measure.pi fun _ : Fin B => μ) =
        (μ.prod (Measure.pi fun _ : Fin B => μ)).map (Prod.map T id) := by
      have hp : IsProbabilityMeasure (μ.map T) := Measure.isProbabilityMeasure_map hT.aemeasurable
      rw [← Measure.map_prod_map _ _ hT measurable_id, hmap, Measure.map_id]
    rw [h1, Measure.map_apply (hT.prodMap measurable_id) hEm]
    refine measure_congr ?_
    have h2 : ∀ᵐ ω ∂(μ.prod (Measure.pi fun _ : Fin B => μ)), f (T ω.1) = f ω.1 :=
      Measure.quasiMeasurePreserving_fst.ae hinv
    filter_upwards [h2] with ω hω
    refine propext ?_
    show TestRejects st α (T ω.1) ω.2 ↔ TestRejects st α ω.1 ω.2
    rw [testRejects_iff hn, testRejects_iff hn]
    simp only [hf] at hω
    rw [hω]
  rw [hν, ← (measurePreserving_piFinSuccAbove (fun _ : Fin (B + 1) => μ) 0).measure_preimage
    hEm.nullMeasurableSet, ← hAE]
  refine symmetric_bound μ A hAm ?_ _ ?_
  · intro i ω
    have := rankRejects_perm hB st.alternative α 0 (Equiv.swap 0 i) fun j => outcomeVal (f (ω j))
    rw [Equiv.swap_apply_left] at this
    simp only [hA, Set.mem_ofPred_eq, Function.comp]
    refine and_congr ?_ this
    exact ⟨fun h j => by simpa using h (Equiv.swap 0 i j), fun h j => h _⟩
  · classical
    have hnt : ∀ᵐ ω ∂(Measure.pi fun _ : Fin (B + 1) => μ), st.alternative ≠ .left →
        ∀ i j, j ≠ i → ∀ c, f (ω i) = .ok c → f (ω j) ≠ .ok c := by
      by_cases hl : st.alternative = .left
      · simp [hl]
      · simp only [ne_eq, hl, not_false_eq_true, forall_const]
        rw [ae_all_iff]; intro i
        rw [ae_all_iff]; intro j
        by_cases hij : j = i
        · simp [hij]
        · simpa [hij] using no_ties hm (hties hl) hij
    filter_upwards [hnt] with ω hω s hs
    rcases s.eq_empty_or_nonempty with rfl | ⟨i0, hi0⟩
    · simp
    have hok := (hs i0 hi0).1
    refine le_trans (Finset.card_le_card fun i hi => ?_) (rank_count hB st.alternative α
      (x := fun j => outcomeVal (f (ω j))) ?_)
    · simpa using (hs i hi).2
    · intro hl i j hij
      by_contra hne
      obtain ⟨c, hc⟩ := hok i
      obtain ⟨d, hd⟩ := hok j
      simp only [hc, hd, outcomeVal] at hij
      subst hij
      exact hω hl i j (Ne.symm hne) c hc hd

end Pysatl.Props
