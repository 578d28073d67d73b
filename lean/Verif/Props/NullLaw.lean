import Verif.Lemmas.NullLaw
import Verif.Lemmas.Edf
import Verif.Lemmas.Graph
import Verif.Props.Edf
import Verif.Props.Divergence
import Mathlib.MeasureTheory.Function.SpecialFunctions.Basic
import Mathlib.Data.Fin.Tuple.Sort

/-!
# C90: statistics of the transformed sample are distribution free
-/

namespace Pysatl.Props

open Pysatl.Decision Pysatl.Graph Pysatl.Edf
open Pysatl.Spec
open MeasureTheory ProbabilityTheory

/-! ### Measurable lists -/

section
variable {α : Type} [MeasurableSpace α]

/-- A list of a fixed length whose elements depend measurably on a parameter. -/
def ListMeas (f : α → List ℝ) : Prop :=
  ∃ (m : ℕ) (g : ℕ → α → ℝ), (∀ i, Measurable (g i)) ∧ ∀ a, f a = (List.range m).map fun i => g i a

theorem ListMeas.length {f : α → List ℝ} (h : ListMeas f) : ∃ m, ∀ a, (f a).length = m := by
  obtain ⟨m, g, _, e⟩ := h
  exact ⟨m, fun a => by rw [e]; simp⟩

theorem ListMeas.mapIdx {f : α → List ℝ} (h : ListMeas f) {φ : α → ℕ → ℝ → ℝ}
    (hφ : ∀ i, Measurable fun p : α × ℝ => φ p.1 i p.2) : ListMeas fun a => (f a).mapIdx (φ a) := by
  obtain ⟨m, g, hg, e⟩ := h
  refine ⟨m, fun i a => φ a i (g i a), fun i => (hφ i).comp (measurable_id.prodMk (hg i)), fun a => ?_⟩
  beta_reduce
  rw [e]
  exact List.ext_getElem (by simp) fun i h1 h2 => by simp

theorem ListMeas.map {f : α → List ℝ} (h : ListMeas f) {φ : ℝ → ℝ} (hφ : Measurable φ) :
    ListMeas fun a => (f a).map φ := by
  obtain ⟨m, g, hg, e⟩ := h
  exact ⟨m, fun i a => φ (g i a), fun i => hφ.comp (hg i), fun a => by beta_reduce; rw [e, List.map_map]; rfl⟩

theorem ListMeas.zipWith {f f' : α → List ℝ} (h : ListMeas f) (h' : ListMeas f') {φ : ℝ → ℝ → ℝ}
    (hφ : Measurable fun p : ℝ × ℝ => φ p.1 p.2) : ListMeas fun a => List.zipWith φ (f a) (f' a) := by
  obtain ⟨m, g, hg, e⟩ := h
  obtain ⟨m', g', hg', e'⟩ := h'
  refine ⟨min m m', fun i a => φ (g i a) (g' i a), fun i => hφ.comp ((hg i).prodMk (hg' i)), fun a => ?_⟩
  beta_reduce
  rw [e, e']
  exact List.ext_getElem (by simp) fun i h1 h2 => by simp

theorem ListMeas.cons {f : α → List ℝ} (h : ListMeas f) (c : ℝ) : ListMeas fun a => c :: f a := by
  obtain ⟨m, g, hg, e⟩ := h
  refine ⟨m + 1, fun i a => if i = 0 then c else g (i - 1) a, fun i => ?_, fun a => ?_⟩
  · beta_reduce
    split
    · exact measurable_const
    · exact hg _
  · beta_reduce
    rw [e]
    refine List.ext_getElem (by simp) fun i h1 h2 => ?_
    cases i <;> simp

theorem ListMeas.snoc {f : α → List ℝ} (h : ListMeas f) (c : ℝ) : ListMeas fun a => f a ++ [c] := by
  obtain ⟨m, g, hg, e⟩ := h
  refine ⟨m + 1, fun i a => if i = m then c else g i a, fun i => ?_, fun a => ?_⟩
  · beta_reduce
    split
    · exact measurable_const
    · exact hg _
  · beta_reduce
    rw [e]
    refine List.ext_getElem (by simp) fun i h1 h2 => ?_
    rw [List.getElem_append]
    simp only [List.length_map, List.length_range, List.getElem_map, List.getElem_range]
    simp only [List.length_map, List.length_range] at h2
    by_cases hi : i < m
    · rw [dif_pos hi, if_neg hi.ne]
    · rw [dif_neg hi, if_pos (by omega)]; simp

theorem ListMeas.tail {f : α → List ℝ} (h : ListMeas f) : ListMeas fun a => (f a).tail := by
  obtain ⟨m, g, hg, e⟩ := h
  refine ⟨m - 1, fun i a => g (i + 1) a, fun i => hg _, fun a => ?_⟩
  beta_reduce
  rw [e]
  exact List.ext_getElem (by simp) fun i h1 h2 => by simp

theorem ListMeas.reverse {f : α → List ℝ} (h : ListMeas f) : ListMeas fun a => (f a).reverse := by
  obtain ⟨m, g, hg, e⟩ := h
  refine ⟨m, fun i a => g (m - 1 - i) a, fun i => hg _, fun a => ?_⟩
  beta_reduce
  rw [e]
  exact List.ext_getElem (by simp) fun i h1 h2 => by simp

theorem npDiff_eq_zipWith {K : Type} [Field K] : ∀ l : List K,
    npDiff l = List.zipWith (fun x y => y - x) l l.tail
  | [] => rfl
  | [_] => rfl
  | x :: y :: l => by
    have := npDiff_eq_zipWith (y :: l)
    simp only [npDiff, List.tail_cons, List.zipWith_cons_cons, this]

theorem ListMeas.npDiff {f : α → List ℝ} (h : ListMeas f) : ListMeas fun a => npDiff (f a) := by
  simp only [npDiff_eq_zipWith]
  exact h.zipWith h.tail (by fun_prop)

theorem ListMeas.spacings {f : α → List ℝ} (h : ListMeas f) (lo hi : ℝ) :
    ListMeas fun a => spacings lo hi (f a) := (h.snoc hi).cons lo |>.npDiff

theorem ListMeas.sum {f : α → List ℝ} (h : ListMeas f) : Measurable fun a => (f a).sum := by
  obtain ⟨m, g, hg, e⟩ := h
  have : ∀ a, (f a).sum = ∑ i ∈ Finset.range m, g i a := fun a => by
    rw [e, sum_list_range]
  simp only [this]
  exact Finset.measurable_sum _ fun i _ => hg i

theorem ListMeas.all {f : α → List ℝ} (h : ListMeas f) {p : ℝ → Prop} (hp : MeasurableSet {x | p x}) :
    MeasurableSet {a | ∀ x ∈ f a, p x} := by
  obtain ⟨m, g, hg, e⟩ := h
  have : {a | ∀ x ∈ f a, p x} = ⋂ i ∈ Finset.range m, (g i) ⁻¹' {x | p x} := by
    ext a
    simp [e]
  rw [this]
  exact Finset.measurableSet_biInter _ fun i _ => hg i hp

end

/-! ### Sorting -/

theorem sort_ofFn {n : ℕ} {v : Fin n → ℝ} {σ : Equiv.Perm (Fin n)} (h : Monotone (v ∘ σ)) :
    sort (List.ofFn v) = List.ofFn (v ∘ σ) := by
  refine List.Perm.eq_of_pairwise (le := (· ≤ ·)) (fun _ _ _ _ => le_antisymm) (sort_pairwise _) ?_ ?_
  · exact List.pairwise_ofFn.2 fun i j hij => h hij.le
  · exact (sort_perm _).trans (σ.ofFn_comp_perm v).symm

/-- Sorting preserves measurability of conditions. -/
theorem measurable_sort {n : ℕ} {S : Set (List ℝ)}
    (hS : MeasurableSet {v : Fin n → ℝ | List.ofFn v ∈ S}) :
    MeasurableSet {v : Fin n → ℝ | sort (List.ofFn v) ∈ S} := by
  have : {v : Fin n → ℝ | sort (List.ofFn v) ∈ S} =
      ⋃ σ : Equiv.Perm (Fin n), {v | Monotone (v ∘ σ)} ∩ {v | List.ofFn (v ∘ σ) ∈ S} := by
    ext v
    simp only [Set.mem_iUnion]
    constructor
    · intro h
      refine ⟨Tuple.sort v, Tuple.monotone_sort v, ?_⟩
      have h' : sort (List.ofFn v) ∈ S := h
      rwa [sort_ofFn (Tuple.monotone_sort v)] at h'
    · rintro ⟨σ, hm, hs⟩
      change sort (List.ofFn v) ∈ S
      rw [sort_ofFn hm]
      exact hs
  rw [this]
  refine MeasurableSet.iUnion fun σ => ?_
  have hσ : Measurable fun v : Fin n → ℝ => v ∘ σ :=
    measurable_pi_lambda _ fun i => measurable_pi_apply (σ i)
  refine MeasurableSet.inter ?_ (hσ hS)
  have : {v : Fin n → ℝ | Monotone (v ∘ σ)} = ⋂ i, ⋂ j, {v | i ≤ j → v (σ i) ≤ v (σ j)} := by
    ext v; simp [Monotone]
  rw [this]
  refine MeasurableSet.iInter fun i => MeasurableSet.iInter fun j => ?_
  by_cases hij : i ≤ j
  · simp only [hij, forall_const]
    exact measurableSet_le (measurable_pi_apply _) (measurable_pi_apply _)
  · simp [hij]

/-- The list of coordinates is measurable. -/
theorem listMeas_ofFn (n : ℕ) : ListMeas fun v : Fin n → ℝ => List.ofFn v := by
  refine ⟨n, fun i v => if h : i < n then v ⟨i, h⟩ else 0, fun i => ?_, fun v => ?_⟩
  · by_cases h : i < n
    · simpa [h] using measurable_pi_apply _
    · simp [h]
  · refine List.ext_getElem (by simp) fun i h1 h2 => ?_
    have : i < n := by simpa using h1
    simp [this]

variable {Ω Ω' : Type} [MeasurableSpace Ω] [MeasurableSpace Ω'] {P : Measure Ω} {Q : Measure Ω'}
  {F G : ℝ → ℝ} {n : ℕ} {X : Fin n → Ω → ℝ} {Y : Fin n → Ω' → ℝ}

theorem _root_.Pysatl.Spec.ContinuousSample.mono (h : ContinuousSample P F X) (hn : 0 < n) : Monotone F := by
  have := h.probability
  intro x y hxy
  rw [← h.law ⟨0, hn⟩ x, ← h.law ⟨0, hn⟩ y]
  exact measureReal_mono fun ω hω => le_trans hω hxy

theorem _root_.Pysatl.Spec.ContinuousSample.sorted (h : ContinuousSample P F X) (ω : Ω) :
    (sort (observed X ω)).map F = sort (List.ofFn fun i => F (X i ω)) := by
  rcases Nat.eq_zero_or_pos n with rfl | hn
  · simp [observed]
    rfl
  refine List.Perm.eq_of_pairwise (le := (· ≤ ·)) (fun _ _ _ _ => le_antisymm)
    (map_sorted (h.mono hn) _) (sort_pairwise _) ?_
  refine ((sort_perm _).map F).trans ?_
  rw [observed, List.map_ofFn]
  exact (sort_perm _).symm

/-- The probability of a condition on the transformed sorted sample. -/
theorem _root_.Pysatl.Spec.ContinuousSample.prob (h : ContinuousSample P F X) {S : Set (List ℝ)}
    (hS : MeasurableSet {v : Fin n → ℝ | List.ofFn v ∈ S}) :
    P {ω | (sort (observed X ω)).map F ∈ S} =
      (Measure.pi fun _ => unitLaw) {v : Fin n → ℝ | sort (List.ofFn v) ∈ S} := by
  rw [← h.joint, Measure.map_apply _ (measurable_sort hS)]
  · congr 1
    ext ω
    change _ ∈ S ↔ _ ∈ S
    rw [h.sorted]
  · exact measurable_pi_lambda _ fun i => h.continuous.measurable.comp (h.measurable i)

/-! ### The statistics -/

/-- The statistics that are functions of the transformed sorted sample. -/
inductive EdfStat where
  | ks (t : AlternativeType) | cvm | ad | kuiper | watson | minToshiyuki | greenwood | moran

/-- Their values for the hypothesised distribution function `F`. -/
noncomputable def EdfStat.value (F : ℝ → ℝ) (rvs : List ℝ) : EdfStat → Except PyErr ℝ
  | .ks t => ksOf t F rvs
  | .cvm => .ok (cvmOf F rvs)
  | .ad => .ok (adOf (fun x => Real.log (F x)) (fun x => Real.log (1 - F x)) rvs)
  | .kuiper => kuiperOf F rvs
  | .watson => .ok (watsonBeta ((sort rvs).map F))
  | .minToshiyuki => .ok (Edf.minToshiyuki ((sort rvs).map F))
  | .greenwood => greenwoodGamma ((sort rvs).map F)
  | .moran => moranGamma ((sort rvs).map F)

/-- The values as functions of the transformed sorted sample. -/
noncomputable def EdfStat.ofVals (vals : List ℝ) : EdfStat → Except PyErr ℝ
  | .ks t => Edf.ks t vals
  | .cvm => .ok (Edf.cvm vals)
  | .ad => .ok (Edf.ad (vals.map Real.log) (vals.map fun v => Real.log (1 - v)))
  | .kuiper => Edf.kuiper vals
  | .watson => .ok (watsonBeta vals)
  | .minToshiyuki => .ok (Edf.minToshiyuki vals)
  | .greenwood => greenwoodGamma vals
  | .moran => moranGamma vals

theorem EdfStat.value_eq (F : ℝ → ℝ) (rvs : List ℝ) (s : EdfStat) :
    s.value F rvs = s.ofVals ((sort rvs).map F) := by
  cases s <;> simp only [EdfStat.value, EdfStat.ofVals, ksOf, cvmOf, kuiperOf, adOf, List.map_map] <;> rfl

/-- A value that depends measurably on a parameter. -/
def OutcomeMeas {α : Type} [MeasurableSpace α] (f : α → Except PyErr ℝ) : Prop :=
  ∀ c, MeasurableSet {a | ∃ d ≤ c, f a = .ok d}

section
variable {α : Type} [MeasurableSpace α]

theorem outcomeMeas_ok {f : α → ℝ} (h : Measurable f) : OutcomeMeas fun a => .ok (f a) := fun c => by
  have : {a | ∃ d ≤ c, (Except.ok (f a) : Except PyErr ℝ) = .ok d} = {a | f a ≤ c} := by
    ext a; simp
  rw [this]
  exact measurableSet_le h measurable_const

theorem outcomeMeas_error {e : PyErr} : OutcomeMeas fun _ : α => .error e := fun c => by simp

theorem outcomeMeas_ite {p : α → Prop} [DecidablePred p] {f g : α → Except PyErr ℝ}
    (hp : MeasurableSet {a | p a}) (hf : OutcomeMeas f) (hg : OutcomeMeas g) :
    OutcomeMeas fun a => if p a then f a else g a := fun c => by
  have : {a | ∃ d ≤ c, (if p a then f a else g a) = .ok d} =
      ({a | p a} ∩ {a | ∃ d ≤ c, f a = .ok d}) ∪ ({a | p a}ᶜ ∩ {a | ∃ d ≤ c, g a = .ok d}) := by
    ext a
    by_cases h : p a <;> simp [h]
  rw [this]
  exact (hp.inter (hf c)).union (hp.compl.inter (hg c))

theorem measurable_mean {f : α → List ℝ} (h : ListMeas f) : Measurable fun a => mean (f a) := by
  obtain ⟨m, hm⟩ := h.length
  unfold mean
  simp only [hm]
  exact h.sum.div_const _

theorem measurable_npMax {f : α → List ℝ} (h : ListMeas f) : 
    ∃ (g : α → ℝ), Measurable g ∧ ((∀ a, npMax (f a) = .ok (g a)) ∨ ∀ a, npMax (f a) = .error .valueError) := by
  obtain ⟨m, hm⟩ := h.length
  rcases Nat.eq_zero_or_pos m with rfl | hpos
  · refine ⟨0, measurable_const, .inr fun a => ?_⟩
    rw [List.length_eq_zero_iff.1 (hm a)]; rfl
  · have hne : ∀ a, f a ≠ [] := fun a => List.length_pos_iff.1 (by rw [hm]; exact hpos)
    choose g hg using fun a => npMax_exists (hne a)
    refine ⟨g, measurable_of_Iic fun c => ?_, .inl hg⟩
    have : g ⁻¹' Set.Iic c = {a | ∀ x ∈ f a, x ≤ c} := by
      ext a
      obtain ⟨h1, h2⟩ := npMax_eq_ok.1 (hg a)
      exact ⟨fun hle x hx => (h2 x hx).trans hle, fun hall => hall _ h1⟩
    rw [this]
    exact h.all measurableSet_Iic

theorem ListMeas.plusGaps {f : α → List ℝ} (h : ListMeas f) : ListMeas fun a => plusGaps (f a) := by
  obtain ⟨m, hm⟩ := h.length
  unfold Edf.plusGaps
  simp only [hm]
  exact h.mapIdx fun i => by fun_prop

theorem ListMeas.minusGaps {f : α → List ℝ} (h : ListMeas f) : ListMeas fun a => minusGaps (f a) := by
  obtain ⟨m, hm⟩ := h.length
  unfold Edf.minusGaps
  simp only [hm]
  exact h.mapIdx fun i => by fun_prop

theorem measurable_cvm {f : α → List ℝ} (h : ListMeas f) : Measurable fun a => Edf.cvm (f a) := by
  obtain ⟨m, hm⟩ := h.length
  unfold Edf.cvm
  simp only [hm]
  exact measurable_const.add (h.mapIdx fun i => by fun_prop).sum

theorem mapIdx_zip_add (w : ℕ → ℝ) (l l' : List ℝ) :
    ((l.zip l').mapIdx fun i p => w i * (p.1 + p.2)) =
      (List.zipWith (· + ·) l l').mapIdx fun i x => w i * x :=
  List.ext_getElem (by simp) fun i h1 h2 => by simp

theorem measurable_ad {f g : α → List ℝ} (hf : ListMeas f) (hg : ListMeas g) :
    Measurable fun a => Edf.ad (f a) (g a) := by
  obtain ⟨m, hm⟩ := hf.length
  unfold Edf.ad
  simp only [hm, mapIdx_zip_add (fun i : ℕ => (2 * ((i : ℝ) + 1) - 1) / (m : ℝ))]
  exact measurable_const.sub
    ((hf.zipWith hg.reverse (φ := (· + ·)) (by fun_prop)).mapIdx fun i => by fun_prop).sum

theorem outcomeMeas_edf {f : α → List ℝ} (h : ListMeas f) (s : EdfStat) :
    OutcomeMeas fun a => s.ofVals (f a) := by
  obtain ⟨m, hm⟩ := h.length
  obtain ⟨p, hp, hp'⟩ := measurable_npMax h.plusGaps
  obtain ⟨q, hq, hq'⟩ := measurable_npMax h.minusGaps
  have dp : (∀ a, dPlus (f a) = .ok (p a)) ∨ ∀ a, dPlus (f a) = .error .valueError := hp'
  have dm : (∀ a, dMinus (f a) = .ok (q a)) ∨ ∀ a, dMinus (f a) = .error .valueError := hq'
  cases s with
  | ks t =>
    simp only [EdfStat.ofVals, Edf.ks]
    rcases dm with dm | dm
    · rcases dp with dp | dp
      · simp only [dm, dp, bind, Except.bind, pure, Except.pure]
        cases t
        · simpa using outcomeMeas_ok hp
        · simpa using outcomeMeas_ok hq
        · simpa using outcomeMeas_ok (Measurable.ite (measurableSet_lt hq hp) hp hq)
      · simp only [dm, dp, bind, Except.bind, pure, Except.pure]
        cases t
        · simpa using outcomeMeas_error
        · simpa using outcomeMeas_ok hq
        · simpa using outcomeMeas_error
    · simp only [dm, bind, Except.bind]
      exact outcomeMeas_error
  | cvm => exact outcomeMeas_ok (measurable_cvm h)
  | ad =>
    exact outcomeMeas_ok (measurable_ad (h.map Real.measurable_log)
      (h.map (Real.measurable_log.comp (measurable_const.sub measurable_id))))
  | kuiper =>
    simp only [EdfStat.ofVals, Edf.kuiper]
    rcases dp with dp | dp
    · rcases dm with dm | dm
      · simp only [dm, dp, bind, Except.bind, pure, Except.pure]
        exact outcomeMeas_ok (hp.add hq)
      · simp only [dm, dp, bind, Except.bind]
        exact outcomeMeas_error
    · simp only [dp, bind, Except.bind]
      exact outcomeMeas_error
  | watson =>
    simp only [EdfStat.ofVals, watsonBeta, hm]
    refine outcomeMeas_ok ?_
    have := measurable_mean h
    have := measurable_cvm h
    fun_prop
  | minToshiyuki =>
    simp only [EdfStat.ofVals, Edf.minToshiyuki, hm]
    refine outcomeMeas_ok (Measurable.div_const ?_ _)
    exact ((h.plusGaps.zipWith h.minusGaps (φ := max) (by fun_prop)).zipWith h (by fun_prop)).sum
  | greenwood =>
    simp only [EdfStat.ofVals, greenwoodGamma]
    refine outcomeMeas_ite ?_ outcomeMeas_error (outcomeMeas_ok ((h.spacings 0 1).map (by fun_prop)).sum)
    have := ((h.spacings 0 1).all (p := fun x => 0 ≤ x) measurableSet_Ici).compl
    convert this using 1
    ext a
    simp
  | moran =>
    simp only [EdfStat.ofVals, moranGamma, hm]
    by_cases h0 : m = 0
    · simp only [h0, if_true]; exact outcomeMeas_error
    · simp only [h0, if_false]
      refine outcomeMeas_ite ?_ outcomeMeas_error (outcomeMeas_ok ?_)
      · have := ((h.spacings 0 1).all (p := fun x => 0 < x) measurableSet_Ioi).compl
        convert this using 1
        ext a
        simp
      · exact ((h.spacings 0 1).map (by fun_prop)).sum.neg

end

/-- **C90.** Under the hypothesis the law of a statistic of the transformed sample depends only on the
size of the sample: two samples of one size from continuous distributions, each compared with its own
distribution function, exceed any bound with the same probability. -/
theorem C90_distribution_free (hX : ContinuousSample P F X) (hY : ContinuousSample Q G Y) (s : EdfStat)
    (c : ℝ) :
    P {ω | ∃ d ≤ c, s.value F (observed X ω) = .ok d} =
      Q {ω | ∃ d ≤ c, s.value G (observed Y ω) = .ok d} := by
  have hS : MeasurableSet {v : Fin n → ℝ | List.ofFn v ∈ {l | ∃ d ≤ c, s.ofVals l = .ok d}} :=
    outcomeMeas_edf (listMeas_ofFn n) s c
  have h1 := hX.prob hS
  have h2 := hY.prob hS
  simp only [EdfStat.value_eq]
  exact h1.trans h2.symm

end Pysatl.Props
