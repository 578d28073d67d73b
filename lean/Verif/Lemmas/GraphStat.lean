import Verif.Lemmas.GraphSearch

/-! # The graph statistics in terms of the proximity graph -/

set_option linter.unusedSectionVars false

namespace Pysatl.Graph

variable {K : Type} [Field K] [LinearOrder K] [IsStrictOrderedRing K]

theorem computeDist_ok {rvs : List K} {hi lo : K} (hhi : hi ∈ rvs) (hlo : lo ∈ rvs)
    (h : ∀ x ∈ rvs, lo ≤ x ∧ x ≤ hi) : computeDist rvs = .ok ((hi - lo) / 10) := by
  have h1 : rvs.max? = some hi := List.max?_eq_some_iff.2 ⟨hhi, fun x hx => (h x hx).2⟩
  have h2 : rvs.min? = some lo := List.min?_eq_some_iff.2 ⟨hlo, fun x hx => (h x hx).1⟩
  simp [computeDist, h1, h2]

theorem distOf_of_isThreshold {r : Rule} {rvs : List K} {d : K} (h : IsThreshold r rvs d) :
    distOf r rvs = .ok d := by
  obtain ⟨hi, hhi, lo, hlo, hb, hd⟩ := h
  have hc := computeDist_ok hhi hlo hb
  cases r with
  | range => simp only at hd; rw [hd]; exact hc
  | overMean =>
    simp only at hd
    simp only [distOf, computeDistExponential, hc, bind, Except.bind, pure, Except.pure, mean]
    rw [hd]
    by_cases hm : rvs.sum / (rvs.length : K) = 0 <;> simp only [hm, ne_eq, not_true, not_false_iff, if_true, if_false]
  | overVariance =>
    simp only at hd
    simp only [distOf, computeDistNormal, hc, bind, Except.bind, pure, Except.pure, variance, mean]
    rw [hd]
    by_cases hm : (rvs.map (fun x => (x - rvs.sum / (rvs.length : K)) ^ 2)).sum / (rvs.length : K) = 0 <;>
      simp only [hm, ne_eq, not_true, not_false_iff, if_true, if_false]

theorem exists_bounds {rvs : List K} (hne : rvs ≠ []) :
    ∃ hi ∈ rvs, ∃ lo ∈ rvs, ∀ x ∈ rvs, lo ≤ x ∧ x ≤ hi := by
  obtain ⟨hi, hhi⟩ := Option.isSome_iff_exists.1 (List.isSome_max?_of_ne_nil hne)
  obtain ⟨lo, hlo⟩ := Option.isSome_iff_exists.1 (List.isSome_min?_of_ne_nil hne)
  rw [List.max?_eq_some_iff] at hhi
  rw [List.min?_eq_some_iff] at hlo
  exact ⟨hi, hhi.1, lo, hlo.1, fun x hx => ⟨hlo.2 x hx, hhi.2 x hx⟩⟩

theorem exists_isThreshold (r : Rule) {rvs : List K} (hne : rvs ≠ []) :
    ∃ d, IsThreshold r rvs d := by
  obtain ⟨hi, hhi, lo, hlo, hb⟩ := exists_bounds hne
  cases r <;> exact ⟨_, hi, hhi, lo, hlo, hb, rfl⟩

theorem IsThreshold.ne_nil {r : Rule} {rvs : List K} {d : K} (h : IsThreshold r rvs d) :
    rvs ≠ [] := by
  obtain ⟨hi, hhi, -⟩ := h
  exact List.ne_nil_of_mem hhi

theorem IsThreshold.unique {r : Rule} {rvs : List K} {d d' : K} (h : IsThreshold r rvs d)
    (h' : IsThreshold r rvs d') : d = d' := by
  have := (distOf_of_isThreshold h).symm.trans (distOf_of_isThreshold h')
  exact Except.ok.inj this

theorem IsThreshold.perm {r : Rule} {xs ys : List K} {d : K} (hp : xs.Perm ys)
    (h : IsThreshold r xs d) : IsThreshold r ys d := by
  obtain ⟨hi, hhi, lo, hlo, hb, hd⟩ := h
  refine ⟨hi, hp.subset hhi, lo, hp.subset hlo, fun x hx => hb x (hp.symm.subset hx), ?_⟩
  have h3 : ∀ m : K, (ys.map (fun x => (x - m) ^ 2)).sum = (xs.map (fun x => (x - m) ^ 2)).sum :=
    fun m => (hp.map _).sum_eq.symm
  simp only [← hp.length_eq, ← hp.sum_eq, h3]
  exact hd

/-! ### Similar samples -/

/-- The samples can be matched so that differences compare alike with the thresholds. -/
def Similar (xs : List K) (d : K) (ys : List K) (d' : K) : Prop :=
  ∃ e : Fin xs.length ≃ Fin ys.length, ∀ i j, ys[e i] - ys[e j] < d' ↔ xs[i] - xs[j] < d

theorem Similar.of_perm {xs ys : List K} (h : xs.Perm ys) (d : K) : Similar xs d ys d := by
  obtain ⟨e, he⟩ := exists_equiv_of_perm h
  exact ⟨e, fun i j => by rw [he, he]⟩

theorem Similar.of_map (xs : List K) (d d' : K) (f : K → K)
    (h : ∀ x y, f x - f y < d' ↔ x - y < d) : Similar xs d (xs.map f) d' := by
  refine ⟨finCongr (by simp), fun i j => ?_⟩
  simp only [Fin.getElem_fin, finCongr_apply, Fin.val_cast, List.getElem_map]
  exact h _ _

theorem Similar.length {xs ys : List K} {d d' : K} (h : Similar xs d ys d') :
    xs.length = ys.length := by
  obtain ⟨e, -⟩ := h
  simpa using Fintype.card_congr e

theorem Similar.iso {xs ys : List K} {d d' : K} (h : Similar xs d ys d') :
    Nonempty (proximity xs d ≃g proximity ys d') := by
  obtain ⟨e, he⟩ := h
  refine ⟨⟨e, ?_⟩⟩
  intro i j
  show (_ ∧ _) ↔ (_ ∧ _)
  rw [e.injective.ne_iff, abs_sub_lt_iff, abs_sub_lt_iff, he i j, he j i]

theorem Similar.topCluster {xs ys : List K} {d d' : K} (h : Similar xs d ys d') :
    topCluster xs d = topCluster ys d' := by
  obtain ⟨e, he⟩ := h
  unfold Graph.topCluster
  apply Finset.card_bij (fun a _ => e a)
  · intro a ha
    rw [Finset.mem_filter] at ha ⊢
    refine ⟨Finset.mem_univ _, fun i => ?_⟩
    obtain ⟨k, rfl⟩ := e.surjective i
    exact (he k a).2 (ha.2 k)
  · intro a _ b _ h
    exact e.injective h
  · intro b hb
    obtain ⟨a, rfl⟩ := e.surjective b
    rw [Finset.mem_filter] at hb
    exact ⟨a, by rw [Finset.mem_filter]; exact ⟨Finset.mem_univ _, fun i => (he i a).1 (hb.2 _)⟩, rfl⟩

/-! ### The statistics -/

theorem edges_eq (rvs : List K) (d : K) :
    edgesNumber (makeAdjacencyList rvs d) = .ok (proximity rvs d).edgeFinset.card := by
  unfold edgesNumber
  rw [sum_degrees, Nat.mul_div_cancel_left _ (by norm_num)]

theorem maxDegree_eq (rvs : List K) (d : K) (hne : rvs ≠ []) :
    maxDegree (makeAdjacencyList rvs d) = .ok (proximity rvs d).maxDegree := by
  have hpos : 0 < rvs.length := List.length_pos_iff.2 hne
  haveI : Nonempty (Fin rvs.length) := ⟨⟨0, hpos⟩⟩
  unfold maxDegree
  rw [degrees_eq]
  have : ((List.finRange rvs.length).map (fun i => (proximity rvs d).degree i)).max? =
      some (proximity rvs d).maxDegree := by
    rw [List.max?_eq_some_iff]
    constructor
    · obtain ⟨v, hv⟩ := (proximity rvs d).exists_maximal_degree_vertex
      rw [hv]
      exact List.mem_map.2 ⟨v, List.mem_finRange v, rfl⟩
    · intro b hb
      obtain ⟨v, -, rfl⟩ := List.mem_map.1 hb
      exact (proximity rvs d).degree_le_maxDegree v
  rw [this]

theorem averageDegree_eq (rvs : List K) (d : K) :
    averageDegree (makeAdjacencyList rvs d) =
      .ok (2 * ((proximity rvs d).edgeFinset.card : K) / rvs.length) := by
  unfold averageDegree
  rw [sum_degrees, length_makeAdjacencyList]
  push_cast
  rfl

theorem components_eq (rvs : List K) (d : K) :
    connectedComponents (makeAdjacencyList rvs d) =
      .ok (Nat.card (proximity rvs d).ConnectedComponent) :=
  connectedComponents_eq (stores_proximity rvs d)

theorem topCluster_le (rvs : List K) (d : K) : topCluster rvs d ≤ (proximity rvs d).cliqueNum := by
  unfold topCluster
  apply SimpleGraph.IsClique.card_le_cliqueNum
  intro a ha b hb hab
  simp only [Finset.coe_filter, Finset.mem_univ, true_and, Set.mem_ofPred_eq] at ha hb
  exact ⟨hab, abs_sub_lt_iff.2 ⟨hb a, ha b⟩⟩

theorem cliqueNumber_loop (rvs : List K) {d : K} (hd : 0 < d) (hne : rvs ≠ []) :
    cliqueLoop (sort rvs) d 0 0 0 =
      max ((proximity rvs d).cliqueNum : ℤ) ((topCluster rvs d : ℤ) + 1) := by
  have hsne : sort rvs ≠ [] := by
    intro h
    have := (sort_perm rvs).length_eq
    rw [h] at this
    exact hne (List.length_eq_zero_iff.1 this.symm)
  rw [cliqueLoop_eq (sort_pairwise rvs) hd hsne]
  have hsim := Similar.of_perm (sort_perm rvs) d
  obtain ⟨iso⟩ := hsim.iso
  rw [cliqueNum_eq iso, ← hsim.topCluster]
  congr 2
  unfold topCluster
  congr 1
  congr 1
  ext j
  simp only [Finset.mem_filter, Finset.mem_univ, true_and]
  have hpos : 0 < (sort rvs).length := List.length_pos_iff.2 hsne
  constructor
  · intro h i
    have := sorted_le (sort_pairwise rvs) i.2 (j := (sort rvs).length - 1) (by omega) (by omega)
    simp only [Fin.getElem_fin] at h ⊢
    linarith
  · intro h
    have := h ⟨(sort rvs).length - 1, by omega⟩
    simp only [Fin.getElem_fin] at this ⊢
    linarith

theorem independence_eq (dist : List K → Except PyErr K) {rvs : List K} {d : K}
    (hne : rvs ≠ []) (hd : dist rvs = .ok d) :
    independenceNumber dist rvs = .ok (proximity rvs d).indepNum := by
  unfold independenceNumber
  rw [if_neg hne, hd]
  simp only [bind, Except.bind]
  have hperm := sort_perm rvs
  have hsorted := sort_pairwise rvs
  cases hs : sort rvs with
  | nil =>
    rw [hs] at hperm
    exact absurd hperm.symm.eq_nil hne
  | cons x rest =>
    rw [hs] at hperm hsorted
    obtain ⟨iso⟩ := (Similar.of_perm hperm d).iso
    rw [← indepNum_eq iso, independenceLoop_eq d x rest hsorted]
    rfl

/-- A sample with zero threshold under the range rules is constant. -/
theorem IsThreshold.pos_or_const {r : Rule} (hr : r ≠ .overMean) {rvs : List K} {d : K}
    (h : IsThreshold r rvs d) : 0 < d ∨ (d = 0 ∧ ∃ c, ∀ x ∈ rvs, x = c) := by
  obtain ⟨hi, hhi, lo, hlo, hb, hd⟩ := h
  have hle : lo ≤ hi := (hb hi hhi).1
  rcases hle.lt_or_eq with hlt | heq
  · left
    have hbase : 0 < (hi - lo) / 10 := by
      apply div_pos <;> linarith
    cases r with
    | range => simp only at hd; rw [hd]; exact hbase
    | overMean => exact absurd rfl hr
    | overVariance =>
      simp only at hd
      rw [hd]
      split
      · exact hbase
      · rename_i hv
        apply div_pos hbase
        apply lt_of_le_of_ne _ (Ne.symm hv)
        apply div_nonneg _ (Nat.cast_nonneg _)
        apply List.sum_nonneg
        intro y hy
        obtain ⟨x, -, rfl⟩ := List.mem_map.1 hy
        exact sq_nonneg _
  · right
    subst heq
    refine ⟨?_, lo, fun x hx => le_antisymm (hb x hx).2 (hb x hx).1⟩
    cases r with
    | range => simp only at hd; rw [hd]; simp
    | overMean => exact absurd rfl hr
    | overVariance => simp only at hd; rw [hd]; simp

theorem cliqueLoop_const (rvs : List K) (c : K) (h : ∀ x ∈ rvs, x = c) :
    cliqueLoop (sort rvs) 0 0 0 0 = 0 := by
  apply cliqueLoop_zero
  intro l hl
  have h1 := h _ ((sort_perm rvs).subset (List.getElem_mem hl))
  have h2 := h _ ((sort_perm rvs).subset (List.getElem_mem (l := sort rvs) (n := 0) (by omega)))
  rw [h1, h2, add_zero]

/-- Samples with isomorphic graphs have the same statistics, except the clique statistic, which is
computed from the numbers. -/
theorem statistic_iso (r : Rule) {xs ys : List K} {d d' : K} (hx : IsThreshold r xs d)
    (hy : IsThreshold r ys d') (hlen : xs.length = ys.length)
    (iso : proximity xs d ≃g proximity ys d') (k : Kind)
    (hk : k = .clique → cliqueLoop (sort xs) d 0 0 0 = cliqueLoop (sort ys) d' 0 0 0) :
    statistic r xs k = statistic r ys k := by
  have ex := distOf_of_isThreshold hx
  have ey := distOf_of_isThreshold hy
  have hedge : (proximity xs d).edgeFinset.card = (proximity ys d').edgeFinset.card := by
    rw [SimpleGraph.edgeFinset_card, SimpleGraph.edgeFinset_card]
    exact Fintype.card_congr iso.mapEdgeSet
  cases k with
  | edges => simp [statistic, execute, ex, ey, bind, Except.bind, edges_eq, hedge]
  | maxDegree =>
    simp only [statistic, execute, ex, ey, bind, Except.bind]
    rw [maxDegree_eq _ _ hx.ne_nil, maxDegree_eq _ _ hy.ne_nil]
    have : (proximity xs d).maxDegree = (proximity ys d').maxDegree := by
      apply le_antisymm
      · apply SimpleGraph.maxDegree_le_of_forall_degree_le
        intro v
        rw [← iso.degree_eq v]
        exact SimpleGraph.degree_le_maxDegree _ _
      · apply SimpleGraph.maxDegree_le_of_forall_degree_le
        intro v
        rw [← iso.symm.degree_eq v]
        exact SimpleGraph.degree_le_maxDegree _ _
    rw [this]
  | averageDegree =>
    simp [statistic, execute, ex, ey, bind, Except.bind, averageDegree_eq, hedge, hlen]
  | components =>
    simp only [statistic, execute, ex, ey, bind, Except.bind, components_eq]
    rw [Nat.card_congr iso.connectedComponentEquiv]
  | clique =>
    simp only [statistic, cliqueNumber, ex, ey, bind, Except.bind, hk rfl]
  | independence =>
    simp only [statistic]
    rw [independence_eq _ hx.ne_nil ex, independence_eq _ hy.ne_nil ey, indepNum_eq iso]

/-- Similar samples have the same statistics, where the clique statistic needs positive
thresholds. -/
theorem statistic_similar (r : Rule) {xs ys : List K} {d d' : K} (hx : IsThreshold r xs d)
    (hy : IsThreshold r ys d') (h : Similar xs d ys d') (k : Kind)
    (hk : k = .clique → cliqueLoop (sort xs) d 0 0 0 = cliqueLoop (sort ys) d' 0 0 0) :
    statistic r xs k = statistic r ys k := by
  obtain ⟨iso⟩ := h.iso
  exact statistic_iso r hx hy h.length iso k hk

theorem sort_eq_of_perm {xs ys : List K} (h : xs.Perm ys) : sort xs = sort ys := by
  apply ((sort_perm xs).trans (h.trans (sort_perm ys).symm)).eq_of_pairwise (le := (· ≤ ·))
  · intro a b _ _ h1 h2; exact le_antisymm h1 h2
  · exact sort_pairwise xs
  · exact sort_pairwise ys

theorem statistic_nil (r : Rule) {ys : List K} (h : ys = []) (k : Kind) :
    statistic r ys k = statistic r [] k := by rw [h]

theorem statistic_map (r : Rule) (hr : r ≠ .overMean) (f : K → K) (hinj : Function.Injective f)
    (xs : List K) (k : Kind)
    (h : ∀ d, IsThreshold r xs d → ∃ d', IsThreshold r (xs.map f) d' ∧
      ∀ x y, f x - f y < d' ↔ x - y < d) :
    statistic r (xs.map f) k = statistic r xs k := by
  rcases eq_or_ne xs [] with rfl | hne
  · rfl
  · obtain ⟨d, hd⟩ := exists_isThreshold r hne
    obtain ⟨d', hd', hsim⟩ := h d hd
    have hs := Similar.of_map xs d d' f hsim
    refine (statistic_similar r hd hd' hs k ?_).symm
    rintro -
    have hpos : 0 < d ↔ 0 < d' := by
      have := hsim 0 0
      simpa using this.symm
    rcases hd.pos_or_const hr with h0 | ⟨h0, c, hc⟩
    · rw [cliqueNumber_loop _ h0 hne, cliqueNumber_loop _ (hpos.1 h0) hd'.ne_nil, hs.topCluster,
        cliqueNum_eq hs.iso.some]
    · subst h0
      rcases hd'.pos_or_const hr with h0' | ⟨h0', c', hc'⟩
      · exact absurd (hpos.2 h0') (lt_irrefl _)
      · subst h0'
        rw [cliqueLoop_const _ c hc, cliqueLoop_const _ c' hc']

end Pysatl.Graph
