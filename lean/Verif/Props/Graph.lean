import Verif.Lemmas.GraphStat
import Verif.Lemmas.Decision

/-!
# Graph statistics (C48-C54, C76, C77)

`proximity`, `IsThreshold` and `topCluster` are in `Verif/Spec/Graph.lean`.
-/

set_option linter.unusedSectionVars false

namespace Pysatl.Props

open Pysatl.Graph Pysatl.Decision

variable {K : Type} [Field K] [LinearOrder K] [IsStrictOrderedRing K]

/-- C48: the adjacency list has one row per observation; row `i` contains `j` once if `i` and `j`
are different observations that differ by less than the threshold, and not at all otherwise; it
contains nothing but observations. -/
theorem C48_threshold_graph (rvs : List K) (d : K) :
    ∃ hlen : (makeAdjacencyList rvs d).length = rvs.length,
      (∀ i j : Fin rvs.length, ((makeAdjacencyList rvs d)[i]'(by rw [hlen]; exact i.2)).count (j : ℕ) =
        if i ≠ j ∧ |rvs[i] - rvs[j]| < d then 1 else 0) ∧
      (∀ i : Fin rvs.length, ∀ v ∈ (makeAdjacencyList rvs d)[i]'(by rw [hlen]; exact i.2),
        v < rvs.length) := by
  refine ⟨length_makeAdjacencyList rvs d, ?_, ?_⟩
  · intro i j
    simp only [Fin.getElem_fin]
    rw [getElem_makeAdjacencyList]
    have hnd : ((List.range rvs.length).filter (close rvs d i)).Nodup :=
      List.nodup_range.filter _
    rw [hnd.count]
    have : (j : ℕ) ∈ (List.range rvs.length).filter (close rvs d i) ↔
        (i ≠ j ∧ |rvs[i] - rvs[j]| < d) := by
      rw [List.mem_filter, close_iff]
      simp [proximity]
    by_cases h : (i ≠ j ∧ |rvs[i] - rvs[j]| < d)
    · rw [if_pos (this.2 h)]
      exact (if_pos h).symm
    · rw [if_neg (fun h' => h (this.1 h'))]
      exact (if_neg h).symm
  · intro i v hv
    simp only [Fin.getElem_fin] at hv
    rw [getElem_makeAdjacencyList, List.mem_filter] at hv
    exact List.mem_range.1 hv.1

example : makeAdjacencyList [(0 : ℚ), 3, 1, 3] 2 = [[2], [3], [0], [1]] := by decide +kernel

/-- C49: the edge-number statistic, for every threshold rule. -/
theorem C49_edges (r : Rule) (rvs : List K) (hne : rvs ≠ []) :
    ∃ d, IsThreshold r rvs d ∧
      execute (distOf r) edgesNumber rvs = .ok (proximity rvs d).edgeFinset.card := by
  obtain ⟨d, hd⟩ := exists_isThreshold r hne
  refine ⟨d, hd, ?_⟩
  simp [execute, distOf_of_isThreshold hd, bind, Except.bind, edges_eq]

example : execute (distOf .range) edgesNumber [(0 : ℚ), 10, 1/2, 19/2, 20] = .ok 2 := by
  decide +kernel

/-- C50: the maximum-degree and average-degree statistics, for every threshold rule. -/
theorem C50_degrees (r : Rule) (rvs : List K) (hne : rvs ≠ []) :
    ∃ d, IsThreshold r rvs d ∧
      execute (distOf r) maxDegree rvs = .ok (proximity rvs d).maxDegree ∧
      execute (distOf r) averageDegree rvs =
        .ok (2 * ((proximity rvs d).edgeFinset.card : K) / rvs.length) := by
  obtain ⟨d, hd⟩ := exists_isThreshold r hne
  refine ⟨d, hd, ?_, ?_⟩
  · simp [execute, distOf_of_isThreshold hd, bind, Except.bind, maxDegree_eq _ _ hne]
  · simp [execute, distOf_of_isThreshold hd, bind, Except.bind, averageDegree_eq]

example : execute (distOf .range) maxDegree [(0 : ℚ), 10, 1/2, 19/2, 9, 20] = .ok 2 ∧
    execute (distOf .range) averageDegree [(0 : ℚ), 10, 1/2, 19/2, 9, 20] = .ok (4/3 : ℚ) := by
  decide +kernel

/-- C51: the depth-first search ends and the statistic is the number of connected components. -/
theorem C51_components (r : Rule) (rvs : List K) (hne : rvs ≠ []) :
    ∃ d, IsThreshold r rvs d ∧
      execute (distOf r) connectedComponents rvs =
        .ok (Nat.card (proximity rvs d).ConnectedComponent) := by
  obtain ⟨d, hd⟩ := exists_isThreshold r hne
  refine ⟨d, hd, ?_⟩
  simp [execute, distOf_of_isThreshold hd, bind, Except.bind, components_eq]

/-- C51: more generally, for any graph on `n` vertices stored as an adjacency list (row `i`
lists neighbours of `i`), the search counts its components. -/
theorem C51_components_any {n : ℕ} (G : SimpleGraph (Fin n)) (rows : List (List ℕ))
    (hlen : rows.length = n) (hadj : ∀ i j : Fin n, (j : ℕ) ∈ rows[i] ↔ G.Adj i j)
    (hlt : ∀ row ∈ rows, ∀ v ∈ row, v < n) :
    connectedComponents rows = .ok (Nat.card G.ConnectedComponent) := by
  apply connectedComponents_eq
  refine ⟨hlen, ?_, ?_⟩
  · intro i j
    rw [← hadj i j]
    exact ⟨fun ⟨_, h⟩ => h, fun h => ⟨by rw [hlen]; exact i.2, h⟩⟩
  · rintro a b ⟨h, hm⟩
    exact hlt _ (List.getElem_mem h) b hm

/-- A graph with an edge 0-2 and an isolated vertex 1 meets the hypotheses. -/
example : ∃ G : SimpleGraph (Fin 3), (∀ i j : Fin 3, (j : ℕ) ∈ [[2], [], [0]][i] ↔ G.Adj i j) ∧
    connectedComponents [[2], [], [0]] = .ok (Nat.card G.ConnectedComponent) ∧
    connectedComponents [[2], [], [0]] = .ok 2 := by
  have hadj : ∀ i j : Fin 3, (j : ℕ) ∈ [[2], [], [0]][i] ↔
      (SimpleGraph.fromEdgeSet {s((0 : Fin 3), 2)}).Adj i j := by
    intro i j
    rw [SimpleGraph.fromEdgeSet_adj]
    revert i j
    simp only [Set.mem_singleton_iff]
    decide
  refine ⟨_, hadj, C51_components_any _ _ rfl hadj (by decide), ?_⟩
  simp [connectedComponents, componentStep, dfs, List.range_succ, bind, Except.bind, pure, Except.pure]

/-- C52 (partial): with a positive threshold the clique statistic is the clique number, except
that it is one too large when the observations within the threshold of the largest one already
form a largest clique.  Missing: the claim itself, which is false (`C52_refuted`). -/
theorem C52_clique_partial (r : Rule) (rvs : List K) (d : K) (hd : IsThreshold r rvs d)
    (hpos : 0 < d) :
    cliqueNumber (distOf r) rvs = .ok (if topCluster rvs d = (proximity rvs d).cliqueNum
      then (proximity rvs d).cliqueNum + 1 else (proximity rvs d).cliqueNum) := by
  simp only [cliqueNumber, distOf_of_isThreshold hd, bind, Except.bind,
    cliqueNumber_loop rvs hpos hd.ne_nil, pure, Except.pure]
  have := topCluster_le rvs d
  congr 1
  split <;> omega

/-- C52: so with a positive threshold it is never below the clique number and at most one above. -/
theorem C52_within_one_partial (r : Rule) (rvs : List K) (d : K) (hd : IsThreshold r rvs d)
    (hpos : 0 < d) :
    ∃ c : ℤ, cliqueNumber (distOf r) rvs = .ok c ∧ ((proximity rvs d).cliqueNum : ℤ) ≤ c ∧
      c ≤ (proximity rvs d).cliqueNum + 1 := by
  refine ⟨_, C52_clique_partial r rvs d hd hpos, ?_, ?_⟩ <;> split <;> omega

/-- C52: the statistic of a constant sample is 0 although the clique number of a graph with
vertices is at least 1. -/
theorem C52_constant (n : ℕ) (c : K) :
    cliqueNumber (distOf .range) (List.replicate (n + 1) c) = .ok 0 := by
  have h : IsThreshold .range (List.replicate (n + 1) c) 0 :=
    ⟨c, by simp, c, by simp, fun x hx => by simp [List.eq_of_mem_replicate hx], by simp⟩
  simp only [cliqueNumber, distOf_of_isThreshold h, bind, Except.bind]
  rw [cliqueLoop_const _ c (fun x hx => List.eq_of_mem_replicate hx)]
  rfl

theorem two_points_dist : ∀ a b : Fin [(0 : ℚ), 1].length, a ≠ b →
    |[(0 : ℚ), 1][a] - [(0 : ℚ), 1][b]| = 1 := by decide +kernel

theorem cliqueNum_two_points (d : ℚ) (hd : d ≤ 1) : (proximity [(0 : ℚ), 1] d).cliqueNum = 1 := by
  apply le_antisymm
  · obtain ⟨S, hS⟩ := (proximity [(0 : ℚ), 1] d).exists_isNClique_cliqueNum
    rw [← hS.card_eq]
    apply Finset.card_le_one.2
    intro a ha b hb
    by_contra hab
    have h := (hS.isClique ha hb hab).2
    have := two_points_dist a b hab
    rw [this] at h
    linarith
  · have := SimpleGraph.IsClique.card_le_cliqueNum (G := proximity [(0 : ℚ), 1] d)
      (t := {0}) (tc := by simp)
    simpa using this

/-- C52 is false: for the sample `[0, 1]` the statistic is 2 but the largest clique of the
proximity graph has size 1. -/
theorem C52_refuted : ∃ (rvs : List ℚ) (d : ℚ), IsThreshold .range rvs d ∧
    cliqueNumber (distOf .range) rvs = .ok 2 ∧ (proximity rvs d).cliqueNum = 1 := by
  refine ⟨[0, 1], 1 / 10, ⟨1, by simp, 0, by simp, by simp, by norm_num⟩, ?_,
    cliqueNum_two_points _ (by norm_num)⟩
  with_unfolding_all decide +kernel

example : IsThreshold .range [(0 : ℚ), 1/20, 1] (1 / 10) :=
  ⟨1, by simp, 0, by simp, by norm_num, by norm_num⟩

/-- C53: the independence statistic of a list is the independence number, for every rule. -/
theorem C53_independence (r : Rule) (rvs : List K) (hne : rvs ≠ []) :
    ∃ d, IsThreshold r rvs d ∧
      independenceNumber (distOf r) rvs = .ok (proximity rvs d).indepNum := by
  obtain ⟨d, hd⟩ := exists_isThreshold r hne
  exact ⟨d, hd, independence_eq _ hne (distOf_of_isThreshold hd)⟩

example : independenceNumber (distOf .range) [(0 : ℚ), 10, 1/2, 9, 20] = .ok 3 := by
  with_unfolding_all decide +kernel

/-- C54: none of the six statistics of any family depends on the order of the sample. -/
theorem C54_permutation (r : Rule) (xs ys : List K) (h : xs.Perm ys) (k : Kind) :
    statistic r ys k = statistic r xs k := by
  rcases eq_or_ne xs [] with rfl | hne
  · rw [h.symm.eq_nil]
  · obtain ⟨d, hd⟩ := exists_isThreshold r hne
    refine (statistic_similar r hd (hd.perm h) (Similar.of_perm h d) k ?_).symm
    rintro -
    rw [sort_eq_of_perm h]

/-- C54: the gamma family's graph statistics are those of the transformed sample, whatever its
order (`cdf` is the fitted distribution function). -/
theorem C54_gamma (cdf : K → K) (k : Kind) (rvs : List K) (hne : rvs ≠ []) :
    executeGamma cdf (fun l => statistic .range l k) rvs = statistic .range (rvs.map cdf) k := by
  unfold executeGamma
  rw [if_neg hne]
  exact C54_permutation .range _ _ (((sort_perm rvs).map cdf).symm) k

/-- C54 (partial): shifting the sample changes none of the statistics with the range rule or the
normality rule.  Missing: the exponentiality rule, for which it is false
(`C54_refuted_exponential`). -/
theorem C54_shift_partial (r : Rule) (hr : r ≠ .overMean) (xs : List K) (c : K) (k : Kind) :
    statistic r (xs.map (· + c)) k = statistic r xs k := by
  apply statistic_map r hr _ (add_left_injective c)
  intro d hd
  refine ⟨d, ?_, fun x y => by rw [add_sub_add_right_eq_sub]⟩
  have hne := hd.ne_nil
  obtain ⟨hi, hhi, lo, hlo, hb, hd⟩ := hd
  refine ⟨hi + c, List.mem_map.2 ⟨hi, hhi, rfl⟩, lo + c, List.mem_map.2 ⟨lo, hlo, rfl⟩, ?_, ?_⟩
  · intro x hx
    obtain ⟨y, hy, rfl⟩ := List.mem_map.1 hx
    exact ⟨by simpa using (hb y hy).1, by simpa using (hb y hy).2⟩
  · have hn : (xs.length : K) ≠ 0 := by
      have := List.length_pos_iff.2 hne
      exact_mod_cast this.ne'
    have hsum : (xs.map (· + c)).sum / (xs.length : K) = xs.sum / xs.length + c := by
      have : (xs.map (· + c)).sum = xs.sum + xs.length * c := by
        clear hd hb hhi hlo hne hn
        induction xs with
        | nil => simp
        | cons a t ih => simp only [List.map_cons, List.sum_cons, ih, List.length_cons]; push_cast; ring
      rw [this, add_div, mul_div_cancel_left₀ _ hn]
    cases r with
    | range => simpa using hd
    | overMean => exact absurd rfl hr
    | overVariance =>
      simp only [List.length_map, hsum, List.map_map, Function.comp_def, add_sub_add_right_eq_sub]
      exact hd

/-- C54 (partial): multiplying the sample by a positive constant changes none of the statistics
with the range rule.  Missing: the exponentiality and normality rules, for which it is false. -/
theorem C54_scale_partial (xs : List K) (c : K) (hc : 0 < c) (k : Kind) :
    statistic .range (xs.map (c * ·)) k = statistic .range xs k := by
  apply statistic_map .range (by simp) _ (mul_right_injective₀ hc.ne')
  intro d hd
  refine ⟨c * d, ?_, fun x y => by rw [← mul_sub]; exact mul_lt_mul_iff_right₀ hc⟩
  obtain ⟨hi, hhi, lo, hlo, hb, hd⟩ := hd
  refine ⟨c * hi, List.mem_map.2 ⟨hi, hhi, rfl⟩, c * lo, List.mem_map.2 ⟨lo, hlo, rfl⟩, ?_, ?_⟩
  · intro x hx
    obtain ⟨y, hy, rfl⟩ := List.mem_map.1 hx
    exact ⟨mul_le_mul_of_nonneg_left (hb y hy).1 hc.le, mul_le_mul_of_nonneg_left (hb y hy).2 hc.le⟩
  · simp only at hd ⊢
    rw [hd]
    ring

/-- C54 is false for the exponentiality family: doubling or shifting a positive sample changes the
edge-number statistic. -/
theorem C54_refuted_exponential :
    statistic .overMean [(1 : ℚ), 2, 20] .edges = .ok 0 ∧
    statistic .overMean ([(1 : ℚ), 2, 20].map ((1/10 : ℚ) * ·)) .edges = .ok 1 ∧
    statistic .overMean ([(1 : ℚ), 2, 20].map (· + (-15/2 : ℚ))) .edges = .ok 1 := by
  decide +kernel

/-- C54 is false for the normality family: rescaling a sample changes the edge-number
statistic. -/
theorem C54_refuted_normality :
    statistic .overVariance [(1 : ℚ), 2, 20] .edges = .ok 0 ∧
    statistic .overVariance ([(1 : ℚ), 2, 20].map ((1/10 : ℚ) * ·)) .edges = .ok 1 := by
  decide +kernel

/-- C76 (partial): every graph statistic of a non-empty list of numbers has a value.  Missing:
numpy arrays, for which the independence statistic has none (`C76_refuted`). -/
theorem C76_evaluates_partial (r : Rule) (rvs : List K) (hne : rvs ≠ []) (k : Kind) :
    ∃ v, statistic r rvs k = .ok v := by
  obtain ⟨d, hd⟩ := exists_isThreshold r hne
  have e := distOf_of_isThreshold hd
  cases k with
  | edges => exact ⟨_, by simp only [statistic, execute, e, bind, Except.bind, edges_eq]; rfl⟩
  | maxDegree =>
    exact ⟨_, by simp only [statistic, execute, e, bind, Except.bind, maxDegree_eq _ _ hne]; rfl⟩
  | averageDegree =>
    exact ⟨_, by simp only [statistic, execute, e, bind, Except.bind, averageDegree_eq]; rfl⟩
  | components =>
    exact ⟨_, by simp only [statistic, execute, e, bind, Except.bind, components_eq]; rfl⟩
  | clique => exact ⟨_, by simp only [statistic, cliqueNumber, e, bind, Except.bind]; rfl⟩
  | independence => exact ⟨_, by simp only [statistic]; rw [independence_eq _ hne e]; rfl⟩

/-- C76 is false: on every numpy array of at least two observations the independence statistic
raises `ValueError`, whatever the family. -/
theorem C76_refuted (r : Rule) (rvs : List K) (h : 2 ≤ rvs.length) :
    independenceNumberOf (distOf r) (.ndarray rvs) = .error .valueError := by
  match rvs, h with
  | a :: b :: t, _ => rfl

/-- C76: on a numpy array with the single observation 0 it is 0, although every one-point sample
has independence number 1. -/
theorem C76_refuted_zero (r : Rule) :
    independenceNumberOf (distOf r) (.ndarray [(0 : ℚ)]) = .ok 0 := by
  cases r <;> decide +kernel

/-- C77 (partial): the edge, degree and component statistics leave the caller's sample as it was,
whether they succeed or raise. -/
theorem C77_unchanged_partial {α : Type} (r : Rule) (stat : List (List ℕ) → Except PyErr α)
    (rvs : List K) :
    Py.exec (executePy (distOf r) stat) rvs = (execute (distOf r) stat rvs, rvs) := by
  unfold executePy execute
  rw [exec_bind, exec_get]
  simp only [exec_bind, exec_lift]
  cases distOf r rvs <;> rfl

/-- C77 is false for the clique and independence statistics: whenever they return a value the
caller's list has been sorted, so a list that was not sorted has been changed. -/
theorem C77_refuted (r : Rule) (rvs : List K) (hne : rvs ≠ []) (huns : ¬ rvs.Pairwise (· ≤ ·)) :
    (Py.exec (cliqueNumberPy (distOf r)) rvs).2 ≠ rvs ∧
    (Py.exec (independenceNumberPy (distOf r)) rvs).2 ≠ rvs ∧
    (Py.exec (cliqueNumberPy (distOf r)) rvs).1 = cliqueNumber (distOf r) rvs ∧
    (Py.exec (independenceNumberPy (distOf r)) rvs).1 = independenceNumber (distOf r) rvs := by
  obtain ⟨d, hd⟩ := exists_isThreshold r hne
  have e := distOf_of_isThreshold hd
  have hsort : sort rvs ≠ rvs := fun h => huns (h ▸ sort_pairwise rvs)
  have hc : Py.exec (cliqueNumberPy (distOf r)) rvs =
      (.ok (cliqueLoop (sort rvs) d 0 0 0), sort rvs) := by
    unfold cliqueNumberPy
    simp only [exec_bind, exec_get, exec_set, exec_lift, e, exec_pure]
  obtain ⟨x, rest, hxs⟩ : ∃ x rest, sort rvs = x :: rest := by
    cases hs : sort rvs with
    | nil =>
      have := (sort_perm rvs)
      rw [hs] at this
      exact absurd this.symm.eq_nil hne
    | cons x rest => exact ⟨x, rest, rfl⟩
  have hi : Py.exec (independenceNumberPy (distOf r)) rvs =
      (.ok (1 + independenceLoop d x rest), sort rvs) := by
    unfold independenceNumberPy
    simp only [exec_bind, exec_get, if_neg hne, exec_set, exec_lift, e, hxs, exec_pure]
  rw [hc, hi]
  refine ⟨hsort, hsort, ?_, ?_⟩
  · simp [cliqueNumber, e, bind, Except.bind, pure, Except.pure]
  · simp [independenceNumber, hne, e, hxs, bind, Except.bind, pure, Except.pure]

example : ¬ [(1 : ℚ), 0].Pairwise (· ≤ ·) := by decide +kernel

end Pysatl.Props
