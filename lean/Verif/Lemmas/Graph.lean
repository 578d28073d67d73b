import Verif.Model.Graph
import Verif.Spec.Graph
import Mathlib.Data.List.GetD
import Mathlib.Algebra.BigOperators.Fin

/-! # Lemmas about the proximity graph and its adjacency list -/

set_option linter.unusedSectionVars false

namespace Pysatl.Graph

variable {K : Type} [Field K] [LinearOrder K] [IsStrictOrderedRing K]

/-- Positions `a` and `b` are close. -/
def close (rvs : List K) (d : K) (a b : ℕ) : Bool := decide (b ≠ a ∧ |at' rvs a - at' rvs b| < d)

theorem close_comm (rvs : List K) (d : K) (a b : ℕ) : close rvs d a b = close rvs d b a := by
  unfold close
  rw [decide_eq_decide, abs_sub_comm, ne_comm]

/-- The adjacency list of the first `m` positions. -/
def adjUpTo (rvs : List K) (d : K) (m : ℕ) : List (List ℕ) :=
  (List.range m).map (fun a => (List.range m).filter (close rvs d a))

theorem connectRow_prefix (rvs : List K) (d : K) (i j : ℕ) (hj : j ≤ i) :
    (List.range j).foldl
      (fun adj j => if |at' rvs i - at' rvs j| < d then addEdge adj i j else adj)
      (adjUpTo rvs d i ++ [[]]) =
    (List.range i).map (fun a => (List.range i).filter (close rvs d a) ++
      if a < j ∧ close rvs d i a then [i] else []) ++ [(List.range j).filter (close rvs d i)] := by
  induction j with
  | zero => simp [adjUpTo]
  | succ j ih =>
    rw [List.range_succ, List.foldl_append, ih (by omega)]
    have hji : j < i := by omega
    have hne : j ≠ i := by omega
    have hclose : close rvs d i j = true ↔ |at' rvs i - at' rvs j| < d := by
      simp [close, hne]
    simp only [List.foldl_cons, List.foldl_nil]
    split
    · rename_i h
      have hc := hclose.2 h
      unfold addEdge
      apply List.ext_getElem
      · simp
      · intro k h1 h2
        simp only [List.length_modify, List.length_append, List.length_map, List.length_range,
          List.length_cons, List.length_nil] at h1 h2
        rw [List.getElem_modify, List.getElem_modify]
        by_cases hki : k = i
        · subst hki
          rw [if_neg hne, if_pos rfl, List.getElem_append_right (by simp),
            List.getElem_append_right (by simp)]
          simp [hc]
        · have hk : k < i := by omega
          rw [if_neg (show ¬ i = k from fun h => hki h.symm),
            List.getElem_append_left (by simpa using hk),
            List.getElem_append_left (by simpa using hk)]
          by_cases hkj : j = k
          · subst hkj
            simp [hc]
          · have : (k ≤ j) ↔ (k < j) := by omega
            simp [hkj, Nat.lt_succ_iff, this]
    · rename_i h
      have hc : close rvs d i j = false := by
        rw [Bool.eq_false_iff]; exact fun h' => h (hclose.1 h')
      congr 1
      · apply List.map_congr_left
        intro a _
        by_cases ha : a = j
        · subst ha; simp [hc]
        · have : (a < j + 1) ↔ (a < j) := by omega
          simp [this]
      · simp [hc]

theorem connectRow_eq (rvs : List K) (d : K) (i : ℕ) :
    connectRow rvs d i (adjUpTo rvs d i ++ [[]]) = adjUpTo rvs d (i + 1) := by
  unfold connectRow
  rw [connectRow_prefix rvs d i i le_rfl]
  unfold adjUpTo
  rw [List.range_succ, List.map_append]
  congr 1
  · apply List.map_congr_left
    intro a ha
    have ha' : a < i := by simpa using ha
    rw [List.filter_append, close_comm rvs d i a]
    simp [ha', List.filter_cons]
  · have : close rvs d i i = false := by simp [close]
    simp [this, List.filter_cons]

theorem foldl_connect (rvs : List K) (d : K) (m : ℕ) :
    (List.range m).foldl (fun adj i => connectRow rvs d i (adj ++ [[]])) [] = adjUpTo rvs d m := by
  induction m with
  | zero => simp [adjUpTo]
  | succ m ih =>
    rw [List.range_succ, List.foldl_append, ih, List.foldl_cons, List.foldl_nil, connectRow_eq]

/-- The adjacency list: for each position the close ones, in increasing order. -/
theorem makeAdjacencyList_eq (rvs : List K) (d : K) :
    makeAdjacencyList rvs d = adjUpTo rvs d rvs.length := foldl_connect rvs d rvs.length

theorem at'_eq (rvs : List K) (i : ℕ) (h : i < rvs.length) : at' rvs i = rvs[i] := by
  unfold at'
  rw [List.getD_eq_getElem _ _ h]

theorem close_iff (rvs : List K) (d : K) (i j : Fin rvs.length) :
    close rvs d i j = true ↔ (proximity rvs d).Adj i j := by
  unfold close proximity
  simp only [decide_eq_true_eq, at'_eq _ _ i.2, at'_eq _ _ j.2]
  rw [ne_comm, Fin.val_ne_iff]
  rfl

theorem length_makeAdjacencyList (rvs : List K) (d : K) :
    (makeAdjacencyList rvs d).length = rvs.length := by
  simp [makeAdjacencyList_eq, adjUpTo]

theorem getElem_makeAdjacencyList (rvs : List K) (d : K) (i : ℕ)
    (h : i < (makeAdjacencyList rvs d).length) :
    (makeAdjacencyList rvs d)[i] = (List.range rvs.length).filter (close rvs d i) := by
  simp [makeAdjacencyList_eq, adjUpTo]

theorem length_filter_range (n : ℕ) (p : ℕ → Bool) :
    ((List.range n).filter p).length = (Finset.univ.filter (fun i : Fin n => p i = true)).card := by
  rw [← List.countP_eq_length_filter]
  have h : List.range n = (List.finRange n).map Fin.val := by simp
  rw [h, List.countP_map]
  rw [List.countP_eq_length_filter]
  show _ = Multiset.card (Multiset.filter (fun i : Fin n => p i = true)
    ((List.finRange n : List (Fin n)) : Multiset (Fin n)))
  rw [Multiset.filter_coe, Multiset.coe_card]
  congr 2
  funext i
  simp

theorem degree_eq (rvs : List K) (d : K) (i : Fin rvs.length) :
    ((List.range rvs.length).filter (close rvs d i)).length = (proximity rvs d).degree i := by
  rw [length_filter_range]
  unfold SimpleGraph.degree
  congr 1
  ext j
  rw [Finset.mem_filter, SimpleGraph.mem_neighborFinset, close_iff]
  simp

theorem degrees_eq (rvs : List K) (d : K) :
    (makeAdjacencyList rvs d).map List.length =
      (List.finRange rvs.length).map (fun i => (proximity rvs d).degree i) := by
  rw [makeAdjacencyList_eq, adjUpTo, List.map_map]
  have h : List.range rvs.length = (List.finRange rvs.length).map Fin.val := by simp
  conv_lhs => rw [h]
  rw [List.map_map]
  apply List.map_congr_left
  intro i _
  simp only [Function.comp]
  rw [← h]
  exact degree_eq rvs d i

theorem sum_degrees (rvs : List K) (d : K) :
    ((makeAdjacencyList rvs d).map List.length).sum = 2 * (proximity rvs d).edgeFinset.card := by
  rw [degrees_eq, ← SimpleGraph.sum_degrees_eq_twice_card_edges]
  exact (Fin.sum_univ_def _).symm

end Pysatl.Graph
