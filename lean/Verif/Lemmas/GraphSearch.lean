import Verif.Lemmas.Graph
import Mathlib.Data.Fin.Tuple.Sort
import Mathlib.Data.Set.Card
import Mathlib.Tactic.Linarith

/-! # Depth-first search, cliques and independent sets of the proximity graph -/

set_option linter.unusedSectionVars false

namespace Pysatl.Graph

/-! ### Depth-first search -/

/-- There is an entry `b` in row `a`. -/
def Entry (graph : List (List ℕ)) (a b : ℕ) : Prop := ∃ h : a < graph.length, b ∈ graph[a]

theorem dfs_spec (graph : List (List ℕ))
    (hwf : ∀ a b, Entry graph a b → b < graph.length) (visited stack : List ℕ)
    (hs : ∀ u ∈ stack, u < graph.length) :
    ∃ V, dfs graph visited stack = .ok V ∧ (∀ u ∈ visited, u ∈ V) ∧ (∀ u ∈ stack, u ∈ V) ∧
      (∀ u ∈ V, u ∈ visited ∨ ∃ s ∈ stack, Relation.ReflTransGen (Entry graph) s u) ∧
      ((∀ u ∈ visited, ∀ w, Entry graph u w → w ∈ visited ∨ w ∈ stack) →
        ∀ u ∈ V, ∀ w, Entry graph u w → w ∈ V) := by
  induction visited, stack using dfs.induct (graph := graph) with
  | case1 visited =>
    refine ⟨visited, by rw [dfs], fun u h => h, by simp, fun u h => Or.inl h, ?_⟩
    intro h u hu w hw
    rcases h u hu w hw with h | h
    · exact h
    · simp at h
  | case2 visited v stack hv ih =>
    obtain ⟨V, h1, h2, h3, h4, h5⟩ := ih (fun u hu => hs u (by simp [hu]))
    refine ⟨V, by rw [dfs, if_pos hv]; exact h1, h2, ?_, ?_, ?_⟩
    · intro u hu
      rcases List.mem_cons.1 hu with rfl | hu
      · exact h2 _ hv
      · exact h3 u hu
    · intro u hu
      rcases h4 u hu with h | ⟨s, hs', hr⟩
      · exact Or.inl h
      · exact Or.inr ⟨s, by simp [hs'], hr⟩
    · intro h
      apply h5
      intro u hu w hw
      rcases h u hu w hw with h | h
      · exact Or.inl h
      · rcases List.mem_cons.1 h with rfl | h
        · exact Or.inl hv
        · exact Or.inr h
  | case3 visited v stack hv hlt ih =>
    have hs' : ∀ u ∈ (graph[v].filter (fun u => u ∉ v :: visited)).reverse ++ stack,
        u < graph.length := by
      intro u hu
      rcases List.mem_append.1 hu with hu | hu
      · rw [List.mem_reverse, List.mem_filter] at hu
        exact hwf v u ⟨hlt, hu.1⟩
      · exact hs u (by simp [hu])
    obtain ⟨V, h1, h2, h3, h4, h5⟩ := ih hs'
    refine ⟨V, by rw [dfs, if_neg hv, dif_pos hlt]; exact h1, fun u hu => h2 u (by simp [hu]), ?_, ?_, ?_⟩
    · intro u hu
      rcases List.mem_cons.1 hu with rfl | hu
      · exact h2 _ (by simp)
      · exact h3 u (by simp [hu])
    · intro u hu
      rcases h4 u hu with h | ⟨s, hs', hr⟩
      · rcases List.mem_cons.1 h with rfl | h
        · exact Or.inr ⟨u, by simp, .refl⟩
        · exact Or.inl h
      · rcases List.mem_append.1 hs' with hs' | hs'
        · rw [List.mem_reverse, List.mem_filter] at hs'
          exact Or.inr ⟨v, by simp, .head ⟨hlt, hs'.1⟩ hr⟩
        · exact Or.inr ⟨s, by simp [hs'], hr⟩
    · intro h
      apply h5
      intro u hu w hw
      by_cases hwv : w ∈ v :: visited
      · exact Or.inl hwv
      · right
        rcases List.mem_cons.1 hu with rfl | hu
        · obtain ⟨hl, hm⟩ := hw
          apply List.mem_append_left
          rw [List.mem_reverse, List.mem_filter]
          exact ⟨hm, by simpa using hwv⟩
        · rcases h u hu w hw with h | h
          · exact absurd (List.mem_cons_of_mem _ h) hwv
          · rcases List.mem_cons.1 h with rfl | h
            · simp at hwv
            · exact List.mem_append_right _ h
  | case4 visited v stack hv hlt =>
    exact absurd (hs v (by simp)) hlt

section Components

variable {n : ℕ} (G : SimpleGraph (Fin n)) (graph : List (List ℕ))

/-- The adjacency list stores the graph. -/
structure Stores : Prop where
  length : graph.length = n
  adj : ∀ i j : Fin n, Entry graph i j ↔ G.Adj i j
  lt : ∀ a b, Entry graph a b → b < n

variable {G graph}

theorem Stores.reach (h : Stores G graph) (i : Fin n) (b : ℕ) :
    Relation.ReflTransGen (Entry graph) i b ↔ ∃ j : Fin n, j = b ∧ G.Reachable i j := by
  constructor
  · intro hr
    induction hr with
    | refl => exact ⟨i, rfl, .refl _⟩
    | tail _ hbc ih =>
      rename_i b c _
      obtain ⟨j, rfl, hj⟩ := ih
      have hc := h.lt _ _ hbc
      exact ⟨⟨c, hc⟩, rfl, hj.trans ((h.adj j ⟨c, hc⟩).1 hbc).reachable⟩
  · rintro ⟨j, rfl, ⟨p⟩⟩
    induction p with
    | nil => exact .refl
    | cons hadj _ ih => exact .head ((h.adj _ _).2 hadj) ih

/-- The loop invariant of the component count. -/
structure CompInv (G : SimpleGraph (Fin n)) (k : ℕ) (st : List ℕ × ℕ) : Prop where
  mem : ∀ b, b ∈ st.1 ↔ ∃ u : Fin n, u = b ∧ ∃ i : Fin n, i < k ∧ G.Reachable i u
  count : st.2 = (G.connectedComponentMk '' {i : Fin n | i < k}).ncard

theorem componentStep_spec (h : Stores G graph) (k : ℕ) (hk : k < n) (st : List ℕ × ℕ)
    (hst : CompInv G k st) :
    ∃ st', componentStep graph st k = .ok st' ∧ CompInv G (k + 1) st' := by
  have hset : {i : Fin n | (i : ℕ) < k + 1} = insert ⟨k, hk⟩ {i : Fin n | (i : ℕ) < k} := by
    ext i
    simp only [Set.mem_ofPred_eq, Set.mem_insert_iff, Fin.ext_iff]
    omega
  by_cases hmem : k ∈ st.1
  · refine ⟨st, by simp [componentStep, hmem], ?_, ?_⟩
    · obtain ⟨u, hu, i, hik, hr⟩ := (hst.mem k).1 hmem
      have hu' : u = ⟨k, hk⟩ := Fin.ext hu
      subst hu'
      intro b
      rw [hst.mem]
      constructor
      · rintro ⟨u, rfl, j, hj, hr'⟩
        exact ⟨u, rfl, j, by omega, hr'⟩
      · rintro ⟨u, rfl, j, hj, hr'⟩
        by_cases hjk : (j : ℕ) = k
        · have : j = ⟨k, hk⟩ := Fin.ext hjk
          subst this
          exact ⟨u, rfl, i, hik, hr.trans hr'⟩
        · exact ⟨u, rfl, j, by omega, hr'⟩
    · obtain ⟨u, hu, i, hik, hr⟩ := (hst.mem k).1 hmem
      have hu' : u = ⟨k, hk⟩ := Fin.ext hu
      subst hu'
      rw [hset, Set.image_insert_eq, Set.insert_eq_of_mem, hst.count]
      exact ⟨i, hik, SimpleGraph.ConnectedComponent.eq.2 hr⟩
  · obtain ⟨V, h1, h2, h3, h4, h5⟩ := dfs_spec graph (fun a b hab => by rw [h.length]; exact h.lt a b hab)
      st.1 [k] (by simpa [h.length] using hk)
    have hclosed := h5 (by
      intro u hu w hw
      left
      obtain ⟨u', rfl, i, hik, hr⟩ := (hst.mem _).1 hu
      have hwn := h.lt _ _ hw
      exact (hst.mem w).2 ⟨⟨w, hwn⟩, rfl, i, hik,
        hr.trans ((h.adj u' ⟨w, hwn⟩).1 hw).reachable⟩)
    refine ⟨(V, st.2 + 1), by simp only [componentStep, if_neg hmem, h1]; rfl, ?_, ?_⟩
    · intro b
      constructor
      · intro hb
        rcases h4 b hb with hb | ⟨s, hs, hr⟩
        · obtain ⟨u, hu, j, hj, hr'⟩ := (hst.mem b).1 hb
          exact ⟨u, hu, j, by omega, hr'⟩
        · rw [List.mem_singleton] at hs
          subst hs
          obtain ⟨u, hu, hr'⟩ := (h.reach ⟨s, hk⟩ b).1 hr
          exact ⟨u, hu, ⟨s, hk⟩, by simp, hr'⟩
      · rintro ⟨u, rfl, j, hj, hr'⟩
        by_cases hjk : (j : ℕ) = k
        · have : j = ⟨k, hk⟩ := Fin.ext hjk
          subst this
          have hreach := (h.reach ⟨k, hk⟩ u).2 ⟨u, rfl, hr'⟩
          have : ∀ b, Relation.ReflTransGen (Entry graph) k b → b ∈ V := by
            intro b hb
            induction hb with
            | refl => exact h3 k (by simp)
            | tail _ hbc ih => exact hclosed _ ih _ hbc
          exact this _ hreach
        · exact h2 _ ((hst.mem _).2 ⟨u, rfl, j, by omega, hr'⟩)
    · simp only [hst.count]
      rw [hset, Set.image_insert_eq, Set.ncard_insert_of_notMem]
      rintro ⟨i, hik, he⟩
      apply hmem
      exact (hst.mem k).2 ⟨⟨k, hk⟩, rfl, i, hik, SimpleGraph.ConnectedComponent.eq.1 he⟩

theorem components_fold (h : Stores G graph) (k : ℕ) (hk : k ≤ n) :
    ∃ st, (List.range k).foldlM (componentStep graph) ([], 0) = .ok st ∧ CompInv G k st := by
  induction k with
  | zero =>
    refine ⟨([], 0), rfl, by simp, by simp⟩
  | succ k ih =>
    obtain ⟨st, h1, h2⟩ := ih (by omega)
    obtain ⟨st', h3, h4⟩ := componentStep_spec h k (by omega) st h2
    refine ⟨st', ?_, h4⟩
    rw [List.range_succ, List.foldlM_append, h1]
    simp only [bind, Except.bind, List.foldlM_cons, List.foldlM_nil, h3]
    rfl

theorem connectedComponents_eq (h : Stores G graph) :
    connectedComponents graph = .ok (Nat.card G.ConnectedComponent) := by
  obtain ⟨st, h1, h2⟩ := components_fold h n le_rfl
  unfold connectedComponents
  rw [h.length, h1]
  have : {i : Fin n | (i : ℕ) < n} = Set.univ := by ext i; simp
  have hsurj : Set.range (G.connectedComponentMk) = Set.univ := by
    rw [Set.range_eq_univ]
    exact Quot.mk_surjective
  simp only [bind, Except.bind, pure, Except.pure]
  rw [h2.count, this, Set.image_univ, hsurj, Set.ncard_univ]

end Components

variable {K : Type} [Field K] [LinearOrder K] [IsStrictOrderedRing K]

theorem stores_proximity (rvs : List K) (d : K) :
    Stores (proximity rvs d) (makeAdjacencyList rvs d) := by
  refine ⟨length_makeAdjacencyList rvs d, ?_, ?_⟩
  · intro i j
    constructor
    · rintro ⟨h, hm⟩
      rw [getElem_makeAdjacencyList, List.mem_filter] at hm
      exact (close_iff rvs d i j).1 hm.2
    · intro h
      refine ⟨by rw [length_makeAdjacencyList]; exact i.2, ?_⟩
      rw [getElem_makeAdjacencyList, List.mem_filter]
      exact ⟨List.mem_range.2 j.2, (close_iff rvs d i j).2 h⟩
  · rintro a b ⟨h, hm⟩
    rw [getElem_makeAdjacencyList, List.mem_filter] at hm
    exact List.mem_range.1 hm.1

/-! ### Permutations -/

theorem exists_equiv_of_perm {α : Type} [LinearOrder α] {xs ys : List α} (h : xs.Perm ys) :
    ∃ e : Fin xs.length ≃ Fin ys.length, ∀ i, ys[e i] = xs[i] := by
  let sx := Tuple.sort xs.get
  let sy := Tuple.sort ys.get
  let c := finCongr h.length_eq
  have hx : (List.ofFn (xs.get ∘ sx)).Perm xs := by
    have := (Equiv.Perm.ofFn_comp_perm sx xs.get)
    rwa [List.ofFn_get] at this
  have hy : (List.ofFn (ys.get ∘ sy)).Perm ys := by
    have := (Equiv.Perm.ofFn_comp_perm sy ys.get)
    rwa [List.ofFn_get] at this
  have heq : List.ofFn (xs.get ∘ sx) = List.ofFn (ys.get ∘ sy) := by
    apply (hx.trans (h.trans hy.symm)).eq_of_pairwise (le := (· ≤ ·))
    · intro a b _ _ h1 h2; exact le_antisymm h1 h2
    · exact List.pairwise_ofFn.2 fun i j hij => Tuple.monotone_sort xs.get hij.le
    · exact List.pairwise_ofFn.2 fun i j hij => Tuple.monotone_sort ys.get hij.le
  refine ⟨(sx.symm.trans c).trans sy, fun i => ?_⟩
  have key : ∀ k : Fin xs.length, ys.get (sy (c k)) = xs.get (sx k) := by
    intro k
    have h1 : (List.ofFn (xs.get ∘ sx))[(k : ℕ)]'(by simp) = xs.get (sx k) := by simp
    have h2 : (List.ofFn (ys.get ∘ sy))[(k : ℕ)]'(by
        rw [List.length_ofFn, ← h.length_eq]; exact k.2) = ys.get (sy (c k)) := by
      simp only [List.getElem_ofFn]
      rfl
    rw [← h1, ← h2]
    congr 1
    exact heq.symm
  have := key (sx.symm i)
  simpa using this

/-- Permuting the sample gives an isomorphic graph. -/
noncomputable def permIso {xs ys : List K} (h : xs.Perm ys) (d : K) :
    proximity xs d ≃g proximity ys d where
  toEquiv := (exists_equiv_of_perm h).choose
  map_rel_iff' := by
    intro i j
    have hspec := (exists_equiv_of_perm h).choose_spec
    show (_ ∧ _) ↔ (_ ∧ _)
    rw [hspec i, hspec j, (Equiv.injective _).ne_iff]

theorem cliqueNum_le {α β : Type} [Finite α] [Finite β] {G : SimpleGraph α} {H : SimpleGraph β}
    (φ : G ↪g H) : G.cliqueNum ≤ H.cliqueNum := by
  obtain ⟨s, hs⟩ := G.exists_isNClique_cliqueNum
  have h2 : H.IsNClique G.cliqueNum (s.map φ.toEmbedding) :=
    hs.map.mono (SimpleGraph.map_le_iff_le_comap _ _ _ |>.2 (fun a b hab => φ.map_rel_iff.2 hab))
  rw [← h2.card_eq]
  exact SimpleGraph.IsClique.card_le_cliqueNum (tc := h2.isClique)

theorem cliqueNum_eq {α β : Type} [Finite α] [Finite β] {G : SimpleGraph α} {H : SimpleGraph β}
    (φ : G ≃g H) : G.cliqueNum = H.cliqueNum :=
  le_antisymm (cliqueNum_le φ.toEmbedding) (cliqueNum_le φ.symm.toEmbedding)

theorem indepNum_eq {α β : Type} [Finite α] [Finite β] {G : SimpleGraph α} {H : SimpleGraph β}
    (φ : G ≃g H) : G.indepNum = H.indepNum := by
  rw [← SimpleGraph.cliqueNum_compl, ← SimpleGraph.cliqueNum_compl]
  exact le_antisymm (cliqueNum_le (SimpleGraph.Embedding.complEquiv φ.toEmbedding))
    (cliqueNum_le (SimpleGraph.Embedding.complEquiv φ.symm.toEmbedding))

/-! ### The clique statistic -/

theorem sort_perm (rvs : List K) : (sort rvs).Perm rvs := List.perm_insertionSort _ _

theorem sort_pairwise (rvs : List K) : (sort rvs).Pairwise (· ≤ ·) := List.pairwise_insertionSort _ _

theorem sorted_le {xs : List K} (hs : xs.Pairwise (· ≤ ·)) {i j : ℕ} (hi : i < xs.length)
    (hj : j < xs.length) (hij : i ≤ j) : xs[i] ≤ xs[j] := by
  rcases hij.eq_or_lt with rfl | h
  · exact le_rfl
  · exact List.pairwise_iff_getElem.1 hs i j hi hj h

theorem advance_spec (xs : List K) (b : K) (r : ℕ) (hr : r ≤ xs.length)
    (hpre : ∀ j (hj : j < xs.length), j < r → xs[j] < b) :
    r ≤ advance xs b r ∧ advance xs b r ≤ xs.length ∧
      (∀ j (hj : j < xs.length), j < advance xs b r → xs[j] < b) ∧
      (∀ h : advance xs b r < xs.length, b ≤ xs[advance xs b r]) := by
  induction r using advance.induct (rvs := xs) (bound := b) with
  | case1 r h hb ih =>
    have heq : advance xs b r = advance xs b (r + 1) := by
      conv_lhs => rw [advance]
      rw [dif_pos h, if_pos hb]
    rw [heq]
    obtain ⟨h1, h2, h3, h4⟩ := ih (by omega) (fun j hj hjr => by
      by_cases hjr' : j = r
      · subst hjr'; exact hb
      · exact hpre j hj (by omega))
    exact ⟨by omega, h2, h3, h4⟩
  | case2 r h hb =>
    have heq : advance xs b r = r := by
      rw [advance, dif_pos h, if_neg hb]
    rw [heq]
    exact ⟨le_rfl, hr, hpre, fun _ => not_lt.1 hb⟩
  | case3 r h =>
    have heq : advance xs b r = r := by
      rw [advance, dif_neg h]
    rw [heq]
    exact ⟨le_rfl, hr, hpre, fun h' => absurd h' h⟩

/-- `r` is the right border of the window starting at `l`. -/
def Border (xs : List K) (d : K) (l r : ℕ) : Prop :=
  r ≤ xs.length ∧ ∃ hl : l < xs.length, ∀ j (hj : j < xs.length), j < r ↔ xs[j] < xs[l] + d

theorem Border.unique {xs : List K} {d : K} {l r r' : ℕ} (h : Border xs d l r)
    (h' : Border xs d l r') : r = r' := by
  obtain ⟨h1, hl, h2⟩ := h
  obtain ⟨h1', _, h2'⟩ := h'
  by_contra hne
  rcases Nat.lt_or_gt_of_ne hne with hlt | hlt
  · have := (h2 r (by omega)).2 ((h2' r (by omega)).1 hlt); omega
  · have := (h2' r' (by omega)).2 ((h2 r' (by omega)).1 hlt); omega

theorem advance_border {xs : List K} (hs : xs.Pairwise (· ≤ ·)) (d : K) (l r : ℕ)
    (hl : l < xs.length) (hr : r ≤ xs.length)
    (hpre : ∀ j (hj : j < xs.length), j < r → xs[j] < xs[l] + d) :
    Border xs d l (advance xs (xs[l] + d) r) := by
  obtain ⟨h1, h2, h3, h4⟩ := advance_spec xs (xs[l] + d) r hr hpre
  refine ⟨h2, hl, fun j hj => ⟨h3 j hj, fun hlt => ?_⟩⟩
  by_contra hge
  have h5 := h4 (by omega)
  have := sorted_le hs (by omega) hj (not_lt.1 hge)
  linarith

theorem cliqueLoop_spec {xs : List K} (hs : xs.Pairwise (· ≤ ·)) {d : K} (hd : 0 < d)
    (left right : ℕ) (best : ℤ) (hl : left < xs.length) (hr : right ≤ xs.length)
    (hpre : ∀ j (hj : j < xs.length), j < right → xs[j] < xs[left] + d)
    (hlast : ∀ l (h : l < xs.length), l < left → xs[l] + d ≤ xs[xs.length - 1])
    (hbest : ∀ l r, l < left → Border xs d l r → (r : ℤ) - l ≤ best)
    (hatt : best = 0 ∨ ∃ l r, l < left ∧ Border xs d l r ∧ best = (r : ℤ) - l) :
    ∃ L b, L < xs.length ∧
      (∀ l (h : l < xs.length), l < L ↔ xs[l] + d ≤ xs[xs.length - 1]) ∧
      (∀ l r, l < L → Border xs d l r → (r : ℤ) - l ≤ b) ∧
      (b = 0 ∨ ∃ l r, l < L ∧ Border xs d l r ∧ b = (r : ℤ) - l) ∧
      cliqueLoop xs d left right best = max b ((xs.length : ℤ) - L + 1) := by
  induction left, right, best using cliqueLoop.induct (rvs := xs) (dist := d) with
  | case1 left right best hlt r' hr' =>
    have hb := advance_border hs d left right hl hr hpre
    refine ⟨left, best, hl, ?_, hbest, hatt, ?_⟩
    · intro l h
      refine ⟨fun hll => hlast l h hll, fun hle => ?_⟩
      by_contra hge
      have h1 := (hb.2.2 (xs.length - 1) (by omega)).1 (by
        have : advance xs (xs[left] + d) right = xs.length := hr'
        omega)
      have h2 := sorted_le hs hl h (not_lt.1 hge)
      linarith
    · rw [cliqueLoop, dif_pos hl]
      have : advance xs (xs[left] + d) right = xs.length := hr'
      simp only [this, if_true]
  | case2 left right best hlt r' hr' ih =>
    have hb := advance_border hs d left right hl hr hpre
    have hlen : advance xs (xs[left] + d) right < xs.length :=
      lt_of_le_of_ne hb.1 hr'
    have hlast' : xs[left] + d ≤ xs[xs.length - 1] := by
      by_contra hcon
      have := (hb.2.2 (xs.length - 1) (by omega)).2 (not_le.1 hcon)
      omega
    have hl' : left + 1 < xs.length := by
      by_contra hge
      have : left = xs.length - 1 := by omega
      subst this
      linarith
    have heq : cliqueLoop xs d left right best =
        cliqueLoop xs d (left + 1) (advance xs (xs[left] + d) right)
          (max best ((advance xs (xs[left] + d) right : ℤ) - left)) := by
      conv_lhs => rw [cliqueLoop]
      rw [dif_pos hl]
      exact if_neg hr'
    rw [heq]
    refine ih hl' hb.1 ?_ ?_ ?_ ?_
    · intro j hj hjr
      have h1 := (hb.2.2 j hj).1 hjr
      have h2 := sorted_le hs hl hl' (Nat.le_succ left)
      linarith
    · intro l h hll
      by_cases hll' : l = left
      · subst hll'; exact hlast'
      · exact hlast l h (by omega)
    · intro l r hll hbr
      by_cases hll' : l = left
      · subst hll'
        rw [hbr.unique hb]
        exact le_max_right _ _
      · exact le_trans (hbest l r (by omega) hbr) (le_max_left _ _)
    · rcases le_total ((advance xs (xs[left] + d) right : ℤ) - left) best with h | h
      · have hm : max best ((advance xs (xs[left] + d) right : ℤ) - left) = best := max_eq_left h
        show max best ((advance xs (xs[left] + d) right : ℤ) - left) = 0 ∨ ∃ l r, l < left + 1 ∧
          Border xs d l r ∧ max best ((advance xs (xs[left] + d) right : ℤ) - left) = (r : ℤ) - l
        rw [hm]
        rcases hatt with h' | ⟨l, r, hl2, hb2, he⟩
        · exact Or.inl h'
        · exact Or.inr ⟨l, r, by omega, hb2, he⟩
      · exact Or.inr ⟨left, _, by omega, hb, max_eq_right h⟩
  | case3 left right best hlt => exact absurd hl hlt

theorem border_clique {xs : List K} (hs : xs.Pairwise (· ≤ ·)) {d : K} {l r : ℕ}
    (h : Border xs d l r) : (r : ℤ) - l ≤ (proximity xs d).cliqueNum := by
  obtain ⟨h1, hl, h2⟩ := h
  let S : Finset (Fin xs.length) := Finset.univ.filter (fun j => l ≤ (j : ℕ) ∧ (j : ℕ) < r)
  have hS : (proximity xs d).IsClique S := by
    intro a ha b hb hab
    simp only [S, Finset.coe_filter, Finset.mem_univ, true_and, Set.mem_ofPred_eq] at ha hb
    refine ⟨hab, ?_⟩
    have ha1 := (h2 a a.2).1 ha.2
    have hb1 := (h2 b b.2).1 hb.2
    have ha2 := sorted_le hs hl a.2 ha.1
    have hb2 := sorted_le hs hl b.2 hb.1
    rw [abs_lt]
    constructor <;> simp only [Fin.getElem_fin] <;> linarith
  have hcard : r - l = S.card := by
    have : S.map Fin.valEmbedding = Finset.Ico l r := by
      ext j
      simp only [S, Finset.mem_map, Finset.mem_filter, Finset.mem_univ, true_and,
        Fin.valEmbedding_apply, Finset.mem_Ico]
      constructor
      · rintro ⟨i, hi, rfl⟩; exact hi
      · rintro ⟨hj1, hj2⟩; exact ⟨⟨j, by omega⟩, ⟨hj1, hj2⟩, rfl⟩
    rw [← Finset.card_map Fin.valEmbedding, this, Nat.card_Ico]
  have := SimpleGraph.IsClique.card_le_cliqueNum (tc := hS)
  omega

theorem cliqueLoop_eq {xs : List K} (hs : xs.Pairwise (· ≤ ·)) {d : K} (hd : 0 < d)
    (hne : xs ≠ []) :
    cliqueLoop xs d 0 0 0 = max ((proximity xs d).cliqueNum : ℤ)
      (((Finset.univ.filter
        (fun j : Fin xs.length => xs[xs.length - 1]'(by
          have := List.length_pos_iff.2 hne; omega) < xs[j] + d)).card : ℤ) + 1) := by
  have hpos : 0 < xs.length := List.length_pos_iff.2 hne
  obtain ⟨L, b, hL, h1, h2, h3, h4⟩ := cliqueLoop_spec hs hd 0 0 0 hpos (by omega)
    (by intro j _ h; omega) (by intro l _ h; omega) (by intro l r h; omega) (Or.inl rfl)
  have hlastcard : (Finset.univ.filter (fun j : Fin xs.length =>
      xs[xs.length - 1] < xs[j] + d)).card = xs.length - L := by
    have : (Finset.univ.filter (fun j : Fin xs.length => xs[xs.length - 1] < xs[j] + d)).map
        Fin.valEmbedding = Finset.Ico L xs.length := by
      ext j
      simp only [Finset.mem_map, Finset.mem_filter, Finset.mem_univ, true_and,
        Fin.valEmbedding_apply, Finset.mem_Ico]
      constructor
      · rintro ⟨i, hi, rfl⟩
        refine ⟨?_, i.2⟩
        by_contra hlt
        have := (h1 i i.2).1 (not_le.1 hlt)
        simp only [Fin.getElem_fin] at hi
        linarith
      · rintro ⟨hj1, hj2⟩
        refine ⟨⟨j, hj2⟩, ?_, rfl⟩
        by_contra hcon
        have := (h1 j hj2).2 (not_lt.1 hcon)
        omega
    rw [← Finset.card_map Fin.valEmbedding, this, Nat.card_Ico]
  rw [h4, hlastcard]
  have hcast : ((xs.length - L : ℕ) : ℤ) = (xs.length : ℤ) - L := by omega
  rw [hcast]
  have hb : b ≤ (proximity xs d).cliqueNum := by
    rcases h3 with rfl | ⟨l, r, -, hbr, rfl⟩
    · positivity
    · exact border_clique hs hbr
  have hcl : ((proximity xs d).cliqueNum : ℤ) ≤ max b ((xs.length : ℤ) - L + 1) := by
    obtain ⟨S, hS⟩ := (proximity xs d).exists_isNClique_cliqueNum
    rcases S.eq_empty_or_nonempty with hemp | hnon
    · have : (proximity xs d).cliqueNum = 0 := by rw [← hS.card_eq, hemp]; rfl
      rw [this]
      apply le_max_of_le_right
      push_cast
      omega
    · set m := S.min' hnon with hm
      have hmS : m ∈ S := S.min'_mem hnon
      have hsub : ∀ j ∈ S, m ≤ j := fun j hj => S.min'_le j hj
      have hwin : ∀ j ∈ S, xs[(j : ℕ)] < xs[(m : ℕ)] + d := by
        intro j hj
        by_cases hjm : j = m
        · rw [hjm]; linarith
        · have := (hS.isClique hj hmS hjm).2
          rw [abs_lt] at this
          simp only [Fin.getElem_fin] at this
          linarith [this.2]
      have hbd := advance_border hs d m 0 m.2 (by omega) (by intro j _ h; omega)
      set r := advance xs (xs[(m : ℕ)] + d) 0
      have hcard : S.card ≤ r - m := by
        have hsubset : S.map Fin.valEmbedding ⊆ Finset.Ico (m : ℕ) r := by
          intro j hj
          obtain ⟨i, hi, rfl⟩ := Finset.mem_map.1 hj
          rw [Finset.mem_Ico]
          exact ⟨hsub i hi, (hbd.2.2 i i.2).2 (hwin i hi)⟩
        have := Finset.card_le_card hsubset
        rwa [Finset.card_map, Nat.card_Ico] at this
      rw [hS.card_eq] at hcard
      have hrn := hbd.1
      by_cases hmL : (m : ℕ) < L
      · have h5 := h2 m r hmL hbd
        have h6 : (m : ℕ) < r := (hbd.2.2 m m.2).2 (by linarith)
        apply le_max_of_le_left
        omega
      · apply le_max_of_le_right
        omega
  apply le_antisymm
  · exact max_le (le_max_of_le_left hb) (le_max_right _ _)
  · exact max_le hcl (le_max_right _ _)

/-- When no point lies below a window's bound the windows are empty and the loop returns 0. -/
theorem cliqueLoop_zero (xs : List K) (d : K)
    (h : ∀ l (hl : l < xs.length), xs[l] + d ≤ xs[0]) (left : ℕ) :
    cliqueLoop xs d left 0 0 = 0 := by
  have hadv : ∀ l (hl : l < xs.length), advance xs (xs[l] + d) 0 = 0 := by
    intro l hl
    rw [advance, dif_pos (by omega), if_neg (not_lt.2 (h l hl))]
  by_cases hl : left < xs.length
  · have ih := cliqueLoop_zero xs d h (left + 1)
    rw [cliqueLoop, dif_pos hl]
    simp only [hadv left hl]
    rw [if_neg (by omega)]
    have : max (0 : ℤ) (((0 : ℕ) : ℤ) - left) = 0 := by
      apply max_eq_left; omega
    rw [this]
    exact ih
  · rw [cliqueLoop, dif_neg hl]
termination_by xs.length - left

/-! ### The independence statistic -/

theorem independenceLoop_attained (d last : K) (xs : List K) (hs : (last :: xs).Pairwise (· ≤ ·)) :
    ∃ s, s.Sublist xs ∧ s.length = independenceLoop d last xs ∧
      (last :: s).Pairwise (fun a b => d ≤ b - a) := by
  induction xs generalizing last with
  | nil => exact ⟨[], .slnil, rfl, by simp⟩
  | cons x rest ih =>
    rw [List.pairwise_cons] at hs
    obtain ⟨h1, h2⟩ := hs
    by_cases hx : x ≥ last + d
    · obtain ⟨s, hs1, hs2, hs3⟩ := ih x h2
      refine ⟨x :: s, hs1.cons₂ x, by simp [independenceLoop, hx, hs2]; omega, ?_⟩
      rw [List.pairwise_cons]
      refine ⟨?_, hs3⟩
      intro b hb
      rcases List.mem_cons.1 hb with rfl | hb
      · linarith
      · have := (List.pairwise_cons.1 h2).1 b (hs1.subset hb)
        linarith
    · obtain ⟨s, hs1, hs2, hs3⟩ := ih last (by
        rw [List.pairwise_cons]
        exact ⟨fun b hb => h1 b (by simp [hb]), (List.pairwise_cons.1 h2).2⟩)
      exact ⟨s, hs1.cons x, by simp [independenceLoop, hx, hs2], hs3⟩

theorem independenceLoop_bound (d last : K) (xs s : List K) (hs : (last :: xs).Pairwise (· ≤ ·))
    (hsub : s.Sublist xs) (hp : s.Pairwise (fun a b => d ≤ b - a)) (hl : ∀ a ∈ s, last + d ≤ a) :
    s.length ≤ independenceLoop d last xs := by
  induction xs generalizing last s with
  | nil => simp [List.sublist_nil.1 hsub, independenceLoop]
  | cons x rest ih =>
    rw [List.pairwise_cons] at hs
    obtain ⟨h1, h2⟩ := hs
    by_cases hx : x ≥ last + d
    · rw [independenceLoop, if_pos hx]
      cases s with
      | nil => simp
      | cons a t =>
        have hmem : a ∈ x :: rest := hsub.subset (by simp)
        have hxa : x ≤ a := by
          rcases List.mem_cons.1 hmem with rfl | h
          · exact le_rfl
          · exact (List.pairwise_cons.1 h2).1 a h
        have ht : t.Sublist rest := (by simpa using hsub.tail)
        rw [List.pairwise_cons] at hp
        have := ih x t h2 ht hp.2 (fun b hb => by have := hp.1 b hb; linarith)
        simp only [List.length_cons]
        omega
    · rw [independenceLoop, if_neg hx]
      have hxs : x ∉ s := fun h => hx (hl x h)
      have hsub' : s.Sublist rest := by
        cases hsub with
        | cons _ h => exact h
        | cons_cons _ h => simp at hxs
      exact ih last s (by
        rw [List.pairwise_cons]
        exact ⟨fun b hb => h1 b (by simp [hb]), (List.pairwise_cons.1 h2).2⟩) hsub' hp hl

/-- Independent sets of the proximity graph of a sorted sample are its sublists with gaps at
least `d`. -/
theorem indepNum_sorted {xs : List K} (hs : xs.Pairwise (· ≤ ·)) (d : K) (g : ℕ)
    (hatt : ∃ s : List K, s.Sublist xs ∧ s.length = g ∧ s.Pairwise (fun a b => d ≤ b - a))
    (hbound : ∀ s : List K, s.Sublist xs → s.Pairwise (fun a b => d ≤ b - a) → s.length ≤ g) :
    (proximity xs d).indepNum = g := by
  apply le_antisymm
  · obtain ⟨S, hS⟩ := (proximity xs d).exists_isNIndepSet_indepNum
    let e := S.orderEmbOfFin rfl
    have hsub : (List.ofFn (fun i => xs[e i])).Sublist xs := by
      rw [List.sublist_iff_exists_fin_orderEmbedding_get_eq]
      refine ⟨(Fin.castOrderIso (by simp)).toOrderEmbedding.trans e, fun i => ?_⟩
      simp only [List.get_eq_getElem, List.getElem_ofFn]
      rfl
    have := hbound _ hsub (by
      rw [List.pairwise_ofFn]
      intro i j hij
      have hne : e i ≠ e j := fun h => hij.ne (e.injective h)
      have h1 := hS.isIndepSet (Finset.orderEmbOfFin_mem S rfl i)
        (Finset.orderEmbOfFin_mem S rfl j) hne
      have h2 : ¬ (|xs[e i] - xs[e j]| < d) := fun h => h1 ⟨hne, h⟩
      have h3 : xs[e i] ≤ xs[e j] := sorted_le hs (e i).2 (e j).2 (e.strictMono hij).le
      rw [abs_of_nonpos (by linarith)] at h2
      linarith [not_lt.1 h2])
    rw [List.length_ofFn, hS.card_eq] at this
    exact this
  · obtain ⟨s, hsub, rfl, hp⟩ := hatt
    rw [List.sublist_iff_exists_fin_orderEmbedding_get_eq] at hsub
    obtain ⟨f, hf⟩ := hsub
    have hind : (proximity xs d).IsIndepSet
        ((Finset.univ.map f.toEmbedding : Finset (Fin xs.length)) : Set (Fin xs.length)) := by
      intro a ha b hb hab
      simp only [Finset.coe_map, Finset.coe_univ, Set.image_univ, Set.mem_range] at ha hb
      obtain ⟨i, rfl⟩ := ha
      obtain ⟨j, rfl⟩ := hb
      have hij : i ≠ j := fun h => hab (by rw [h])
      have key : ∀ i j : Fin s.length, i < j → ¬ (|xs.get (f i) - xs.get (f j)| < d) := by
        intro i j hlt
        rw [← hf, ← hf, abs_sub_comm]
        have := List.pairwise_iff_getElem.1 hp i j i.2 j.2 hlt
        exact not_lt.2 (le_trans this (le_abs_self _))
      rintro ⟨-, hlt⟩
      rcases lt_or_gt_of_ne hij with h | h
      · exact key i j h hlt
      · rw [abs_sub_comm] at hlt
        exact key j i h hlt
    have := SimpleGraph.IsIndepSet.card_le_indepNum hind
    simpa using this

theorem independenceLoop_eq (d x : K) (rest : List K) (hs : (x :: rest).Pairwise (· ≤ ·)) :
    (proximity (x :: rest) d).indepNum = 1 + independenceLoop d x rest := by
  apply indepNum_sorted hs
  · obtain ⟨s, h1, h2, h3⟩ := independenceLoop_attained d x rest hs
    exact ⟨x :: s, h1.cons₂ x, by simp [h2]; omega, h3⟩
  · intro s hsub hp
    cases s with
    | nil => simp
    | cons a t =>
      have hmem : a ∈ x :: rest := hsub.subset (by simp)
      have hxa : x ≤ a := by
        rcases List.mem_cons.1 hmem with rfl | h
        · exact le_rfl
        · exact (List.pairwise_cons.1 hs).1 a h
      rw [List.pairwise_cons] at hp
      have := independenceLoop_bound d x rest t hs ((by simpa using hsub.tail)) hp.2
        (fun b hb => by have := hp.1 b hb; linarith)
      simp only [List.length_cons]
      omega

end Pysatl.Graph
