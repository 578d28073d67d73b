import Verif.Props.Medcouple
import Verif.Lemmas.GraphStat

/-! # C63 and C115 for the criteria of graphs and of Brys, Hubert and Struyf -/

namespace Pysatl.Props

open Pysatl.Graph Pysatl.Medcouple

section

variable {K : Type} [Field K] [LinearOrder K] [IsStrictOrderedRing K]

theorem isThreshold_neg {r : Rule} (hr : r ≠ .overMean) {xs : List K} {d : K}
    (h : IsThreshold r xs d) : IsThreshold r (xs.map (-·)) d := by
  obtain ⟨hi, hhi, lo, hlo, hb, hd⟩ := h
  refine ⟨-lo, List.mem_map.2 ⟨lo, hlo, rfl⟩, -hi, List.mem_map.2 ⟨hi, hhi, rfl⟩, ?_, ?_⟩
  · intro x hx
    obtain ⟨y, hy, rfl⟩ := List.mem_map.1 hx
    exact ⟨neg_le_neg (hb y hy).2, neg_le_neg (hb y hy).1⟩
  · have hsum : (xs.map (-·)).sum = -xs.sum := by
      clear hd hb hhi hlo
      induction xs with
      | nil => simp
      | cons a t ih => simp only [List.map_cons, List.sum_cons, ih]; ring
    have hr' : -lo - -hi = hi - lo := by ring
    cases r with
    | range => simpa only [hr'] using hd
    | overMean => exact absurd rfl hr
    | overVariance =>
      have hv : ∀ n m : K, ((xs.map (-·)).map fun x => (x - (-m) / n) ^ 2) =
          xs.map fun x => (x - m / n) ^ 2 := by
        intro n m
        rw [List.map_map]
        refine List.map_congr_left fun x _ => ?_
        simp only [Function.comp_apply]
        ring
      simp only [List.length_map, hsum, hr', hv]
      exact hd

/-- **C115 for the graphs.**  The reflected sample has the same number of edges, the same degrees,
components and independence number, under the rule of the normality family and under the plain
rule. -/
theorem C115_graph {r : Rule} (hr : r ≠ .overMean) (xs : List K) {k : Kind} (hk : k ≠ .clique) :
    statistic r (xs.map (-·)) k = statistic r xs k := by
  rcases eq_or_ne xs [] with rfl | hne
  · rfl
  · obtain ⟨d, hd⟩ := exists_isThreshold r hne
    have iso : proximity xs d ≃g proximity (xs.map (-·)) d := by
      refine ⟨finCongr (by simp), ?_⟩
      intro i j
      show (_ ∧ _) ↔ (_ ∧ _)
      rw [(finCongr _).injective.ne_iff]
      simp only [Fin.getElem_fin, finCongr_apply, Fin.val_cast, List.getElem_map]
      rw [show -xs[(i : ℕ)] - -xs[(j : ℕ)] = -(xs[(i : ℕ)] - xs[(j : ℕ)]) by ring, abs_neg]
    exact (statistic_iso r hd (isThreshold_neg hr hd) (by simp) iso k fun h => absurd h hk).symm

end

/-- **C115 is false of the clique statistic** (the defect of C52: only the group of the largest
observations is counted with one too many). -/
theorem C115_refuted_clique :
    statistic .overVariance [(0 : ℚ), 0, 1] .clique = .ok 2 ∧
    statistic .overVariance ([(0 : ℚ), 0, 1].map (-·)) .clique = .ok 3 := by
  decide +kernel

/-- When the whole table of kernel values is no longer than the sample the search does not start. -/
theorem mc_quick {K : Type} [Field K] [LinearOrder K] (fuel k : ℕ) {z y : List K} {med : K}
    (h3 : 3 ≤ z.length) (hp : prepare z = .inr (y, med))
    (ht : (table y med).h1 * (table y med).h2 ≤ (table y med).n) :
    mc fuel k z = some (finish (table y med) (Search.start (table y med))) := by
  unfold mc
  rw [if_neg (by omega), hp]
  cases k with
  | zero => rfl
  | succ k =>
    unfold search
    dsimp only
    rw [if_pos (Or.inr (by simpa [Search.start] using ht))]
    rfl

theorem mc_border {K : Type} [Field K] [LinearOrder K] (fuel k : ℕ) {z : List K} {v : K}
    (h3 : 3 ≤ z.length) (hp : prepare z = .inl v) : mc fuel k z = some (.ok (v, 0, true)) := by
  unfold mc
  rw [if_neg (by omega), hp]

theorem mc_two {K : Type} [Field K] [LinearOrder K] (fuel k : ℕ) {z : List K}
    (h3 : z.length < 3) : mc fuel k z = some (.ok (0, 0, true)) := by
  unfold mc
  rw [if_pos h3]

/-- The value of the statistic from the three medcouples. -/
def bhsValue (n : ℕ) (w1 w2 w3 : ℚ) : ℚ :=
  let omega : ℚ := 198828 / 10 ^ 6
  let v1 := w1
  let v2 := -w2 - omega
  let v3 := w3 - omega
  n * (v1 * (8571890822945882 / 10 ^ 16 * v1 + -(1051268907484579 / 10 ^ 16) * v2
      + 1051268907484580 / 10 ^ 16 * v3)
    + v2 * (-(1051268907484579 / 10 ^ 16) * v1 + 3944817329840534 / 10 ^ 16 * v2
      + -(1109532299714422 / 10 ^ 17) * v3)
    + v3 * (1051268907484579 / 10 ^ 16 * v1 + -(1109532299714422 / 10 ^ 17) * v2
      + 3944817329840535 / 10 ^ 16 * v3))

theorem bhs_of_mc {fuel : ℕ} {x : List ℚ} (hn : 3 < x.length) {half : ℕ}
    (hh : half = if x.length % 2 = 0 then x.length / 2 else x.length / 2 + 1) {w1 w2 w3 : ℚ}
    (h1 : ∀ k, mc fuel k x = some (.ok (w1, 0, true)))
    (h2 : ∀ k, mc fuel k ((sort x).take half) = some (.ok (w2, 0, true)))
    (h3 : ∀ k, mc fuel k ((sort x).drop half) = some (.ok (w3, 0, true))) :
    (bhs fuel x).run = some (.ok (some (bhsValue x.length w1 w2 w3))) := by
  subst hh
  unfold bhs
  dsimp only
  rw [if_neg (by omega)]
  simp only [bind, ExceptT.bind, ExceptT.mk, ExceptT.run, ExceptT.bindCont, pure, h1, h2, h3,
    Option.bind_some, ExceptT.pure]
  rfl

/-- **C63 is false of the criterion of Brys, Hubert and Struyf.**  Its tolerance is relative to the
median: a sample far from zero, or of very small scale, is taken for one whose median is at the
border. -/
theorem C63_refuted_bhs (fuel : ℕ) :
    ∃ v w : ℚ, v + 2 < w ∧
      (bhs fuel [0, 0, 2, 2]).run = some (.ok (some v)) ∧
      (bhs fuel ([0, 0, 2, 2].map (2 ^ 53 + ·))).run = some (.ok (some w)) ∧
      (bhs fuel ([0, 0, 2, 2].map (1 / 10 ^ 40 * ·))).run = some (.ok (some w)) := by
  refine ⟨bhsValue 4 0 0 0, bhsValue 4 (-1) 0 0, by decide +kernel, ?_, ?_, ?_⟩
  · refine bhs_of_mc (by decide) (half := 2) (by decide) ?_ (fun k => mc_two _ _ (by decide +kernel))
      (fun k => mc_two _ _ (by decide +kernel))
    intro k
    rw [mc_quick (y := [1 / 2, 1 / 2, -1 / 2, -1 / 2]) (med := 1 / 2) fuel k (by decide)
      (by decide +kernel) (by decide +kernel)]
    congr 1
    decide +kernel
  · exact bhs_of_mc (by decide) (half := 2) (by decide)
      (fun k => mc_border _ _ (by decide) (by decide +kernel)) (fun k => mc_two _ _ (by decide +kernel))
      (fun k => mc_two _ _ (by decide +kernel))
  · exact bhs_of_mc (by decide) (half := 2) (by decide)
      (fun k => mc_border _ _ (by decide) (by decide +kernel)) (fun k => mc_two _ _ (by decide +kernel))
      (fun k => mc_two _ _ (by decide +kernel))

/-- **C115 is false of the criterion of Brys, Hubert and Struyf.**  For an odd number of observations
the median belongs to the lower half only. -/
theorem C115_refuted_bhs (fuel : ℕ) :
    ∃ v w : ℚ, v + 1 < w ∧
      (bhs fuel [0, 0, 0, 2, 2]).run = some (.ok (some v)) ∧
      (bhs fuel ([0, 0, 0, 2, 2].map (-·))).run = some (.ok (some w)) := by
  refine ⟨bhsValue 5 1 (-1) 0, bhsValue 5 (-1) 1 0, by decide +kernel, ?_, ?_⟩
  · exact bhs_of_mc (by decide) (half := 3) (by decide)
      (fun k => mc_border _ _ (by decide) (by decide +kernel))
      (fun k => mc_border _ _ (by decide +kernel) (by decide +kernel))
      (fun k => mc_two _ _ (by decide +kernel))
  · exact bhs_of_mc (by decide) (half := 3) (by decide)
      (fun k => mc_border _ _ (by decide) (by decide +kernel))
      (fun k => mc_border _ _ (by decide +kernel) (by decide +kernel))
      (fun k => mc_two _ _ (by decide +kernel))

/-- The graph theorem applies to a sample whose graph has an edge. -/
example : statistic .overVariance [(0 : ℚ), 1, 20, 21] .edges = .ok 0 ∧
    statistic .range [(0 : ℚ), 1, 20, 21] .edges = .ok 2 ∧
    statistic .range ([(0 : ℚ), 1, 20, 21].map (-·)) .edges = .ok 2 := by
  decide +kernel

end Pysatl.Props
