import Verif.Props.Sensitive
import Verif.Props.TotalTime
import Verif.Props.CalibrationFamilies
import Mathlib.Analysis.Convex.SpecificFunctions.Pow

/-! # C96: the other criteria of exponentiality -/

namespace Pysatl.Props

open Pysatl.Decision Pysatl.Spec Pysatl.Edf Pysatl.Graph Pysatl.Exponent
open MeasureTheory ProbabilityTheory

/-! ### Samples with given normalised spacings -/

/-- The increasing sample above `c` with normalised spacings `ds`. -/
noncomputable def ofSpacings : ℝ → List ℝ → List ℝ
  | _, [] => []
  | c, d :: ds => (c + d / (ds.length + 1)) :: ofSpacings (c + d / (ds.length + 1)) ds

theorem length_ofSpacings : ∀ (c : ℝ) (ds : List ℝ), (ofSpacings c ds).length = ds.length
  | _, [] => rfl
  | c, d :: ds => by rw [ofSpacings, List.length_cons, length_ofSpacings, List.length_cons]

theorem normSpacings_ofSpacings : ∀ (c : ℝ) (ds : List ℝ), normSpacings (c :: ofSpacings c ds) = ds
  | c, [] => by simp [ofSpacings, normSpacings, npDiff]
  | c, d :: ds => by
    rw [ofSpacings, normSpacings_cons_cons, normSpacings_ofSpacings, length_ofSpacings]
    congr 1
    have : ((ds.length : ℝ) + 1) ≠ 0 := by positivity
    field_simp
    ring

theorem ofSpacings_gt : ∀ {c : ℝ} {ds : List ℝ}, (∀ d ∈ ds, 0 < d) → ∀ x ∈ ofSpacings c ds, c < x
  | c, [], _, x, hx => by simp [ofSpacings] at hx
  | c, d :: ds, h, x, hx => by
    have hd : 0 < d / ((ds.length : ℝ) + 1) := div_pos (h d (by simp)) (by positivity)
    rw [ofSpacings] at hx
    rcases List.mem_cons.1 hx with rfl | hx
    · linarith
    · have := ofSpacings_gt (fun e he => h e (List.mem_cons_of_mem _ he)) x hx
      linarith

theorem ofSpacings_sorted : ∀ {c : ℝ} {ds : List ℝ}, (∀ d ∈ ds, 0 < d) → (ofSpacings c ds).Pairwise (· < ·)
  | c, [], _ => by simp [ofSpacings]
  | c, d :: ds, h => by
    rw [ofSpacings]
    have h' : ∀ e ∈ ds, 0 < e := fun e he => h e (List.mem_cons_of_mem _ he)
    exact List.pairwise_cons.2 ⟨fun x hx => ofSpacings_gt h' x hx, ofSpacings_sorted h'⟩

theorem sort_ofSpacings {c : ℝ} {ds : List ℝ} (h : ∀ d ∈ ds, 0 < d) : sort (ofSpacings c ds) = ofSpacings c ds :=
  sort_of_sorted ((ofSpacings_sorted h).imp fun h => h.le)

theorem sort_zero_ofSpacings {ds : List ℝ} (h : ∀ d ∈ ds, 0 < d) :
    sort (0 :: ofSpacings 0 ds) = 0 :: ofSpacings 0 ds := by
  rw [sort_cons_zero (ofSpacings_gt h), sort_ofSpacings h]

/-- Two lists of spacings give different values. -/
def SpacedApart (f : List ℝ → Except PyErr ℝ) (n : ℕ) : Prop :=
  ∃ (ds es : List ℝ) (v w : ℝ), (∀ d ∈ ds, 0 < d) ∧ (∀ d ∈ es, 0 < d) ∧ ds.length = n ∧ es.length = n ∧
    f (ofSpacings 0 ds) = .ok v ∧ f (ofSpacings 0 es) = .ok w ∧ v ≠ w

theorem SpacedApart.tells {f : List ℝ → Except PyErr ℝ} {n : ℕ} (h : SpacedApart f n) :
    TellsApart (fun xs => ∀ x ∈ xs, 0 < x) f n := by
  obtain ⟨ds, es, v, w, hd, he, ld, le, h1, h2, h⟩ := h
  exact ⟨_, _, v, w, ⟨(length_ofSpacings _ _).trans ld, ofSpacings_gt hd⟩,
    ⟨(length_ofSpacings _ _).trans le, ofSpacings_gt he⟩, h1, h2, h⟩

theorem spaced_epstein {n : ℕ} (hn : 2 ≤ n) : SpacedApart ExpStat.epstein.value n := by
  have h1 : ∀ {ds : List ℝ}, ds.length = n → (∀ d ∈ ds, 0 < d) →
      ∃ v, ExpStat.epstein.value (ofSpacings 0 ds) = .ok v ∧ 0 ≤ v ∧ (v = 0 ↔ Constant ds) := fun {ds} l h => by
    have := C81_epstein (rvs := ofSpacings 0 ds) (ne_nil_of_length hn ((length_ofSpacings _ _).trans l))
      (ofSpacings_gt h) ((ofSpacings_sorted h).imp fun h => h.ne)
    rwa [sort_ofSpacings h, normSpacings_ofSpacings] at this
  obtain ⟨v, hv, _, h2⟩ := h1 (length_flat n) flat_pos
  obtain ⟨w, hw, _, h3⟩ := h1 (length_spread hn) spread_pos
  refine ⟨_, _, _, _, flat_pos, spread_pos, length_flat n, length_spread hn, hv, hw, fun h => ?_⟩
  exact spread_not_constant hn (h3.1 (h ▸ h2.2 (flat_constant n)))

theorem sum_take_flat (n r : ℕ) (h : r ≤ n) : ((flat n).take r).sum = r := by
  simp [flat, List.take_replicate, min_eq_left h]

theorem sum_drop_flat (n r : ℕ) (h : r ≤ n) : ((flat n).drop r).sum = n - r := by
  simp [flat, List.drop_replicate, Nat.cast_sub h]

theorem spread_take {n r : ℕ} (hr : 0 < r) (h : r ≤ n) : ((spread n).take r).sum = r + 2 := by
  obtain ⟨k, rfl⟩ : ∃ k, r = k + 1 := ⟨r - 1, by omega⟩
  rw [spread, List.take_succ_cons, List.sum_cons, List.take_replicate, min_eq_left (by omega), List.sum_replicate,
    nsmul_eq_mul]
  push_cast
  ring

theorem spread_drop {n r : ℕ} (hr : 0 < r) : (spread n).drop r = List.replicate (n - r) 1 := by
  obtain ⟨k, rfl⟩ : ∃ k, r = k + 1 := ⟨r - 1, by omega⟩
  rw [spread, List.drop_succ_cons, List.drop_replicate]
  congr 1
  omega

theorem spaced_gnedenko {n : ℕ} {r : Option ℕ} (hr : 0 < r.getD (pyRoundDiv n 2)) (hn : r.getD (pyRoundDiv n 2) < n) :
    SpacedApart (ExpStat.gnedenko r).value n := by
  have h2 : 2 ≤ n := by omega
  have hv : ∀ {ds : List ℝ}, ds.length = n → (∀ d ∈ ds, 0 < d) → (ExpStat.gnedenko r).value (ofSpacings 0 ds) =
      .ok (((ds.take (r.getD (pyRoundDiv n 2))).sum / (r.getD (pyRoundDiv n 2) : ℕ)) /
        ((ds.drop (r.getD (pyRoundDiv n 2))).sum / ((n : ℝ) - (r.getD (pyRoundDiv n 2) : ℕ)))) := fun {ds} l h => by
    simp only [ExpStat.value, Exponent.gnedenko, length_ofSpacings, l, sort_zero_ofSpacings h, normSpacings_ofSpacings]
    rw [if_neg (by omega)]
  refine ⟨_, _, _, _, flat_pos, spread_pos, length_flat n, length_spread h2, hv (length_flat n) flat_pos,
    hv (length_spread h2) spread_pos, ?_⟩
  generalize r.getD (pyRoundDiv n 2) = k at hr hn
  have hk : (0 : ℝ) < k := by exact_mod_cast hr
  have hk' : (0 : ℝ) < (n : ℝ) - k := sub_pos.2 (by exact_mod_cast hn)
  rw [sum_take_flat _ _ hn.le, sum_drop_flat _ _ hn.le, spread_take hr hn.le, spread_drop hr, List.sum_replicate,
    nsmul_eq_mul, Nat.cast_sub hn.le, mul_one, div_self hk.ne', div_self hk'.ne', div_one, div_one]
  intro h
  rw [eq_div_iff hk.ne'] at h
  linarith

theorem spaced_harris {n : ℕ} {r : Option ℕ} (hr : 0 < r.getD (pyRoundDiv n 4)) (hn : 2 * r.getD (pyRoundDiv n 4) < n) :
    SpacedApart (ExpStat.harris r).value n := by
  have h2 : 2 ≤ n := by omega
  have hv : ∀ {ds : List ℝ}, ds.length = n → (∀ d ∈ ds, 0 < d) → (ExpStat.harris r).value (ofSpacings 0 ds) =
      .ok ((((ds.take (r.getD (pyRoundDiv n 4))).sum + (ds.drop (n - r.getD (pyRoundDiv n 4))).sum) /
        (2 * (r.getD (pyRoundDiv n 4) : ℕ))) / ((((ds.drop (r.getD (pyRoundDiv n 4))).take
          (n - r.getD (pyRoundDiv n 4) - r.getD (pyRoundDiv n 4))).sum) /
        ((n : ℝ) - 2 * (r.getD (pyRoundDiv n 4) : ℕ)))) := fun {ds} l h => by
    simp only [ExpStat.value, Exponent.harris, length_ofSpacings, l, sort_zero_ofSpacings h, normSpacings_ofSpacings,
      lastSlice, midSlice]
    rw [if_neg (by omega), if_neg (by omega), List.drop_take]
  refine ⟨_, _, _, _, flat_pos, spread_pos, length_flat n, length_spread h2, hv (length_flat n) flat_pos,
    hv (length_spread h2) spread_pos, ?_⟩
  generalize r.getD (pyRoundDiv n 4) = k at hr hn
  have hk : (0 : ℝ) < k := by exact_mod_cast hr
  have hk' : (0 : ℝ) < (n : ℝ) - 2 * k := sub_pos.2 (by exact_mod_cast hn)
  have e1 : (((flat n).drop k).take (n - k - k)).sum = (n : ℝ) - 2 * k := by
    simp only [flat, List.drop_replicate, List.take_replicate, List.sum_replicate, nsmul_eq_mul, mul_one]
    rw [min_eq_left (by omega), Nat.cast_sub (by omega), Nat.cast_sub (by omega)]
    ring
  have e2 : (((spread n).drop k).take (n - k - k)).sum = (n : ℝ) - 2 * k := by
    rw [spread_drop hr]
    simp only [List.take_replicate, List.sum_replicate, nsmul_eq_mul, mul_one]
    rw [min_eq_left (by omega), Nat.cast_sub (by omega), Nat.cast_sub (by omega)]
    ring
  have e3 : ((spread n).drop (n - k)).sum = k := by
    rw [spread_drop (by omega), List.sum_replicate, nsmul_eq_mul, mul_one]
    congr 1
    omega
  rw [e1, e2, e3, sum_take_flat _ _ (by omega), sum_drop_flat _ _ (by omega), spread_take hr (by omega), div_self hk'.ne',
    div_one, div_one, Nat.cast_sub (by omega)]
  intro h
  rw [div_left_inj' (by positivity)] at h
  linarith

/-! ### Criteria whose values have no atoms -/

theorem tells_of_no_ties {f : List ℝ → Except PyErr ℝ} {n : ℕ} (hok : ∀ xs, xs.length = n → ∃ v, f xs = .ok v)
    (h : ∀ c, iid n (expMeasure 1) {x | f (List.ofFn x) = .ok c} = 0) : TellsApart (fun xs => ∀ x ∈ xs, 0 < x) f n := by
  have hp : IsProbabilityMeasure (expMeasure 1) := isProbabilityMeasure_expMeasure one_pos
  have hpos := iid_ae (n := n) (exp_pos (r := 1) one_pos)
  obtain ⟨x, hx⟩ := hpos.exists
  obtain ⟨v, hv⟩ := hok (List.ofFn x) (List.length_ofFn)
  have hne : ∀ᵐ y ∂(iid n (expMeasure 1)), ¬ f (List.ofFn y) = .ok v := by rw [ae_iff]; simpa using h v
  obtain ⟨y, hy, hy'⟩ := (hpos.and hne).exists
  obtain ⟨w, hw⟩ := hok (List.ofFn y) (List.length_ofFn)
  have mem : ∀ {z : Fin n → ℝ}, (∀ i, 0 < z i) → ∀ t ∈ List.ofFn z, 0 < t := fun {z} hz t ht => by
    obtain ⟨i, rfl⟩ := (List.mem_ofFn' _ _).1 ht
    exact hz i
  exact ⟨_, _, v, w, ⟨List.length_ofFn, mem hx⟩, ⟨List.length_ofFn, mem hy⟩, hv, hw, fun e => hy' (e ▸ hw)⟩

instance : NullSingletonClass (expMeasure 1) := by unfold expMeasure; infer_instance

theorem tells_kochar {n : ℕ} (hn : 2 ≤ n) : TellsApart (fun xs => ∀ x ∈ xs, 0 < x) ExpStat.kochar.value n := by
  have hp : IsProbabilityMeasure (expMeasure 1) := isProbabilityMeasure_expMeasure one_pos
  exact tells_of_no_ties (fun xs _ => ⟨_, rfl⟩) fun c => no_ties_kochar hn c

theorem tells_lorenz {n : ℕ} {p : ℝ} (h1 : 1 ≤ ⌊(n : ℝ) * p⌋₊) (h2 : ⌊(n : ℝ) * p⌋₊ < n) :
    TellsApart (fun xs => ∀ x ∈ xs, 0 < x) (ExpStat.lorenz p).value n := by
  have hp : IsProbabilityMeasure (expMeasure 1) := isProbabilityMeasure_expMeasure one_pos
  refine tells_of_no_ties (fun xs hl => ?_) fun c => no_ties_lorenz h1 h2 c
  simp only [ExpStat.value, Exponent.lorenz]
  rw [if_neg (by rintro rfl; simp at hl; omega)]
  exact ⟨_, rfl⟩

/-! ### Rossberg -/

theorem tells_rossberg {n : ℕ} (hn : 3 ≤ n) : TellsApart (fun xs => ∀ x ∈ xs, 0 < x) ExpStat.rossberg.value n := by
  have h2 : 2 ≤ n := by omega
  have hv : ∀ l : List ℝ, l.length = n → ExpStat.rossberg.value l = .ok
      ((∑ m ∈ Finset.range n, 6 * ((n - 3).factorial : ℝ) / n.factorial * rsH l (at_ l m) -
        ∑ m ∈ Finset.range n, 2 * ((n - 2).factorial : ℝ) / n.factorial * rsG l (at_ l m)) / n) := fun l hl => by
    simp only [ExpStat.value, Exponent.rossberg, hl]
    rw [if_neg (by omega), if_neg (by omega)]
  refine tells_flat_spread h2 (hv _ (length_flat n)) (hv _ (length_spread h2)) (ne_of_gt ?_)
  have h0 : (0 : ℝ) < n := by exact_mod_cast (by omega : 0 < n)
  have hH : ∀ m ∈ Finset.range n, rsH (spread n) (at_ (spread n) m) ≤ rsH (flat n) (at_ (flat n) m) := fun m hm => by
    unfold rsH
    rw [length_spread h2, length_flat]
    refine Finset.sum_le_sum fun i hi => Finset.sum_le_sum fun j hj => Finset.sum_le_sum fun k hk => ?_
    have hi := Finset.mem_range.1 hi
    have hj := Finset.mem_Ico.1 hj
    have hk := Finset.mem_Ico.1 hk
    rw [at_flat (by omega), at_flat (by omega), at_flat (by omega), at_flat (Finset.mem_range.1 hm)]
    have : rsCond 1 1 1 1 := by norm_num [rsCond]
    rw [if_pos this]
    split_ifs <;> simp
  have hG : ∀ m ∈ Finset.range n, rsG (flat n) (at_ (flat n) m) = 0 := fun m hm => by
    unfold rsG
    rw [length_flat]
    refine Finset.sum_eq_zero fun i hi => Finset.sum_eq_zero fun j hj => ?_
    have hi := Finset.mem_range.1 hi
    have hj := Finset.mem_Ico.1 hj
    rw [at_flat (by omega), at_flat (by omega), at_flat (Finset.mem_range.1 hm)]
    norm_num
  have hG' : 0 < rsG (spread n) (at_ (spread n) 0) := by
    unfold rsG
    rw [length_spread h2]
    refine Finset.sum_pos' (fun _ _ => Nat.zero_le _) ⟨0, Finset.mem_range.2 (by omega),
      Finset.sum_pos' (fun _ _ => Nat.zero_le _) ⟨1, Finset.mem_Ico.2 ⟨by omega, by omega⟩, ?_⟩⟩
    rw [at_spread (by omega), at_spread (by omega)]
    norm_num
  have s1 : ∑ m ∈ Finset.range n, 6 * ((n - 3).factorial : ℝ) / n.factorial * rsH (spread n) (at_ (spread n) m) ≤
      ∑ m ∈ Finset.range n, 6 * ((n - 3).factorial : ℝ) / n.factorial * rsH (flat n) (at_ (flat n) m) :=
    Finset.sum_le_sum fun m hm => mul_le_mul_of_nonneg_left (by exact_mod_cast hH m hm) (by positivity)
  have s2 : ∑ m ∈ Finset.range n, 2 * ((n - 2).factorial : ℝ) / n.factorial * rsG (flat n) (at_ (flat n) m) = 0 :=
    Finset.sum_eq_zero fun m hm => by rw [hG m hm]; simp
  have s3 : 0 < ∑ m ∈ Finset.range n, 2 * ((n - 2).factorial : ℝ) / n.factorial * rsG (spread n) (at_ (spread n) m) := by
    refine Finset.sum_pos' (fun _ _ => by positivity) ⟨0, Finset.mem_range.2 (by omega), ?_⟩
    have : (0 : ℝ) < rsG (spread n) (at_ (spread n) 0) := by exact_mod_cast hG'
    positivity
  rw [div_lt_div_iff_of_pos_right h0, s2]
  linarith

/-! ### Samples with one large observation -/

/-- `n - 1` observations of 1 and one of `t`. -/
noncomputable def far (n : ℕ) (t : ℝ) : List ℝ := List.replicate (n - 1) 1 ++ [t]

theorem length_far {n : ℕ} (hn : 2 ≤ n) (t : ℝ) : (far n t).length = n := by
  simp only [far, List.length_append, List.length_replicate, List.length_singleton]
  omega

theorem sort_far (n : ℕ) {t : ℝ} (ht : 1 ≤ t) : sort (far n t) = far n t :=
  sort_of_sorted (List.pairwise_append.2 ⟨sorted_replicate _ _, by simp, fun a ha b hb => by
    rw [List.eq_of_mem_replicate ha, List.mem_singleton.1 hb]; exact ht⟩)

theorem far_pos {n : ℕ} {t : ℝ} (ht : 1 ≤ t) : ∀ x ∈ far n t, 0 < x := fun x hx => by
  rcases List.mem_append.1 hx with hx | hx
  · rw [List.eq_of_mem_replicate hx]; exact one_pos
  · rw [List.mem_singleton.1 hx]; linarith

theorem map_far {n : ℕ} (hn : 2 ≤ n) (f : ℝ → ℝ) (t : ℝ) : ((far n t).map f).sum = (n - 1) * f 1 + f t := by
  simp only [far, List.map_append, List.map_replicate, List.sum_append, List.sum_replicate, nsmul_eq_mul, List.map_cons,
    List.map_nil, List.sum_cons, List.sum_nil, add_zero]
  rw [Nat.cast_sub (by omega)]
  push_cast
  ring

theorem mean_far {n : ℕ} (hn : 2 ≤ n) (t : ℝ) : mean (far n t) = ((n : ℝ) - 1 + t) / n := by
  have := map_far hn (fun x => x) t
  rw [List.map_id'] at this
  rw [mean, this, length_far hn, mul_one]

theorem mapIdx_far {n : ℕ} (hn : 2 ≤ n) (g : ℕ → ℝ → ℝ) (t : ℝ) :
    (far n t).mapIdx g = ((List.range (n - 1)).map fun i => g i 1) ++ [g (n - 1) t] := by
  rw [far, List.mapIdx_append]
  congr 1
  · apply List.ext_getElem
    · simp
    · intro i h1 h2; simp
  · simp

theorem tells_far {f : List ℝ → Except PyErr ℝ} {n : ℕ} (hn : 2 ≤ n) {t u v w : ℝ} (ht : 1 ≤ t) (hu : 1 ≤ u)
    (h1 : f (far n t) = .ok v) (h2 : f (far n u) = .ok w) (h : v ≠ w) : TellsApart (fun xs => ∀ x ∈ xs, 0 < x) f n :=
  ⟨_, _, v, w, ⟨length_far hn t, far_pos ht⟩, ⟨length_far hn u, far_pos hu⟩, h1, h2, h⟩

theorem tells_atkinson {n : ℕ} (hn : 2 ≤ n) {p : ℝ} (h0 : 0 < p) (h1 : p < 1) :
    TellsApart (fun xs => ∀ x ∈ xs, 0 < x) (ExpStat.atkinson p).value n := by
  have h2 : (2 : ℝ) ≤ n := by exact_mod_cast hn
  have hn0 : (0 : ℝ) < n := by linarith
  let f : ℝ → ℝ := fun t => (((n : ℝ) - 1 + t ^ p) / n) ^ (1 / p) / (((n : ℝ) - 1 + t) / n)
  let G : ℝ := Real.Gamma (1 + p) ^ (1 / p)
  have hv : ∀ t : ℝ, (ExpStat.atkinson p).value (far n t) = .ok (√n * |f t - G|) := fun t => by
    have hm : mean ((far n t).map fun x => x ^ p) = ((n : ℝ) - 1 + t ^ p) / n := by
      rw [mean, map_far hn, List.length_map, length_far hn, Real.one_rpow, mul_one]
    simp only [ExpStat.value, Exponent.atkinson, hm, mean_far hn, length_far hn]
    rfl
  have f1 : f 1 = 1 := by
    simp only [f, Real.one_rpow]
    rw [show ((n : ℝ) - 1 + 1) / n = 1 by field_simp; ring]
    simp
  have f3 : f 3 < 1 := by
    have w1 : (0 : ℝ) < ((n : ℝ) - 1) / n := div_pos (by linarith) hn0
    have w2 : (0 : ℝ) < 1 / (n : ℝ) := by positivity
    have w3 : ((n : ℝ) - 1) / n + 1 / n = 1 := by field_simp; ring
    have m1 : (1 : ℝ) ∈ Set.Ici (0 : ℝ) := by simp
    have m3 : (3 : ℝ) ∈ Set.Ici (0 : ℝ) := by simp
    have hj := (Real.strictConcaveOn_rpow h0 h1).2 m1 m3 (by norm_num) w1 w2 w3
    simp only [smul_eq_mul, Real.one_rpow, mul_one] at hj
    have e1 : ((n : ℝ) - 1) / n + 1 / n * 3 ^ p = ((n : ℝ) - 1 + 3 ^ p) / n := by ring
    have e2 : ((n : ℝ) - 1) / n + 1 / n * 3 = ((n : ℝ) - 1 + 3) / n := by ring
    rw [e1, e2] at hj
    have hm : (0 : ℝ) < ((n : ℝ) - 1 + 3) / n := div_pos (by linarith) hn0
    have hp3 : (0 : ℝ) < 3 ^ p := by positivity
    have hq : (0 : ℝ) ≤ ((n : ℝ) - 1 + 3 ^ p) / n := div_nonneg (by linarith) hn0.le
    rw [show f 3 = (((n : ℝ) - 1 + 3 ^ p) / n) ^ (1 / p) / (((n : ℝ) - 1 + 3) / n) from rfl, div_lt_one hm]
    have := Real.rpow_lt_rpow hq hj (z := 1 / p) (by positivity)
    rwa [← Real.rpow_mul hm.le, mul_one_div_cancel h0.ne', Real.rpow_one] at this
  have hc : ContinuousOn f (Set.Icc 1 3) := by
    refine ContinuousOn.div ?_ (by fun_prop) fun t ht => ?_
    · refine ContinuousOn.rpow_const ?_ fun t _ => .inr (by positivity)
      refine ContinuousOn.div_const (ContinuousOn.add continuousOn_const ?_) _
      exact ContinuousOn.rpow_const continuousOn_id fun t _ => .inr h0.le
    · have : (0 : ℝ) < ((n : ℝ) - 1 + t) / n := div_pos (by linarith [ht.1]) hn0
      exact this.ne'
  obtain ⟨t, ht, hft⟩ : ∃ t ∈ Set.Icc (1 : ℝ) 3, f t = (1 + f 3) / 2 := by
    have := intermediate_value_Icc' (by norm_num : (1 : ℝ) ≤ 3) hc
    exact this ⟨by linarith, by rw [f1]; linarith⟩
  have hr : (0 : ℝ) < √n := Real.sqrt_pos.2 hn0
  by_cases he : |f 1 - G| = |f 3 - G|
  · refine tells_far hn le_rfl ht.1 (hv 1) (hv t) fun h => ?_
    have h3 := mul_left_cancel₀ hr.ne' h
    rw [f1] at he h3
    have hG : G = (1 + f 3) / 2 := by
      rcases abs_eq_abs.1 he with h | h <;> linarith
    rw [hft, ← hG, sub_self, abs_zero, abs_eq_zero] at h3
    linarith
  · exact tells_far hn le_rfl (by norm_num) (hv 1) (hv 3) fun h => he (mul_left_cancel₀ hr.ne' h)

/-- With a large observation the others are small and it is large, relative to the mean. -/
theorem far_ratios {n : ℕ} (hn : 2 ≤ n) {t : ℝ} (ht : 10 * (n : ℝ) ^ 2 ≤ t) :
    0 < 1 / (((n : ℝ) - 1 + t) / n) ∧ 1 / (((n : ℝ) - 1 + t) / n) ≤ 1 / (10 * n) ∧
    t / (((n : ℝ) - 1 + t) / n) = n - (n - 1) * (1 / (((n : ℝ) - 1 + t) / n)) ∧
    Real.exp (-(t / (((n : ℝ) - 1 + t) / n))) ≤ 1 / (2 * n) := by
  have h2 : (2 : ℝ) ≤ n := by exact_mod_cast hn
  have hd : (0 : ℝ) < (n : ℝ) - 1 + t := by nlinarith
  have z0 : 0 < 1 / (((n : ℝ) - 1 + t) / n) := by positivity
  have z1 : 1 / (((n : ℝ) - 1 + t) / n) ≤ 1 / (10 * n) := by
    rw [one_div_div, div_le_div_iff₀ hd (by positivity)]
    nlinarith
  have e : t / (((n : ℝ) - 1 + t) / n) = n - (n - 1) * (1 / (((n : ℝ) - 1 + t) / n)) := by
    field_simp
    ring
  refine ⟨z0, z1, e, ?_⟩
  have hw : (n : ℝ) - 1 / 10 ≤ t / (((n : ℝ) - 1 + t) / n) := by
    rw [e]
    have : ((n : ℝ) - 1) * (1 / (((n : ℝ) - 1 + t) / n)) ≤ n * (1 / (10 * n)) :=
      mul_le_mul (by linarith) z1 z0.le (by linarith)
    have h3 : (n : ℝ) * (1 / (10 * n)) = 1 / 10 := by field_simp
    linarith
  have hx := Real.quadratic_le_exp_of_nonneg (x := (n : ℝ) - 1 / 10) (by linarith)
  have hx' : (2 * n : ℝ) ≤ Real.exp (t / (((n : ℝ) - 1 + t) / n)) := by
    refine le_trans ?_ (Real.exp_le_exp.2 hw)
    refine le_trans ?_ hx
    nlinarith [sq_nonneg ((n : ℝ) - 11 / 10)]
  rw [Real.exp_neg, ← one_div]
  exact one_div_le_one_div_of_le (by positivity) hx'

theorem one_sub_exp_neg_le (z : ℝ) : 1 - Real.exp (-z) ≤ z := by linarith [Real.add_one_le_exp (-z)]

theorem tells_frozini {n : ℕ} (hn : 2 ≤ n) : TellsApart (fun xs => ∀ x ∈ xs, 0 < x) ExpStat.frozini.value n := by
  have h2 : (2 : ℝ) ≤ n := by exact_mod_cast hn
  have hn0 : (0 : ℝ) < n := by linarith
  have h10 : (40 : ℝ) ≤ 10 * (n : ℝ) ^ 2 := by nlinarith
  let C : ℝ := ∑ i ∈ Finset.range (n - 1), (((i : ℝ) + 1 - 1 / 2) / n - 1)
  let D : ℝ := (((n - 1 : ℕ) : ℝ) + 1 - 1 / 2) / n
  let S : ℝ → ℝ := fun z => C + (n - 1 : ℕ) * Real.exp (-z) + (1 - Real.exp (-(n - (n - 1) * z)) - D)
  have hv : ∀ t : ℝ, 10 * (n : ℝ) ^ 2 ≤ t →
      ExpStat.frozini.value (far n t) = .ok (1 / √n * S (1 / (((n : ℝ) - 1 + t) / n))) := fun t ht => by
    obtain ⟨z0, z1, e, hw⟩ := far_ratios hn ht
    simp only [ExpStat.value, Exponent.frozini, sort_far n (by linarith : (1 : ℝ) ≤ t), mean_far hn, length_far hn]
    rw [mapIdx_far hn (fun i v => |1 - Real.exp (-v / (((n : ℝ) - 1 + t) / n)) - ((i : ℝ) + 1 - 1 / 2) / n|)]
    congr 2
    rw [List.sum_append, List.sum_singleton]
    have s1 : ((List.range (n - 1)).map fun i : ℕ =>
        |1 - Real.exp (-1 / (((n : ℝ) - 1 + t) / n)) - ((i : ℝ) + 1 - 1 / 2) / n|).sum =
        C + (n - 1 : ℕ) * Real.exp (-(1 / (((n : ℝ) - 1 + t) / n))) := by
      change ∑ i ∈ Finset.range (n - 1), _ = _
      rw [Finset.sum_congr rfl fun i _ => ?_]
      rotate_left
      · exact fun i => (((i : ℝ) + 1 - 1 / 2) / n - 1) + Real.exp (-(1 / (((n : ℝ) - 1 + t) / n)))
      · rw [neg_div]
        have h3 := one_sub_exp_neg_le (1 / (((n : ℝ) - 1 + t) / n))
        have h4 : 1 / (2 * (n : ℝ)) ≤ ((i : ℝ) + 1 - 1 / 2) / n := by
          rw [div_le_div_iff₀ (by positivity) hn0]
          nlinarith [Nat.cast_nonneg (α := ℝ) i]
        have h5 : 1 / (10 * (n : ℝ)) ≤ 1 / (2 * n) := one_div_le_one_div_of_le (by positivity) (by linarith)
        rw [abs_of_nonpos (by linarith)]
        ring
      · rw [Finset.sum_add_distrib]
        simp [C]
    have hD : D = 1 - 1 / (2 * n) := by
      simp only [D]
      rw [Nat.cast_sub (by omega)]
      push_cast
      field_simp
      ring
    rw [s1, neg_div, abs_of_nonneg (by
      have : 1 / (2 * (n : ℝ)) = 1 - D := by rw [hD]; ring
      simp only [D] at this
      linarith), e]
  have hS : ∀ z z' : ℝ, z < z' → S z' < S z := fun z z' h => by
    have q1 : Real.exp (-z') < Real.exp (-z) := Real.exp_lt_exp.2 (by linarith)
    have q2 : Real.exp (-(n - (n - 1) * z)) ≤ Real.exp (-(n - (n - 1) * z')) := Real.exp_le_exp.2 (by nlinarith)
    have q3 : (0 : ℝ) < ((n - 1 : ℕ) : ℝ) := by exact_mod_cast (by omega : 0 < n - 1)
    simp only [S]
    nlinarith
  refine tells_far hn (t := 10 * (n : ℝ) ^ 2) (u := 10 * (n : ℝ) ^ 2 + 1) (by linarith) (by linarith) (hv _ le_rfl)
    (hv _ (by linarith)) fun h => ?_
  have h3 := mul_left_cancel₀ (by positivity : (1 / √n : ℝ) ≠ 0) h
  refine (hS _ _ ?_).ne h3
  refine one_div_lt_one_div_of_lt (by apply div_pos _ hn0; linarith) (div_lt_div_of_pos_right (by linarith) hn0)

/-- The angle of Kimber and Michael, as a fraction of a right angle. -/
noncomputable def angle (u : ℝ) : ℝ := 2 / Real.pi * Real.arcsin √u

theorem angle_mono : Monotone angle := fun u v h =>
  mul_le_mul_of_nonneg_left (Real.monotone_arcsin (Real.sqrt_le_sqrt h)) (by positivity)

theorem angle_strict {u v : ℝ} (h0 : 0 ≤ u) (h : u < v) (h1 : v ≤ 1) : angle u < angle v := by
  refine mul_lt_mul_of_pos_left (Real.strictMonoOn_arcsin ?_ ?_ (Real.sqrt_lt_sqrt h0 h)) (by positivity)
  · exact ⟨by linarith [Real.sqrt_nonneg u], Real.sqrt_le_one.2 (by linarith)⟩
  · exact ⟨by linarith [Real.sqrt_nonneg v], Real.sqrt_le_one.2 h1⟩

theorem angle_one : angle 1 = 1 := by
  rw [angle, Real.sqrt_one, Real.arcsin_one]
  field_simp

theorem angle_zero : angle 0 = 0 := by simp [angle]

theorem angle_quarter : angle (1 / 4) = 1 / 3 := by
  rw [angle, show (1 / 4 : ℝ) = (1 / 2) ^ 2 by norm_num, Real.sqrt_sq (by norm_num), ← Real.sin_pi_div_six,
    Real.arcsin_sin (by linarith [Real.pi_pos]) (by linarith [Real.pi_pos])]
  field_simp
  norm_num

theorem angle_three_quarters : angle (3 / 4) = 2 / 3 := by
  rw [angle, show (3 / 4 : ℝ) = (√3 / 2) ^ 2 by rw [div_pow, Real.sq_sqrt (by norm_num)]; norm_num,
    Real.sqrt_sq (by positivity), ← Real.sin_pi_div_three,
    Real.arcsin_sin (by linarith [Real.pi_pos]) (by linarith [Real.pi_pos])]
  field_simp

theorem tells_kimberMichael {n : ℕ} (hn : 2 ≤ n) :
    TellsApart (fun xs => ∀ x ∈ xs, 0 < x) ExpStat.kimberMichael.value n := by
  have h2 : (2 : ℝ) ≤ n := by exact_mod_cast hn
  have hn0 : (0 : ℝ) < n := by linarith
  have h10 : (40 : ℝ) ≤ 10 * (n : ℝ) ^ 2 := by nlinarith
  have hc : Continuous fun z => angle (1 - Real.exp (-z)) := by unfold angle; fun_prop
  have hδ : 0 < 1 - angle (1 - Real.exp (-n)) := by
    have h1 : Real.exp (-(n : ℝ)) < 1 := Real.exp_lt_one_iff.2 (by linarith)
    have := angle_strict (u := 1 - Real.exp (-n)) (v := 1) (by linarith) (by linarith [Real.exp_pos (-(n : ℝ))]) le_rfl
    rw [angle_one] at this
    linarith
  obtain ⟨z₀, hz₀, hz⟩ : ∃ z₀ > 0, ∀ z, 0 < z → z ≤ z₀ → angle (1 - Real.exp (-z)) ≤ 1 - angle (1 - Real.exp (-n)) := by
    have h0 : angle (1 - Real.exp (-0)) < 1 - angle (1 - Real.exp (-n)) := by simpa [angle_zero] using hδ
    have := (hc.continuousAt (x := 0)).eventually (gt_mem_nhds h0)
    obtain ⟨ε, hε, h⟩ := Metric.eventually_nhds_iff.1 this
    refine ⟨ε / 2, by linarith, fun z hz hz' => (h ?_).le⟩
    rw [Real.dist_eq, sub_zero, abs_of_pos hz]
    linarith
  have hv : ∀ t : ℝ, 10 * (n : ℝ) ^ 2 ≤ t → 1 / (((n : ℝ) - 1 + t) / n) ≤ z₀ → ExpStat.kimberMichael.value (far n t) =
      .ok (angle ((((n - 2 : ℕ) : ℝ) + 1 - 1 / 2) / n) - angle (1 - Real.exp (-(1 / (((n : ℝ) - 1 + t) / n))))) := by
    intro t ht htz
    obtain ⟨z0, z1, e, hw⟩ := far_ratios hn ht
    have hs := hz _ z0 htz
    generalize hzd : 1 / (((n : ℝ) - 1 + t) / n) = z at *
    have cle : ∀ i : ℕ, 1 - Real.exp (-z) ≤ ((i : ℝ) + 1 - 1 / 2) / n := fun i => by
      have h3 := one_sub_exp_neg_le z
      have h4 : 1 / (2 * (n : ℝ)) ≤ ((i : ℝ) + 1 - 1 / 2) / n := by
        rw [div_le_div_iff₀ (by positivity) hn0]
        nlinarith [Nat.cast_nonneg (α := ℝ) i]
      have h5 : 1 / (10 * (n : ℝ)) ≤ 1 / (2 * n) := one_div_le_one_div_of_le (by positivity) (by linarith)
      linarith
    simp only [ExpStat.value, Exponent.kimberMichael, sort_far n (by linarith : (1 : ℝ) ≤ t), mean_far hn, length_far hn]
    rw [mapIdx_far hn (fun i v => |2 / Real.pi * Real.arcsin √(((i : ℝ) + 1 - 1 / 2) / n) -
      2 / Real.pi * Real.arcsin √(1 - Real.exp (-(v / (((n : ℝ) - 1 + t) / n))))|)]
    change npMax (((List.range (n - 1)).map fun i : ℕ => |angle (((i : ℝ) + 1 - 1 / 2) / n) -
      angle (1 - Real.exp (-(1 / (((n : ℝ) - 1 + t) / n))))|) ++ [ |angle ((((n - 1 : ℕ) : ℝ) + 1 - 1 / 2) / n) -
      angle (1 - Real.exp (-(t / (((n : ℝ) - 1 + t) / n))))|]) = _
    rw [hzd, npMax_eq_ok]
    have small : ∀ i : ℕ, |angle (((i : ℝ) + 1 - 1 / 2) / n) - angle (1 - Real.exp (-z))| =
        angle (((i : ℝ) + 1 - 1 / 2) / n) - angle (1 - Real.exp (-z)) := fun i =>
      abs_of_nonneg (sub_nonneg.2 (angle_mono (cle i)))
    refine ⟨List.mem_append_left _ (List.mem_map.2 ⟨n - 2, List.mem_range.2 (by omega), small _⟩), fun x hx => ?_⟩
    rcases List.mem_append.1 hx with hx | hx
    · obtain ⟨i, hi, rfl⟩ := List.mem_map.1 hx
      rw [small i]
      refine sub_le_sub_right (angle_mono (div_le_div_of_nonneg_right ?_ hn0.le)) _
      have : (i : ℝ) ≤ ((n - 2 : ℕ) : ℝ) := by
        have := List.mem_range.1 hi
        exact_mod_cast (by omega : i ≤ n - 2)
      linarith
    · rw [List.mem_singleton.1 hx]
      have hD : ((((n - 1 : ℕ) : ℝ)) + 1 - 1 / 2) / n = 1 - 1 / (2 * n) := by
        rw [Nat.cast_sub (by omega)]
        push_cast
        field_simp
        ring
      have hD' : ((((n - 2 : ℕ) : ℝ)) + 1 - 1 / 2) / n = 1 - 3 / (2 * n) := by
        rw [Nat.cast_sub hn]
        push_cast
        field_simp
        ring
      rw [hD, hD']
      have a1 : angle (1 - 1 / (2 * n)) ≤ angle (1 - Real.exp (-(t / (((n : ℝ) - 1 + t) / n)))) :=
        angle_mono (by linarith)
      have a2 : angle (1 - Real.exp (-(t / (((n : ℝ) - 1 + t) / n)))) ≤ angle (1 - Real.exp (-n)) := by
        refine angle_mono ?_
        have : Real.exp (-(n : ℝ)) ≤ Real.exp (-(t / (((n : ℝ) - 1 + t) / n))) := by
          refine Real.exp_le_exp.2 ?_
          rw [e]
          nlinarith
        linarith
      have a3 : 2 / 3 ≤ angle (1 - 1 / (2 * n)) := by
        rw [← angle_three_quarters]
        refine angle_mono ?_
        have : 1 / (2 * (n : ℝ)) ≤ 1 / 4 := one_div_le_one_div_of_le (by norm_num) (by linarith)
        linarith
      have a4 : 1 / 3 ≤ angle (1 - 3 / (2 * n)) := by
        rw [← angle_quarter]
        refine angle_mono ?_
        have : 3 / (2 * (n : ℝ)) ≤ 3 / 4 := by gcongr; linarith
        linarith
      rw [abs_of_nonpos (by linarith)]
      linarith
  let T : ℝ := max (10 * (n : ℝ) ^ 2) (n / z₀)
  have hT : ∀ t, T ≤ t → 10 * (n : ℝ) ^ 2 ≤ t ∧ 1 / (((n : ℝ) - 1 + t) / n) ≤ z₀ := fun t ht => by
    have h3 : 10 * (n : ℝ) ^ 2 ≤ t := (le_max_left _ _).trans ht
    have h4 : n / z₀ ≤ t := (le_max_right _ _).trans ht
    refine ⟨h3, ?_⟩
    rw [one_div_div, div_le_iff₀ (by linarith)]
    rw [div_le_iff₀ hz₀] at h4
    nlinarith
  have t1 := hT T le_rfl
  have t2 := hT (T + 1) (by linarith)
  refine tells_far hn (t := T) (u := T + 1) (by linarith [t1.1]) (by linarith [t1.1]) (hv _ t1.1 t1.2) (hv _ t2.1 t2.2)
    (ne_of_lt (sub_lt_sub_left (angle_strict ?_ ?_ ?_) _))
  · have := (far_ratios hn t2.1).1
    have h3 : Real.exp (-(1 / (((n : ℝ) - 1 + (T + 1)) / n))) ≤ 1 := Real.exp_le_one_iff.2 (by linarith)
    linarith
  · refine sub_lt_sub_left (Real.exp_lt_exp.2 (neg_lt_neg ?_)) _
    refine one_div_lt_one_div_of_lt (by apply div_pos _ hn0; linarith [t1.1]) (div_lt_div_of_pos_right (by linarith) hn0)
  · linarith [Real.exp_pos (-(1 / (((n : ℝ) - 1 + T) / n)))]

/-- When a criterion of exponentiality tells samples of size `n` apart: always from two observations, except that some
need three, or parameters that make sense for the size. -/
def Sighted : ExpStat → ℕ → Prop
  | .hollanderProschan, n | .shapiroWilk, n | .rossberg, n => 3 ≤ n
  | .cvm lam, n => 0 < lam ∧ 2 ≤ n
  | .deshpande b, n => 1 / 3 ≤ b ∧ b < 1 ∧ 2 ≤ n
  | .atkinson p, n => 0 < p ∧ p < 1 ∧ 2 ≤ n
  | .gnedenko r, n => 0 < r.getD (pyRoundDiv n 2) ∧ r.getD (pyRoundDiv n 2) < n
  | .harris r, n => 0 < r.getD (pyRoundDiv n 4) ∧ 2 * r.getD (pyRoundDiv n 4) < n
  | .lorenz p, n => 1 ≤ ⌊(n : ℝ) * p⌋₊ ∧ ⌊(n : ℝ) * p⌋₊ < n
  | _, n => 2 ≤ n

/-- **C96, exponential family**: all criteria. -/
theorem C96_exponential {s : ExpStat} {n : ℕ} (h : Sighted s n) : TellsApart (fun xs => ∀ x ∈ xs, 0 < x) s.value n := by
  cases s with
  | atkinson p => exact tells_atkinson h.2.2 h.1 h.2.1
  | epstein => exact (spaced_epstein h).tells
  | frozini => exact tells_frozini h
  | gnedenko r => exact (spaced_gnedenko h.1 h.2).tells
  | harris r => exact (spaced_harris h.1 h.2).tells
  | kimberMichael => exact tells_kimberMichael h
  | kochar => exact tells_kochar h
  | lorenz p => exact tells_lorenz h.1 h.2
  | rossberg => exact tells_rossberg h
  | hollanderProschan => exact C96_exponential_partial (s := .hollanderProschan) (m := 3) rfl h
  | shapiroWilk => exact C96_exponential_partial (s := .shapiroWilk) (m := 3) rfl h
  | cvm lam => exact C96_exponential_partial (s := .cvm lam) (m := 2) ⟨rfl, h.1⟩ h.2
  | deshpande b => exact C96_exponential_partial (s := .deshpande b) (m := 2) ⟨rfl, h.1, h.2.1⟩ h.2.2
  | ks t => exact C96_exponential_partial (s := .ks t) (m := 2) rfl h
  | wongWong => exact C96_exponential_partial (s := .wongWong) (m := 2) rfl h
  | moran => exact C96_exponential_partial (s := .moran) (m := 2) rfl h
  | gini => exact C96_exponential_partial (s := .gini) (m := 2) rfl h
  | pietra => exact C96_exponential_partial (s := .pietra) (m := 2) rfl h
  | we => exact C96_exponential_partial (s := .we) (m := 2) rfl h
  | coxOakes => exact C96_exponential_partial (s := .coxOakes) (m := 2) rfl h
  | eppsPulley => exact C96_exponential_partial (s := .eppsPulley) (m := 2) rfl h
  | ahsanullah => exact C96_exponential_partial (s := .ahsanullah) (m := 2) rfl h
  | hegazyGreen1 => exact C96_exponential_partial (s := .hegazyGreen1) (m := 2) rfl h
  | hegazyGreen2 => exact C96_exponential_partial (s := .hegazyGreen2) (m := 2) rfl h

/-- The default parameters are among those of `C96_exponential`, from two observations on, for Harris from three. -/
theorem sighted_default {n : ℕ} (hn : 2 ≤ n) : Sighted (.gnedenko none) n ∧ (3 ≤ n → Sighted (.harris none) n) ∧
    Sighted (.lorenz (1 / 2)) n ∧ Sighted (.atkinson (99 / 100)) n ∧ Sighted (.deshpande (44 / 100)) n := by
  have h2 : (2 : ℝ) ≤ n := by exact_mod_cast hn
  refine ⟨?_, fun h3 => ?_, ⟨?_, ?_⟩, ⟨by norm_num, by norm_num, hn⟩, by norm_num, by norm_num, hn⟩
  · simp only [Sighted, Option.getD_none, pyRoundDiv]
    split_ifs <;> omega
  · simp only [Sighted, Option.getD_none, pyRoundDiv]
    split_ifs <;> omega
  · rw [Nat.le_floor_iff (by positivity)]
    push_cast
    linarith
  · rw [Nat.floor_lt (by positivity)]
    linarith

example : TellsApart (fun xs => ∀ x ∈ xs, 0 < x) (ExpStat.atkinson (99 / 100)).value 10 ∧
    TellsApart (fun xs => ∀ x ∈ xs, 0 < x) (ExpStat.harris none).value 10 :=
  ⟨C96_exponential (sighted_default (by norm_num)).2.2.2.1,
    C96_exponential ((sighted_default (by norm_num)).2.1 (by norm_num))⟩

end Pysatl.Props
