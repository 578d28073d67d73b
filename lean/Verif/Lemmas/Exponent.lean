import Verif.Model.Exponent
import Verif.Lemmas.GraphStat
import Verif.Lemmas.Edf

/-! # Lemmas about the exponentiality statistics -/

namespace Pysatl.Exponent

open Pysatl.Decision Pysatl.Graph Pysatl.Edf

/-! ### Loops over indices as sums over lists -/

@[simp] theorem at_cons_zero (a : ℝ) (l : List ℝ) : at_ (a :: l) 0 = a := rfl

@[simp] theorem at_cons_succ (a : ℝ) (l : List ℝ) (i : ℕ) : at_ (a :: l) (i + 1) = at_ l i := rfl

theorem sum_at {M : Type} [AddCommMonoid M] (f : ℝ → M) : ∀ l : List ℝ,
    ∑ i ∈ Finset.range l.length, f (at_ l i) = (l.map f).sum
  | [] => rfl
  | a :: l => by
    rw [List.length_cons, Finset.sum_range_succ', List.map_cons, List.sum_cons, ← sum_at f l]
    simp [add_comm]

/-- Sum over unordered pairs. -/
def pairSum {α M : Type} [AddCommMonoid M] (g : α → α → M) : List α → M
  | [] => 0
  | a :: l => (l.map (g a)).sum + pairSum g l

/-- Sum over unordered triples. -/
def tripleSum (g : ℝ → ℝ → ℝ → ℕ) : List ℝ → ℕ
  | [] => 0
  | a :: l => pairSum (g a) l + tripleSum g l

theorem pairSum_perm {α M : Type} [AddCommMonoid M] {g : α → α → M} (hg : ∀ a b, g a b = g b a) {xs ys : List α}
    (h : xs.Perm ys) : pairSum g xs = pairSum g ys := by
  induction h with
  | nil => rfl
  | cons a h ih => simp only [pairSum, ih, (h.map (g a)).sum_eq]
  | swap a b l => simp only [pairSum, List.map_cons, List.sum_cons, hg a b]; ac_rfl
  | trans _ _ ih1 ih2 => exact ih1.trans ih2

theorem tripleSum_perm {g : ℝ → ℝ → ℝ → ℕ} (h1 : ∀ a b c, g a b c = g b a c)
    (h2 : ∀ a b c, g a b c = g a c b) {xs ys : List ℝ}
    (h : xs.Perm ys) : tripleSum g xs = tripleSum g ys := by
  induction h with
  | nil => rfl
  | cons a h ih => simp only [tripleSum, ih, pairSum_perm (h2 a) h]
  | swap a b l =>
    have : g a b = g b a := funext fun c => h1 a b c
    simp only [tripleSum, pairSum, this]; ring
  | trans _ _ ih1 ih2 => exact ih1.trans ih2

theorem sum_pair (g : ℝ → ℝ → ℕ) : ∀ l : List ℝ,
    (∑ i ∈ Finset.range l.length, ∑ j ∈ Finset.range l.length,
      if i < j then g (at_ l i) (at_ l j) else 0) = pairSum g l
  | [] => rfl
  | a :: l => by
    rw [List.length_cons, Finset.sum_range_succ', pairSum, ← sum_pair g l, ← sum_at (g a) l,
      add_comm]
    congr 1
    · rw [Finset.sum_range_succ']; simp
    · refine Finset.sum_congr rfl fun i _ => ?_
      rw [Finset.sum_range_succ']; simp

theorem sum_triple (g : ℝ → ℝ → ℝ → ℕ) : ∀ l : List ℝ,
    (∑ i ∈ Finset.range l.length, ∑ j ∈ Finset.range l.length, ∑ k ∈ Finset.range l.length,
      if i < j ∧ j < k then g (at_ l i) (at_ l j) (at_ l k) else 0) = tripleSum g l
  | [] => rfl
  | a :: l => by
    rw [List.length_cons, Finset.sum_range_succ', tripleSum, ← sum_triple g l, ← sum_pair (g a) l,
      add_comm]
    congr 1
    · rw [Finset.sum_range_succ']
      simp only [at_cons_zero, at_cons_succ, lt_self_iff_false, false_and, if_false,
        Finset.sum_const_zero, add_zero]
      refine Finset.sum_congr rfl fun j _ => ?_
      rw [Finset.sum_range_succ']; simp
    · refine Finset.sum_congr rfl fun i _ => ?_
      rw [Finset.sum_range_succ']
      simp only [at_cons_succ, Nat.not_lt_zero, false_and, if_false,
        Finset.sum_const_zero, add_zero]
      refine Finset.sum_congr rfl fun j _ => ?_
      rw [Finset.sum_range_succ']; simp

theorem sum_Ico_eq (f : ℕ → ℕ) {i n m : ℕ} (h : n ≤ m) (h0 : ∀ j, n ≤ j → j < m → f j = 0) :
    ∑ j ∈ Finset.Ico (i + 1) n, f j = ∑ j ∈ Finset.range m, if i < j then f j else 0 := by
  rw [← Finset.sum_filter]
  refine Finset.sum_subset (fun j hj => ?_) (fun j hj hj' => ?_)
  · simp only [Finset.mem_Ico, Finset.mem_filter, Finset.mem_range] at *; omega
  · simp only [Finset.mem_Ico, Finset.mem_filter, Finset.mem_range] at *
    exact h0 j (by omega) (by omega)

theorem rsG_eq (l : List ℝ) (m : ℝ) :
    rsG l m = pairSum (fun a b => if min a b < m then 1 else 0) l := by
  rw [← sum_pair, rsG]
  have hz : ∀ i, l.length - 1 ≤ i → (∑ j ∈ Finset.range l.length,
      if i < j then (if min (at_ l i) (at_ l j) < m then 1 else 0) else 0) = 0 := by
    intro i hi
    refine Finset.sum_eq_zero fun j hj => if_neg ?_
    have := Finset.mem_range.1 hj; omega
  rw [← Finset.sum_subset (Finset.range_mono (Nat.sub_le _ 1)) (fun i _ hi =>
    hz i (by simpa using hi))]
  exact Finset.sum_congr rfl fun i _ => sum_Ico_eq _ le_rfl (by omega)

theorem rsH_eq (l : List ℝ) (m : ℝ) :
    rsH l m = tripleSum (fun a b c => if rsCond a b c m then 1 else 0) l := by
  rw [← sum_triple, rsH]
  have key : ∀ i, (∑ j ∈ Finset.Ico (i + 1) (l.length - 1), ∑ k ∈ Finset.Ico (j + 1) l.length,
      if rsCond (at_ l i) (at_ l j) (at_ l k) m then 1 else 0) =
      ∑ j ∈ Finset.range l.length, ∑ k ∈ Finset.range l.length,
        if i < j ∧ j < k then (if rsCond (at_ l i) (at_ l j) (at_ l k) m then 1 else 0) else 0 := by
    intro i
    rw [sum_Ico_eq (m := l.length) _ (Nat.sub_le _ 1) (fun j h1 h2 => by
      rw [Finset.Ico_eq_empty (by omega)]; rfl)]
    refine Finset.sum_congr rfl fun j _ => ?_
    by_cases hij : i < j
    · rw [if_pos hij, sum_Ico_eq _ le_rfl (by omega)]
      simp [hij]
    · simp [hij]
  have hz : ∀ i, l.length - 2 ≤ i → i < l.length → (∑ j ∈ Finset.range l.length,
      ∑ k ∈ Finset.range l.length,
      if i < j ∧ j < k then (if rsCond (at_ l i) (at_ l j) (at_ l k) m then 1 else 0) else 0) = 0 := by
    intro i hi hi'
    refine Finset.sum_eq_zero fun j hj => Finset.sum_eq_zero fun k hk => if_neg ?_
    have := Finset.mem_range.1 hj
    have := Finset.mem_range.1 hk; omega
  rw [← Finset.sum_subset (Finset.range_mono (Nat.sub_le _ 2)) (fun i hi hi' =>
    hz i (by simpa using hi') (by simpa using hi))]
  exact Finset.sum_congr rfl fun i _ => key i

theorem desCount_add (b : ℝ) (l : List ℝ) :
    desCount b l + (l.map fun x => if b * x < x then 1 else 0).sum =
      (l.map fun x => (l.map fun y => if b * y < x then 1 else 0).sum).sum := by
  rw [← sum_at, ← sum_at, desCount, ← Finset.sum_add_distrib]
  refine Finset.sum_congr rfl fun i hi => ?_
  rw [← sum_at]
  have : (if b * at_ l i < at_ l i then 1 else 0) =
      ∑ k ∈ Finset.range l.length, if k = i then (if b * at_ l k < at_ l i then 1 else 0) else 0 := by
    rw [Finset.sum_ite_eq' _ i, if_pos hi]
  rw [this, ← Finset.sum_add_distrib]
  refine Finset.sum_congr rfl fun k _ => ?_
  by_cases h : k = i
  · subst h; simp
  · have : i ≠ k := fun e => h e.symm
    simp [h, this]

theorem hpCount_add (l : List ℝ) :
    hpCount l + pairSum (fun y z => (if y + z < y then 1 else 0) + (if y + z < z then 1 else 0)) l =
      (l.map fun x => pairSum (fun y z => if y + z < x then 1 else 0) l).sum := by
  have h1 : (l.map fun x => pairSum (fun y z => if y + z < x then 1 else 0) l).sum =
      ∑ j ∈ Finset.range l.length, ∑ k ∈ Finset.range l.length,
        ∑ i ∈ Finset.range l.length,
          if j < k then (if at_ l j + at_ l k < at_ l i then 1 else 0) else 0 := by
    rw [← sum_at (fun x => pairSum (fun y z => if y + z < x then 1 else 0) l)]
    simp only [← sum_pair]
    rw [Finset.sum_comm]
    exact Finset.sum_congr rfl fun j _ => Finset.sum_comm
  have h2 : hpCount l = ∑ j ∈ Finset.range l.length, ∑ k ∈ Finset.range l.length,
      ∑ i ∈ Finset.range l.length,
        if i ≠ j ∧ i ≠ k ∧ j < k ∧ at_ l j + at_ l k < at_ l i then 1 else 0 := by
    rw [hpCount, Finset.sum_comm]
    exact Finset.sum_congr rfl fun j _ => Finset.sum_comm
  rw [h1, h2, ← sum_pair, ← Finset.sum_add_distrib]
  refine Finset.sum_congr rfl fun j hj => ?_
  rw [← Finset.sum_add_distrib]
  refine Finset.sum_congr rfl fun k hk => ?_
  by_cases hjk : j < k
  swap
  · simp [hjk]
  have ej : (if at_ l j + at_ l k < at_ l j then 1 else 0) =
      ∑ i ∈ Finset.range l.length,
        if i = j then (if at_ l j + at_ l k < at_ l i then 1 else 0) else 0 := by
    rw [Finset.sum_ite_eq' _ j, if_pos hj]
  have ek : (if at_ l j + at_ l k < at_ l k then 1 else 0) =
      ∑ i ∈ Finset.range l.length,
        if i = k then (if at_ l j + at_ l k < at_ l i then 1 else 0) else 0 := by
    rw [Finset.sum_ite_eq' _ k, if_pos hk]
  rw [if_pos hjk, ej, ek, ← Finset.sum_add_distrib, ← Finset.sum_add_distrib]
  refine Finset.sum_congr rfl fun i _ => ?_
  by_cases h1 : i = j
  · subst h1
    have : i ≠ k := by omega
    simp [hjk, this]
  · by_cases h2 : i = k
    · subst h2; simp [hjk, h1]
    · simp [h1, h2, hjk]

theorem ahsH_eq (l : List ℝ) : ahsH l = (l.map fun z => (l.map fun x => (l.map fun y =>
    if |x - y| < z then 1 else 0).sum).sum).sum := by
  rw [ahsH, ← sum_at]
  refine Finset.sum_congr rfl fun k _ => ?_
  rw [← sum_at]
  exact Finset.sum_congr rfl fun i _ => sum_at (fun y => if |at_ l i - y| < at_ l k then 1 else 0) l

theorem ahsG_eq (l : List ℝ) : ahsG l = (l.map fun z => (l.map fun x => (l.map fun y =>
    if 2 * min x y < z then 1 else 0).sum).sum).sum := by
  rw [ahsG, ← sum_at]
  refine Finset.sum_congr rfl fun k _ => ?_
  rw [← sum_at]
  exact Finset.sum_congr rfl fun i _ => sum_at (fun y => if 2 * min (at_ l i) y < at_ l k then 1 else 0) l

theorem map_sum_perm {M : Type} [AddCommMonoid M] {xs ys : List ℝ} (h : xs.Perm ys) {f g : ℝ → M}
    (hfg : ∀ x, f x = g x) :
    (xs.map f).sum = (ys.map g).sum := by
  rw [(h.map f).sum_eq, funext hfg]

theorem ahsH_perm {xs ys : List ℝ} (h : xs.Perm ys) : ahsH xs = ahsH ys := by
  rw [ahsH_eq, ahsH_eq]
  exact map_sum_perm h fun z => map_sum_perm h fun x => map_sum_perm h fun y => rfl

theorem ahsG_perm {xs ys : List ℝ} (h : xs.Perm ys) : ahsG xs = ahsG ys := by
  rw [ahsG_eq, ahsG_eq]
  exact map_sum_perm h fun z => map_sum_perm h fun x => map_sum_perm h fun y => rfl

theorem desCount_perm (b : ℝ) {xs ys : List ℝ} (h : xs.Perm ys) :
    desCount b xs = desCount b ys := by
  have h1 := desCount_add b xs
  have h2 := desCount_add b ys
  have e1 := map_sum_perm h (f := fun x => if b * x < x then 1 else 0) fun x => rfl
  have e2 := map_sum_perm h (f := fun x => (xs.map fun y => if b * y < x then 1 else 0).sum)
    (g := fun x => (ys.map fun y => if b * y < x then 1 else 0).sum) fun x =>
      map_sum_perm h fun y => rfl
  omega

theorem hpCount_perm {xs ys : List ℝ} (h : xs.Perm ys) : hpCount xs = hpCount ys := by
  have h1 := hpCount_add xs
  have h2 := hpCount_add ys
  have e1 := pairSum_perm (g := fun y z : ℝ => (if y + z < y then 1 else 0) + (if y + z < z then 1 else 0))
    (fun a b => by rw [add_comm a b, add_comm]) h
  have e2 := map_sum_perm h
    (f := fun x => pairSum (fun y z : ℝ => if y + z < x then 1 else 0) xs)
    (g := fun x => pairSum (fun y z : ℝ => if y + z < x then 1 else 0) ys) fun x =>
      pairSum_perm (fun a b => by rw [add_comm a b]) h
  omega

theorem rsG_perm {xs ys : List ℝ} (h : xs.Perm ys) (m : ℝ) : rsG xs m = rsG ys m := by
  rw [rsG_eq, rsG_eq]
  exact pairSum_perm (fun a b => by rw [min_comm]) h

theorem rsCond_swap12 (a b c m : ℝ) : rsCond a b c m ↔ rsCond b a c m := by
  rw [rsCond, rsCond, min_comm a b, max_comm a b, add_comm a b]

theorem rsCond_swap23 (a b c m : ℝ) : rsCond a b c m ↔ rsCond a c b m := by
  rw [rsCond, rsCond, min_right_comm a b c, max_right_comm a b c, add_right_comm a b c]

theorem rsH_perm {xs ys : List ℝ} (h : xs.Perm ys) (m : ℝ) : rsH xs m = rsH ys m := by
  rw [rsH_eq, rsH_eq]
  refine tripleSum_perm (fun a b c => ?_) (fun a b c => ?_) h
  · simp only [rsCond_swap12 a b c]
  · simp only [rsCond_swap23 a b c]

theorem mean_perm {xs ys : List ℝ} (h : xs.Perm ys) : mean xs = mean ys := by
  rw [mean, mean, h.sum_eq, h.length_eq]

theorem variance_perm {xs ys : List ℝ} (h : xs.Perm ys) : variance xs = variance ys := by
  rw [variance, variance, mean_perm h, (h.map _).sum_eq, h.length_eq]

theorem npMax_perm {xs ys : List ℝ} (h : xs.Perm ys) : npMax xs = npMax ys := by
  by_cases hx : xs = []
  · subst hx; rw [List.nil_perm.1 h]
  · obtain ⟨m, hm⟩ := npMax_exists hx
    rw [hm, eq_comm, npMax_eq_ok]
    rw [npMax_eq_ok] at hm
    exact ⟨h.mem_iff.1 hm.1, fun x hx => hm.2 x (h.mem_iff.2 hx)⟩

theorem pyMin_eq_ok {l : List ℝ} {m : ℝ} : pyMin l = .ok m ↔ m ∈ l ∧ ∀ x ∈ l, m ≤ x := by
  rw [pyMin, ← List.min?_eq_some_iff (xs := l)]
  cases l.min? <;> simp

theorem pyMin_exists {l : List ℝ} (h : l ≠ []) : ∃ m, pyMin l = .ok m := by
  rw [pyMin]
  cases hl : l.min? with
  | none => rw [List.min?_eq_none_iff] at hl; exact absurd hl h
  | some a => exact ⟨a, rfl⟩

theorem pyMin_perm {xs ys : List ℝ} (h : xs.Perm ys) : pyMin xs = pyMin ys := by
  by_cases hx : xs = []
  · subst hx; rw [List.nil_perm.1 h]
  · obtain ⟨m, hm⟩ := pyMin_exists hx
    rw [hm, eq_comm, pyMin_eq_ok]
    rw [pyMin_eq_ok] at hm
    exact ⟨h.mem_iff.1 hm.1, fun x hx => hm.2 x (h.mem_iff.2 hx)⟩

/-! ### Scaling -/

theorem at_scale (c : ℝ) (l : List ℝ) (i : ℕ) : at_ (l.map (c * ·)) i = c * at_ l i := by
  rw [at_, at_, List.getD_eq_getElem?_getD, List.getD_eq_getElem?_getD, List.getElem?_map]
  cases l[i]? <;> simp

theorem sum_scale (c : ℝ) : ∀ l : List ℝ, (l.map (c * ·)).sum = c * l.sum
  | [] => by simp
  | a :: l => by simp [sum_scale c l, mul_add]

theorem mean_scale (c : ℝ) (l : List ℝ) : mean (l.map (c * ·)) = c * mean l := by
  rw [mean, mean, sum_scale, List.length_map, mul_div_assoc]

theorem sort_scale {c : ℝ} (hc : 0 < c) (l : List ℝ) :
    sort (l.map (c * ·)) = (sort l).map (c * ·) := by
  refine List.Perm.eq_of_pairwise (le := (· ≤ ·)) (fun a b _ _ h1 h2 => le_antisymm h1 h2)
    (sort_pairwise _) ?_ ((sort_perm _).trans ((sort_perm l).map _).symm)
  rw [List.pairwise_map]
  exact (sort_pairwise l).imp fun h => mul_le_mul_of_nonneg_left h hc.le

theorem npDiff_scale (c : ℝ) : ∀ l : List ℝ, npDiff (l.map (c * ·)) = (npDiff l).map (c * ·)
  | [] => rfl
  | [_] => rfl
  | a :: b :: l => by
    have := npDiff_scale c (b :: l)
    simp only [List.map_cons] at this
    simp only [List.map_cons, npDiff, this, mul_sub]

theorem normSpacings_scale (c : ℝ) (l : List ℝ) :
    normSpacings (l.map (c * ·)) = (normSpacings l).map (c * ·) := by
  rw [normSpacings, normSpacings, npDiff_scale, List.length_map]
  refine List.ext_getElem (by simp) fun i h1 h2 => ?_
  simp only [List.getElem_mapIdx, List.getElem_map]; ring

theorem npMax_scale {c : ℝ} (hc : 0 < c) {l : List ℝ} {m : ℝ} (h : npMax l = .ok m) :
    npMax (l.map (c * ·)) = .ok (c * m) := by
  rw [npMax_eq_ok] at *
  refine ⟨List.mem_map.2 ⟨m, h.1, rfl⟩, fun x hx => ?_⟩
  obtain ⟨y, hy, rfl⟩ := List.mem_map.1 hx
  exact mul_le_mul_of_nonneg_left (h.2 y hy) hc.le

theorem pyMin_scale {c : ℝ} (hc : 0 < c) {l : List ℝ} {m : ℝ} (h : pyMin l = .ok m) :
    pyMin (l.map (c * ·)) = .ok (c * m) := by
  rw [pyMin_eq_ok] at *
  refine ⟨List.mem_map.2 ⟨m, h.1, rfl⟩, fun x hx => ?_⟩
  obtain ⟨y, hy, rfl⟩ := List.mem_map.1 hx
  exact mul_le_mul_of_nonneg_left (h.2 y hy) hc.le

/-! ### Meaning and range -/

theorem sum_tail_diff : ∀ (a : ℝ) (l : List ℝ),
    ((npDiff (a :: l)).mapIdx fun i d => ((l.length - i : ℕ) : ℝ) * d).sum =
      (l.map fun y => y - a).sum
  | a, [] => by simp [npDiff]
  | a, b :: l => by
    have ih := sum_tail_diff b l
    rw [npDiff, List.mapIdx_cons, List.sum_cons]
    simp only [List.length_cons, Nat.add_sub_add_right]
    rw [ih, List.map_cons, List.sum_cons]
    have : ∀ l : List ℝ, (l.map fun y => y - a).sum =
        (l.map fun y => y - b).sum + l.length * (b - a) := fun l => by
      induction l with
      | nil => simp
      | cons c l ih => simp only [List.map_cons, List.sum_cons, ih, List.length_cons]; push_cast; ring
    rw [this l]; push_cast; ring

theorem sum_normSpacings_zero (l : List ℝ) : (normSpacings (0 :: l)).sum = l.sum := by
  have := sum_tail_diff 0 l
  simpa [normSpacings] using this

theorem sum_pair_diff : ∀ l : List ℝ,
    ((npDiff l).mapIdx fun i k => k * (((i : ℝ) + 1) * ((l.length - 1 - i : ℕ) : ℝ))).sum =
      pairSum (fun x y => y - x) l
  | [] => by simp [npDiff, pairSum]
  | [a] => by simp [npDiff, pairSum]
  | a :: b :: l => by
    have ih := sum_pair_diff (b :: l)
    have ht := sum_tail_diff b l
    have hh := sum_tail_diff a (b :: l)
    rw [pairSum, ← ih, ← hh]
    rw [npDiff, List.mapIdx_cons, List.mapIdx_cons, List.sum_cons, List.sum_cons]
    simp only [List.length_cons, Nat.add_sub_add_right, Nat.add_sub_cancel]
    rw [add_assoc]
    congr 1
    · push_cast; ring
    · have : ∀ (d : List ℝ) (n : ℕ),
        (d.mapIdx fun i k => k * (((i + 1 : ℕ) : ℝ) + 1) * (((n - i : ℕ)) : ℝ)).sum =
        (d.mapIdx fun i k => ((n - i : ℕ) : ℝ) * k).sum +
        (d.mapIdx fun i k => k * (((i : ℝ) + 1) * ((n - i : ℕ) : ℝ))).sum := fun d n => by
        rw [sum_mapIdx, sum_mapIdx, sum_mapIdx, ← Finset.sum_add_distrib]
        exact Finset.sum_congr rfl fun i _ => by push_cast; ring
      rw [← this]
      simp only [mul_assoc]

theorem pairSum_congr {M : Type} [AddCommMonoid M] {R : ℝ → ℝ → Prop} {g g' : ℝ → ℝ → M}
    (hg : ∀ a b, R a b → g a b = g' a b) : ∀ {l : List ℝ}, l.Pairwise R → pairSum g l = pairSum g' l
  | [], _ => rfl
  | a :: l, h => by
    rw [List.pairwise_cons] at h
    rw [pairSum, pairSum, pairSum_congr hg h.2,
      List.map_congr_left fun b hb => hg a b (h.1 b hb)]

theorem pairSum_le {M : Type} [AddCommMonoid M] [PartialOrder M] [IsOrderedAddMonoid M]
    {P : ℝ → Prop} {g g' : ℝ → ℝ → M} (hg : ∀ a b, P a → P b → g a b ≤ g' a b) :
    ∀ {l : List ℝ}, (∀ x ∈ l, P x) → pairSum g l ≤ pairSum g' l
  | [], _ => le_rfl
  | a :: l, h => by
    refine add_le_add (List.sum_le_sum fun b hb => ?_) (pairSum_le hg fun x hx => h x (by simp [hx]))
    exact hg a b (h a (by simp)) (h b (by simp [hb]))

theorem pairSum_add : ∀ l : List ℝ, pairSum (fun x y : ℝ => x + y) l = ((l.length : ℝ) - 1) * l.sum
  | [] => by simp [pairSum]
  | a :: l => by
    have : ∀ l : List ℝ, (l.map fun y => a + y).sum = l.length * a + l.sum := fun l => by
      induction l with
      | nil => simp
      | cons c l ih => simp only [List.map_cons, List.sum_cons, ih, List.length_cons]; push_cast; ring
    rw [pairSum, pairSum_add l, this, List.length_cons, List.sum_cons]; push_cast; ring

theorem pairSum_one : ∀ l : List ℝ, 2 * pairSum (fun _ _ : ℝ => 1) l = l.length * (l.length - 1)
  | [] => rfl
  | a :: l => by
    rw [pairSum, mul_add, pairSum_one l, List.length_cons, Nat.add_sub_cancel]
    simp only [List.map_const', List.sum_replicate, smul_eq_mul, mul_one]
    rcases l.length with _ | n
    · rfl
    · rw [Nat.add_sub_cancel]; ring

theorem tripleSum_one : ∀ l : List ℝ,
    6 * tripleSum (fun _ _ _ : ℝ => 1) l = l.length * (l.length - 1) * (l.length - 2)
  | [] => rfl
  | a :: l => by
    rw [tripleSum, mul_add, tripleSum_one l, show 6 = 3 * 2 from rfl, mul_assoc, pairSum_one,
      List.length_cons]
    rcases l.length with _ | _ | n
    · rfl
    · rfl
    · simp only [Nat.add_sub_cancel, Nat.reduceSubDiff]; ring

theorem tripleSum_le {g g' : ℝ → ℝ → ℝ → ℕ} (hg : ∀ a b c, g a b c ≤ g' a b c) :
    ∀ l : List ℝ, tripleSum g l ≤ tripleSum g' l
  | [] => le_rfl
  | a :: l => add_le_add (pairSum_le (P := fun _ => True) (fun b c _ _ => hg a b c) (by simp))
      (tripleSum_le hg l)

end Pysatl.Exponent
