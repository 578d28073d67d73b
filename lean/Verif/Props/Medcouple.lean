import Verif.Lemmas.Medcouple
import Verif.Spec.Medcouple

/-! # The Brys-Hubert-Struyf statistic -/

namespace Pysatl.Props

open Pysatl.Graph Pysatl.Medcouple Pysatl.Spec

variable {K : Type} [Field K] [LinearOrder K] [IsStrictOrderedRing K]

/-- An ascending list with gaps larger than `B / 10 ^ 15` within `[-B, B]`. -/
structure Spaced (B : K) (u : List K) : Prop where
  one_le : 1 ≤ B
  bound : ∀ i, |u.getD i 0| ≤ B
  gap : ∀ i j, i < j → j < u.length → u.getD i 0 + B / 10 ^ 15 < u.getD j 0

theorem spaced_sort {B : K} {z : List K} (hB : 1 ≤ B) (hb : ∀ v ∈ z, |v| ≤ B)
    (hp : z.Pairwise fun a b => B / 10 ^ 15 < |a - b|) : Spaced B (sort z) := by
  refine ⟨hB, ?_, ?_⟩
  · intro i
    rcases Nat.lt_or_ge i (sort z).length with h | h
    · rw [List.getD_eq_getElem _ _ h]
      exact hb _ ((sort_perm z).mem_iff.1 (List.getElem_mem h))
    · rw [List.getD_eq_default _ _ h, abs_zero]; linarith
  · intro i j hij hj
    have h1 : (sort z).Pairwise fun a b => B / 10 ^ 15 < |a - b| :=
      ((sort_perm z).pairwise_iff (fun {a b} h => by rwa [abs_sub_comm])).2 hp
    have h2 := List.pairwise_iff_getElem.1 h1 i j (by omega) hj hij
    have h3 := List.pairwise_iff_getElem.1 (sort_pairwise z) i j (by omega) hj hij
    rw [List.getD_eq_getElem _ _ (by omega), List.getD_eq_getElem _ _ hj]
    rw [abs_sub_comm, abs_of_nonneg (sub_nonneg.2 h3)] at h2
    linarith

theorem Spaced.step {B : K} {u : List K} (h : Spaced B u) : 0 < B / 10 ^ 15 :=
  div_pos (lt_of_lt_of_le one_pos h.one_le) (by positivity)

theorem Spaced.mono {B : K} {u : List K} (h : Spaced B u) {i j : ℕ} (hij : i ≤ j) (hj : j < u.length) :
    u.getD i 0 ≤ u.getD j 0 := by
  rcases hij.lt_or_eq with h1 | rfl
  · have := h.gap i j h1 hj; have := h.step; linarith
  · exact le_rfl

/-- Below the median. -/
theorem Spaced.below {B : K} {u : List K} (h : Spaced B u) (h5 : 2 ≤ u.length) {i : ℕ}
    (hi : i < u.length / 2) : u.getD i 0 + B / 10 ^ 15 / 2 < Medcouple.median u := by
  have hs := h.step
  unfold Medcouple.median
  dsimp only
  split_ifs with ho
  · have := h.gap i (u.length / 2) hi (by omega); linarith
  · have h1 := h.mono (i := i) (j := u.length / 2 - 1) (by omega) (by omega)
    have h2 := h.gap (u.length / 2 - 1) (u.length / 2) (by omega) (by omega)
    linarith

/-- Above the median. -/
theorem Spaced.above {B : K} {u : List K} (h : Spaced B u) (h5 : 2 ≤ u.length) {i : ℕ}
    (hi : u.length / 2 + u.length % 2 ≤ i) (hl : i < u.length) :
    Medcouple.median u + B / 10 ^ 15 / 2 < u.getD i 0 := by
  have hs := h.step
  unfold Medcouple.median
  dsimp only
  split_ifs with ho
  · have := h.gap (u.length / 2) i (by omega) hl; linarith
  · have h1 := h.mono (i := u.length / 2) (j := i) (by omega) (by omega)
    have h2 := h.gap (u.length / 2 - 1) (u.length / 2) (by omega) (by omega)
    linarith

theorem Spaced.median_bound {B : K} {u : List K} (h : Spaced B u) : |Medcouple.median u| ≤ B := by
  unfold Medcouple.median
  dsimp only
  split_ifs
  · exact h.bound _
  · have h1 := abs_le.1 (h.bound (u.length / 2 - 1))
    have h2 := abs_le.1 (h.bound (u.length / 2))
    rw [abs_le]
    constructor <;> linarith

theorem headD_getD (u : List K) : u.headD 0 = u.getD 0 0 := by cases u <;> rfl

theorem getLastD_getD (u : List K) : u.getLastD 0 = u.getD (u.length - 1) 0 := by
  rw [List.getLastD_eq_getLast?, List.getLast?_eq_getElem?, List.getD_eq_getElem?_getD]

/-- What `prepare` hands to the table for a well separated sample. -/
theorem prepare_spread {B : K} {z : List K} (h : Spaced B (sort (z.map fun v => -v))) (h4 : 4 ≤ z.length) :
    ∃ den : K, den < 0 ∧
      prepare z = .inr ((sort (z.map fun v => -v)).map
        (fun v => (v - Medcouple.median (sort (z.map fun v => -v))) / den),
        Medcouple.median (sort (z.map fun v => -v)) / den) ∧
      Spread ((sort (z.map fun v => -v)).map
        (fun v => (v - Medcouple.median (sort (z.map fun v => -v))) / den))
        (Medcouple.median (sort (z.map fun v => -v)) / den) := by
  have hlen : (sort (z.map fun v => -v)).length = z.length := by
    rw [(sort_perm _).length_eq, List.length_map]
  unfold prepare
  generalize sort (z.map fun v => -v) = u at h hlen ⊢
  dsimp only
  rw [headD_getD, getLastD_getD]
  have hF := h.below (by omega) (i := 0) (by omega)
  have hL := h.above (by omega) (i := u.length - 1) (by omega) (by omega)
  have hmB := h.median_bound
  have hFB := abs_le.1 (h.bound 0)
  have hLB := abs_le.1 (h.bound (u.length - 1))
  have hbelow := fun i (hi : i < u.length / 2) => h.below (by omega) hi
  have habove := fun i hi hl => h.above (i := i) (by omega) hi hl
  have hodd : u.length % 2 = 1 → u.getD (u.length / 2) 0 = Medcouple.median u := by
    intro ho; unfold Medcouple.median; simp [ho]
  have hB := h.one_le
  generalize Medcouple.median u = med at *
  have hmB' := abs_le.1 hmB
  have hkey : ∀ c : K, c ≤ 4 * B → eps0 * (eps0 * c + |med|) < B / 10 ^ 15 / 2 := by
    intro c hc
    have e0 := eps0_pos (K := K)
    have h1 : eps0 * (eps0 * c + |med|) ≤ eps0 * (eps0 * (4 * B) + B) := by gcongr
    have h2 : (eps0 : K) * (eps0 * 4 + 1) < 1 / 10 ^ 15 / 2 := by unfold eps0; norm_num
    have h3 : eps0 * (eps0 * (4 * B) + B) = eps0 * (eps0 * 4 + 1) * B := by ring
    have h4 : B / 10 ^ 15 / 2 = 1 / 10 ^ 15 / 2 * B := by ring
    rw [h4]
    exact lt_of_le_of_lt (h1.trans h3.le) (mul_lt_mul_of_pos_right h2 (by linarith))
  have hk1 := hkey 1 (by linarith)
  rw [mul_one] at hk1
  have hs := h.step
  rw [if_neg (by rw [abs_sub_comm, abs_of_pos (by linarith)]; linarith),
    if_neg (by rw [abs_of_pos (by linarith)]; linarith)]
  set D := 2 * max (-(u.getD 0 0 - med)) (u.getD (u.length - 1) 0 - med) with hD
  have hDpos : 0 < D := by
    have := le_max_right (-(u.getD 0 0 - med)) (u.getD (u.length - 1) 0 - med)
    rw [hD]; linarith
  have hD4 : D ≤ 4 * B := by
    have : max (-(u.getD 0 0 - med)) (u.getD (u.length - 1) 0 - med) ≤ 2 * B := max_le (by linarith) (by linarith)
    rw [hD]; linarith
  have hden : -2 * max (-(u.getD 0 0 - med)) (u.getD (u.length - 1) 0 - med) = -D := by rw [hD]; ring
  rw [hden]
  refine ⟨-D, by linarith, rfl, ?_⟩
  have htol : tol (med / -D) * D < B / 10 ^ 15 / 2 := by
    have : tol (med / -D) * D = eps0 * (eps0 * D + |med|) := by
      unfold tol
      rw [abs_div, abs_neg, abs_of_pos hDpos]
      field_simp
    rw [this]; exact hkey D hD4
  have hget : ∀ i < u.length, (u.map fun v => (v - med) / -D).getD i 0 = (med - u.getD i 0) / D := by
    intro i hi
    rw [List.getD_eq_getElem _ _ (by rwa [List.length_map]), List.getElem_map,
      List.getD_eq_getElem _ _ hi, div_neg, ← neg_div, neg_sub]
  constructor
  · rw [List.length_map]; omega
  · intro i hi
    rw [List.length_map] at hi
    rw [hget i (by omega), lt_div_iff₀ hDpos]
    have := hbelow i hi
    linarith
  · intro ho
    rw [List.length_map] at ho ⊢
    rw [hget _ (by omega), hodd ho, sub_self, zero_div]
  · intro i hi hl
    rw [List.length_map] at hi hl
    rw [hget i hl, div_le_iff₀ hDpos]
    have := habove i hi hl
    linarith

/-- The two observations next to the quarters of the reflected sample lean below the median. -/
def Leans (u : List K) : Prop :=
  u.getD ((u.length + 1) / 2 / 2) 0 + u.getD (u.length - 2 - (u.length + 1) / 2 / 2) 0
    < 2 * Medcouple.median u

theorem mc_hang {B : K} {z : List K} (h : Spaced B (sort (z.map fun v => -v))) (h5 : 5 ≤ z.length)
    (hl : Leans (sort (z.map fun v => -v))) (fuel k : ℕ) : mc fuel (k + 1) z = none := by
  obtain ⟨den, hden, hp, hs⟩ := prepare_spread h (by omega : 4 ≤ z.length)
  unfold mc
  rw [if_neg (by omega), hp]
  dsimp only
  rw [search_hang hs]
  · rfl
  · rw [List.length_map, (sort_perm _).length_eq, List.length_map]; exact h5
  · refine List.pairwise_map.2 ((sort_pairwise _).imp ?_)
    intro a b hab
    exact div_le_div_of_nonpos_of_le hden.le (by linarith)
  · have hlen : (sort (z.map fun v => -v)).length = z.length := by
      rw [(sort_perm _).length_eq, List.length_map]
    unfold Leans at hl
    generalize sort (z.map fun v => -v) = u at *
    rw [List.length_map]
    rw [List.getD_eq_getElem _ _ (by rw [List.length_map]; omega), List.getElem_map,
      List.getD_eq_getElem _ _ (by rw [List.length_map]; omega), List.getElem_map, ← add_div]
    rw [List.getD_eq_getElem _ _ (by omega), List.getD_eq_getElem _ _ (by omega)] at hl
    exact div_pos_of_neg_of_neg (by linarith) hden

theorem mc_it {B : K} {z : List K} (h : Spaced B (sort (z.map fun v => -v))) (h5 : 5 ≤ z.length)
    {fuel k : ℕ} {r : K × ℕ × Bool} (hr : mc fuel (k + 1) z = some (.ok r)) : 1 ≤ r.2.1 := by
  obtain ⟨den, hden, hp, hs⟩ := prepare_spread h (by omega : 4 ≤ z.length)
  unfold mc at hr
  rw [if_neg (by omega), hp] at hr
  dsimp only at hr
  obtain ⟨s', h1, h2⟩ := Option.map_eq_some_iff.1 hr
  have := search_start_it hs (by rw [List.length_map, (sort_perm _).length_eq, List.length_map]; exact h5) h1
  unfold finish at h2
  split at h2
  · simp only [Except.ok.injEq] at h2; subst h2; exact this
  · dsimp only at h2
    split_ifs at h2
    · split at h2
      · simp only [Except.ok.injEq] at h2; subst h2; exact this
      · cases h2
    · simp only [Except.ok.injEq] at h2; subst h2; exact this

/-! ## C101: the statistic can be evaluated -/

/-- The call returns a value. -/
def Returns (z : List K) : Prop := ∃ (fuel : ℕ) (v : Option K), (bhs fuel z).run = some (.ok v)

omit [IsStrictOrderedRing K] in
theorem separated_neg {z : List K} (h : Separated z) : Separated (z.map fun v => -v) := by
  obtain ⟨B, h1, h2, h3⟩ := h
  refine ⟨B, h1, ?_, ?_⟩
  · intro v hv
    obtain ⟨a, ha, rfl⟩ := List.mem_map.1 hv
    rw [abs_neg]; exact h2 a ha
  · rw [List.pairwise_map]
    refine h3.imp ?_
    intro a b hab
    rw [show -a - -b = -(a - b) by ring, abs_neg]; exact hab

theorem separated_spaced {z : List K} (h : Separated z) : ∃ B, Spaced B (sort z) := by
  obtain ⟨B, h1, h2, h3⟩ := h
  exact ⟨B, spaced_sort h1 h2 h3⟩

omit [IsStrictOrderedRing K] in
theorem separated_sublist {z z' : List K} (h : Separated z) (hs : z'.Sublist z) : Separated z' := by
  obtain ⟨B, h1, h2, h3⟩ := h
  exact ⟨B, h1, fun v hv => h2 v (hs.subset hv), h3.sublist hs⟩

omit [IsStrictOrderedRing K] in
theorem separated_perm {z z' : List K} (h : Separated z) (hs : z'.Perm z) : Separated z' := by
  obtain ⟨B, h1, h2, h3⟩ := h
  exact ⟨B, h1, fun v hv => h2 v (hs.mem_iff.1 hv),
    (hs.pairwise_iff (fun {a b} h => by rwa [abs_sub_comm])).2 h3⟩

/-- Between five and eight observations always lean. -/
theorem leans_small {B : K} {u : List K} (h : Spaced B u) (h5 : 5 ≤ u.length) (h8 : u.length ≤ 8) :
    Leans u := by
  have hs := h.step
  unfold Leans Medcouple.median
  have g12 := h.gap 1 2 (by omega) (by omega)
  have g23 := h.gap 2 3 (by omega) (by omega)
  obtain h | h | h | h : u.length = 5 ∨ u.length = 6 ∨ u.length = 7 ∨ u.length = 8 := by omega
  all_goals
    rw [h]
    norm_num [-List.getD_eq_getElem?_getD]
    linarith

theorem mc_small {z : List K} (h : Separated z) (h5 : 5 ≤ z.length) (h8 : z.length ≤ 8) (fuel k : ℕ) :
    mc fuel (k + 1) z = none := by
  obtain ⟨B, hB⟩ := separated_spaced (separated_neg h)
  have hlen : (sort (z.map fun v => -v)).length = z.length := by
    rw [(sort_perm _).length_eq, List.length_map]
  exact mc_hang hB h5 (leans_small hB (by omega) (by omega)) fuel k

omit [IsStrictOrderedRing K] in
theorem bhs_first {z : List K} (hn : 4 ≤ z.length) {fuel : ℕ} {v : Option K}
    (h : (bhs fuel z).run = some (.ok v)) :
    ∃ r, mc fuel 1000 z = some (.ok r) ∧ ∃ r2, mc fuel r.2.1 ((sort z).take
      (if z.length % 2 = 0 then z.length / 2 else z.length / 2 + 1)) = some (.ok r2) := by
  unfold bhs at h
  dsimp only at h
  rw [if_neg (by omega)] at h
  rcases h1 : mc fuel 1000 z with _ | _ | r1
  · simp [h1, bind, ExceptT.bind, ExceptT.mk, ExceptT.run, ExceptT.bindCont] at h
  · simp [h1, bind, ExceptT.bind, ExceptT.mk, ExceptT.run, ExceptT.bindCont, pure] at h
  · refine ⟨r1, rfl, ?_⟩
    rcases h2 : mc fuel r1.2.1 ((sort z).take
      (if z.length % 2 = 0 then z.length / 2 else z.length / 2 + 1)) with _ | _ | r2
    · simp [h1, h2, bind, ExceptT.bind, ExceptT.mk, ExceptT.run, ExceptT.bindCont] at h
    · simp [h1, h2, bind, ExceptT.bind, ExceptT.mk, ExceptT.run, ExceptT.bindCont, pure] at h
    · exact ⟨r2, rfl⟩

/-- **C101 (refuted).** No sample of five to sixteen separated observations has a value: the call
never returns. -/
theorem C101_refuted (z : List K) (hz : Separated z) (h5 : 5 ≤ z.length) (h16 : z.length ≤ 16) :
    ¬ Returns z := by
  rintro ⟨fuel, v, h⟩
  obtain ⟨r, h1, r2, h2⟩ := bhs_first (by omega) h
  obtain ⟨B, hB⟩ := separated_spaced (separated_neg hz)
  rcases Nat.lt_or_ge z.length 9 with h9 | h9
  · rw [mc_small hz h5 (by omega) fuel 999] at h1; cases h1
  · have hit := mc_it (k := 999) hB h5 h1
    obtain ⟨k, hk⟩ : ∃ k, r.2.1 = k + 1 := ⟨r.2.1 - 1, by omega⟩
    rw [hk] at h2
    have hl : ((sort z).take (if z.length % 2 = 0 then z.length / 2 else z.length / 2 + 1)).length
        = (z.length + 1) / 2 := by
      rw [List.length_take, (sort_perm z).length_eq]; split_ifs <;> omega
    rw [mc_small (separated_sublist (separated_perm hz (sort_perm z)) (List.take_sublist _ _))
      (by rw [hl]; omega) (by rw [hl]; omega)] at h2
    cases h2

/-- The order statistics of the mirrored sample. -/
theorem sort_neg (z : List K) : sort (z.map fun v => -v) = ((sort z).map fun v => -v).reverse := by
  refine List.Perm.eq_of_pairwise (le := (· ≤ ·)) (fun a b _ _ h1 h2 => le_antisymm h1 h2) (sort_pairwise _) ?_ ?_
  · rw [List.pairwise_reverse, List.pairwise_map]
    exact (sort_pairwise z).imp fun h => neg_le_neg h
  · exact (sort_perm _).trans (((sort_perm z).symm.map _).trans (List.reverse_perm _).symm)

omit [LinearOrder K] [IsStrictOrderedRing K] in
theorem getD_mirror {u : List K} {i : ℕ} (hi : i < u.length) :
    ((u.map fun v => -v).reverse).getD i 0 = -u.getD (u.length - 1 - i) 0 := by
  rw [List.getD_eq_getElem _ _ (by simpa using hi), List.getElem_reverse, List.getElem_map,
    List.getD_eq_getElem _ _ (by omega)]
  simp

theorem median_mirror {u : List K} (h : u ≠ []) :
    Medcouple.median ((u.map fun v => -v).reverse) = -Medcouple.median u := by
  have := List.length_pos_iff.2 h
  unfold Medcouple.median
  simp only [List.length_reverse, List.length_map]
  split_ifs with ho
  · rw [getD_mirror (by omega)]; congr 2; omega
  · rw [getD_mirror (by omega), getD_mirror (by omega)]
    have e1 : u.length - 1 - (u.length / 2 - 1) = u.length / 2 := by omega
    have e2 : u.length - 1 - u.length / 2 = u.length / 2 - 1 := by omega
    rw [e1, e2]; ring

/-- **C101 (refuted).** Whatever the size, of a sample of separated observations and its mirror image
at least one has no value. -/
theorem C101_refuted_mirror (z : List K) (hz : Separated z) (h5 : 5 ≤ z.length) :
    ¬ Returns z ∨ ¬ Returns (z.map fun v => -v) := by
  obtain ⟨B, hB⟩ := separated_spaced (separated_neg hz)
  obtain ⟨B', hB'⟩ := separated_spaced hz
  have key : Leans (sort (z.map fun v => -v)) ∨ Leans (sort z) := by
    rw [sort_neg]
    have hlen : (sort z).length = z.length := (sort_perm z).length_eq
    generalize sort z = u at hB' hlen ⊢
    by_contra hcon
    rw [not_or] at hcon
    obtain ⟨c1, c2⟩ := hcon
    unfold Leans at c1 c2
    rw [not_lt] at c1 c2
    rw [median_mirror (List.ne_nil_of_length_pos (by omega))] at c1
    simp only [List.length_reverse, List.length_map] at c1
    rw [getD_mirror (by omega), getD_mirror (by omega)] at c1
    have g1 := hB'.gap ((u.length + 1) / 2 / 2) (u.length - 1 - (u.length - 2 - (u.length + 1) / 2 / 2))
      (by omega) (by omega)
    have g2 := hB'.gap (u.length - 2 - (u.length + 1) / 2 / 2) (u.length - 1 - (u.length + 1) / 2 / 2)
      (by omega) (by omega)
    have := hB'.step
    linarith
  rcases key with h | h
  · left
    rintro ⟨fuel, v, hv⟩
    obtain ⟨r, h1, -⟩ := bhs_first (by omega) hv
    rw [mc_hang hB h5 h fuel 999] at h1; cases h1
  · right
    rintro ⟨fuel, v, hv⟩
    obtain ⟨r, h1, -⟩ := bhs_first (by rw [List.length_map]; omega) hv
    have e : sort ((z.map fun v => -v).map fun v => -v) = sort z := by simp
    rw [mc_hang (B := B') (by rw [e]; exact hB') (by rw [List.length_map]; omega) (by rw [e]; exact h)
      fuel 999] at h1
    cases h1

/-- Three neighbouring table entries of four observations. -/
theorem mc_four {z : List K} (hz : Separated z) (h4 : z.length = 4) (fuel : ℕ) :
    mc fuel 1000 z = some (.ok (0, 0, true)) := by
  obtain ⟨B, hB⟩ := separated_spaced (separated_neg hz)
  obtain ⟨den, hden, hp, hs⟩ := prepare_spread hB (by omega)
  have hlen : (sort (z.map fun v => -v)).length = 4 := by
    rw [(sort_perm _).length_eq, List.length_map, h4]
  unfold mc
  rw [if_neg (by omega), hp]
  dsimp only
  have hab := hB.mono (i := 0) (j := 1) (by omega) (by omega)
  have hmed : Medcouple.median (sort (z.map fun v => -v))
      = ((sort (z.map fun v => -v)).getD 1 0 + (sort (z.map fun v => -v)).getD 2 0) / 2 := by
    unfold Medcouple.median; rw [hlen]; norm_num
  generalize sort (z.map fun v => -v) = u at *
  obtain ⟨a, b, c, d, rfl⟩ : ∃ a b c d, u = [a, b, c, d] := by
    match u, hlen with
    | [a, b, c, d], _ => exact ⟨a, b, c, d, rfl⟩
  simp only [List.getD_cons_zero, List.getD_cons_succ] at hab hmed
  generalize Medcouple.median [a, b, c, d] = med at *
  obtain ⟨tx, tx2, th1, th2, tn⟩ := hs.table
  have u0 := hs.upper 0 (by simp)
  have u1 := hs.upper 1 (by simp)
  have l2 := hs.lower 2 (by simp) (by simp)
  have htp := tol_pos (med / den)
  have htg := tol_ge (med / den)
  have he1 := eps1_small (K := K)
  have he0 : (0 : K) < eps0 * eps0 := mul_pos eps0_pos eps0_pos
  generalize tol (med / den) = e at *
  generalize table ([a, b, c, d].map fun v => (v - med) / den) (med / den) = t at *
  simp only [List.map_cons, List.map_nil, List.length_cons, List.length_nil, List.getD_cons_zero,
    List.getD_cons_succ] at tx tx2 th1 th2 tn u0 u1 l2
  norm_num at tx2 th1 th2 tn
  have hkx : (b - med) / den + (c - med) / den = 0 := by
    rw [← add_div, hmed, div_eq_zero_iff]; left; ring
  have hge : (b - med) / den ≤ (a - med) / den := div_le_div_of_nonpos_of_le hden.le (by linarith)
  generalize (a - med) / den = p at *
  generalize (b - med) / den = q at *
  generalize (c - med) / den = r at *
  have k11 : t.kern 1 1 = 1 := by
    unfold Table.kern hKern
    rw [tx, tx2, th1]
    norm_num [sign]
    intro _ h; linarith
  have k21 : t.kern 2 1 = 0 := by
    unfold Table.kern hKern
    rw [tx, tx2, th1]
    rw [if_pos]
    · norm_num [sign]
    · right; simp; linarith
  have k12 : 0 ≤ t.kern 1 2 := by
    unfold Table.kern hKern
    rw [tx, tx2, th1]
    norm_num [sign]
    rw [if_neg]
    · exact div_nonneg (by linarith) (by linarith)
    · rw [not_or, not_lt, not_lt, abs_of_pos (by linarith)]
      constructor <;> linarith
  have hsearch : search fuel t 1000 (Search.start t) = some (Search.start t) := by
    unfold search
    rw [if_pos]
    right
    simp [Search.start, th1, th2, tn]
  rw [hsearch]
  simp only [Option.map_some]
  unfold finish
  have hrem : remaining t (Search.start t) = [-t.kern 1 1, -t.kern 2 1, -t.kern 1 2, -t.kern 2 2] := by
    simp [remaining, Search.start, th1, th2, List.replicate, List.range_succ]
  simp only [hrem, k11, k21]
  have hw : (Search.start t).work = [0, 0, 0, 0] := by simp [Search.start, tn, List.replicate]
  have hnl : (Search.start t).nl = 0 := rfl
  have hf : (Search.start t).found = none := rfl
  rw [hf]
  dsimp only
  rw [if_pos (by simp [Search.start, th1, th2, tn]), if_neg (by simp [tn]), hw, th1, th2, hnl]
  generalize t.kern 1 2 = v at *
  have hv : (sort [-1, -0, -v]).getD 2 0 = 0 := by
    apply le_antisymm
    · apply sort_getD_le
      have : (-1 : K) ≤ 0 := by norm_num
      simp [k12]
    · apply sort_getD_ge
      · have h1 := List.countP_le_length (p := fun a : K => decide (a < 0)) (l := [-1, -v])
        simp only [List.countP_cons, List.countP_nil, neg_zero, lt_irrefl, decide_false] at h1 ⊢
        simpa using h1
      · simp
  have hl3 : (sort [-1, -0, -v]).length = 3 := by rw [(sort_perm _).length_eq]; rfl
  have hget : (sort [-1, -0, -v] ++ [-t.kern 2 2])[2]? = some 0 := by
    rw [List.getElem?_append_left (by omega), List.getElem?_eq_getElem (by omega),
      ← List.getD_eq_getElem _ 0 (by omega), hv]
  norm_num at hget ⊢
  rw [hget]
  simp [Search.start]

/-- **C101 (partial).** Up to three observations give Python's `None`, and all samples of four
separated observations give the same value, whatever they are.  Missing: everything else, see
`C101_refuted` and `C101_refuted_mirror`. -/
theorem C101_partial (z : List K) (hz : Separated z) :
    (z.length ≤ 3 → ∀ fuel, (bhs fuel z).run = some (.ok none)) ∧
    (z.length = 4 → ∀ fuel, (bhs fuel z).run =
      some (.ok (some (94726571649456760073148627 / 781250000000000000000000000)))) := by
  constructor
  · intro h fuel
    unfold bhs
    dsimp only
    rw [if_pos h]
    rfl
  · intro h fuel
    have hs2 : ∀ k (l : List K), l.length = 2 → mc fuel k l = some (.ok (0, 0, true)) := by
      intro k l hl
      unfold mc
      rw [if_pos (by omega)]
    have l1 : ((sort z).take 2).length = 2 := by rw [List.length_take, (sort_perm z).length_eq]; omega
    have l2 : ((sort z).drop 2).length = 2 := by rw [List.length_drop, (sort_perm z).length_eq]; omega
    unfold bhs
    simp only [h]
    norm_num
    have e1 := mc_four hz h fuel
    have e2 := hs2 0 _ l1
    have e3 := hs2 0 _ l2
    simp only [bind, ExceptT.bind, ExceptT.mk, ExceptT.run, ExceptT.bindCont, pure, e1,
      Option.bind_some, e2, e3]
    simp only [Functor.map, ExceptT.map, ExceptT.mk, bind, Option.bind_some, pure]
    norm_num

/-- Ten observations meet the hypotheses of the refutation, twenty those of the mirror version. -/
example : Separated ([3, 1, 4, 15, 9, 2, 6, 5, 35, 8] : List ℚ) ∧
    Separated ((List.range 20).map fun i => (i : ℚ)) ∧ Separated ([1, 2, 3, 10] : List ℚ) := by
  refine ⟨⟨35, by norm_num, by decide +kernel, by decide +kernel⟩,
    ⟨20, by norm_num, by decide +kernel, by decide +kernel⟩,
    ⟨10, by norm_num, by decide +kernel, by decide +kernel⟩⟩

end Pysatl.Props
