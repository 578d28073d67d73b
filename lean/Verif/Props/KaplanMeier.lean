import Verif.Spec.KaplanMeier
import Verif.Props.Uniform

/-! # C116: the weights of the censored Stein statistic -/

namespace Pysatl.Props

open Pysatl.Decision Pysatl.Graph Pysatl.Edf Pysatl.Exponent Pysatl.Uniform Pysatl.Spec

theorem kmSurvival_eq (n : ℕ) (ds : List ℤ) (k : ℕ) : kmSurvival n ds k =
    ∏ i ∈ Finset.range k, if ds.getD i 0 = 1 then 1 - 1 / ((n : ℝ) - i) else 1 := by
  induction k with
  | zero => rw [kmSurvival]; simp
  | succ k ih =>
    rw [kmSurvival, Finset.prod_range_succ, ← ih]
    split <;> simp

theorem countP_card {α : Type} (d : α) (p : α → Bool) (l : List α) :
    l.countP p = ((Finset.range l.length).filter fun i => p (l.getD i d) = true).card := by
  rw [Finset.card_filter]
  induction l with
  | nil => simp
  | cons x l ih =>
    rw [List.countP_cons, List.length_cons, Finset.sum_range_succ', ih]
    simp

theorem lt_card_iff {n : ℕ} {P : ℕ → Prop} [DecidablePred P]
    (hP : ∀ i j, i ≤ j → j < n → P j → P i) {i : ℕ} (hi : i < n) :
    i < ((Finset.range n).filter P).card ↔ P i := by
  constructor
  · intro h
    by_contra hn
    have hsub : (Finset.range n).filter P ⊆ Finset.range i := by
      intro j hj
      obtain ⟨hj, hpj⟩ := Finset.mem_filter.mp hj
      rw [Finset.mem_range] at hj ⊢
      by_contra hij
      exact hn (hP i j (by omega) hj hpj)
    have := Finset.card_le_card hsub
    rw [Finset.card_range] at this
    omega
  · intro h
    have hsub : Finset.range (i + 1) ⊆ (Finset.range n).filter P := by
      intro j hj
      rw [Finset.mem_range] at hj
      exact Finset.mem_filter.mpr ⟨Finset.mem_range.mpr (by omega), hP j i (by omega) hi h⟩
    have := Finset.card_le_card hsub
    rw [Finset.card_range] at this
    omega

theorem prod_at_risk {n L U : ℕ} (hL : L < n) (hLU : L ≤ U) (hU : U ≤ n) :
    ∏ i ∈ Finset.Ico L U, (1 - 1 / ((n : ℝ) - i)) = ((n : ℝ) - U) / (n - L) := by
  have h0 : (n : ℝ) - L ≠ 0 := by
    have : (L : ℝ) < n := by exact_mod_cast hL
    linarith
  induction U, hLU using Nat.le_induction with
  | base => simp [div_self h0]
  | succ U hLU ih =>
    rw [Finset.prod_Ico_succ_top hLU, ih (by omega)]
    have : (n : ℝ) - U ≠ 0 := by
      have : (U : ℝ) < n := by exact_mod_cast hU
      linarith
    push_cast
    field_simp
    ring

/-- **C116**: the weight function is the product-limit estimate of the probability of not being
censored, for samples in which observations at the same time are all censored or all not. -/
theorem C116_partial (obs : List (ℝ × ℤ))
    (hties : ∀ p ∈ obs, ∀ q ∈ obs, p.1 = q.1 → p.2 = q.2) (t : ℝ) :
    kaplanMeier (obs.map Prod.fst) (obs.map Prod.snd) t = productLimit obs t := by
  have hz : (obs.map Prod.fst).zip (obs.map Prod.snd) = obs := by
    rw [List.zip_map', List.map_id'' (by intro x; rfl)]
  set S := obs.insertionSort fun p q : ℝ × ℤ => p.1 ≤ q.1 with hS
  have hperm : S.Perm obs := List.perm_insertionSort _ _
  have htot : Std.Total fun p q : ℝ × ℤ => p.1 ≤ q.1 := ⟨fun p q => le_total _ _⟩
  have htr : IsTrans (ℝ × ℤ) fun p q => p.1 ≤ q.1 := ⟨fun _ _ _ => le_trans⟩
  have hsorted : S.Pairwise fun p q => p.1 ≤ q.1 := List.pairwise_insertionSort _ _
  set n := S.length with hn
  have hlen : obs.length = n := hperm.length_eq.symm
  set e : ℕ → ℝ × ℤ := fun i => S.getD i (0, 0) with he
  have hmono : ∀ i j, i ≤ j → j < n → (e i).1 ≤ (e j).1 := by
    intro i j hij hj
    rcases hij.eq_or_lt with rfl | hlt
    · exact le_rfl
    · simp only [he]
      rw [List.getD_eq_getElem _ _ (by omega), List.getD_eq_getElem _ _ hj]
      exact List.pairwise_iff_getElem.mp hsorted i j (by omega) hj hlt
  have hmem : ∀ i < n, e i ∈ obs := by
    intro i hi
    simp only [he]
    rw [List.getD_eq_getElem _ _ hi]
    exact hperm.mem_iff.mp (List.getElem_mem hi)
  have hcount : ∀ p : ℝ × ℤ → Bool, obs.countP p =
      ((Finset.range n).filter fun i => p (e i) = true).card := fun p => by
    rw [← hperm.countP_eq, countP_card (0, 0)]
  set c := (obs.map Prod.fst).countP fun s => decide (s ≤ t) with hc
  have hc' : c = ((Finset.range n).filter fun i => (e i).1 ≤ t).card := by
    rw [hc, List.countP_map, hcount]
    simp
  have hcle : c ≤ n := by
    rw [hc']; exact (Finset.card_filter_le _ _).trans (by simp)
  have hcut : ∀ i < n, (i < c ↔ (e i).1 ≤ t) := fun i hi => by
    rw [hc']
    exact lt_card_iff (P := fun i => (e i).1 ≤ t)
      (fun i j hij hj h => (hmono i j hij hj).trans h) hi
  have himg : (Finset.range c).image (fun i => (e i).1) =
      (obs.map Prod.fst).toFinset.filter (· ≤ t) := by
    ext s
    simp only [Finset.mem_image, Finset.mem_range, Finset.mem_filter, List.mem_toFinset,
      List.mem_map]
    constructor
    · rintro ⟨i, hi, rfl⟩
      exact ⟨⟨e i, hmem i (by omega), rfl⟩, (hcut i (by omega)).mp hi⟩
    · rintro ⟨⟨p, hp, rfl⟩, hpt⟩
      obtain ⟨i, hi, rfl⟩ := List.mem_iff_getElem.mp (hperm.mem_iff.mpr hp)
      have hei : e i = S[i] := by simp only [he]; rw [List.getD_eq_getElem _ _ hi]
      exact ⟨i, (hcut i hi).mpr (by rw [hei]; exact hpt), by rw [hei]⟩
  unfold kaplanMeier
  dsimp only
  rw [hz, ← hS, kmSurvival_eq, ← hc, List.length_map, hlen]
  unfold productLimit
  rw [← himg, ← Finset.prod_fiberwise_of_maps_to (g := fun i => (e i).1)
    (t := (Finset.range c).image fun i => (e i).1) (fun i hi => Finset.mem_image_of_mem _ hi)]
  refine Finset.prod_congr rfl fun s hs => ?_
  obtain ⟨i0, hi0, hs0⟩ := Finset.mem_image.mp hs
  have hi0c := Finset.mem_range.mp hi0
  have hst : s ≤ t := by rw [← hs0]; exact (hcut i0 (by omega)).mp hi0c
  set L := ((Finset.range n).filter fun i => (e i).1 < s).card with hLdef
  set U := ((Finset.range n).filter fun i => (e i).1 ≤ s).card with hUdef
  have hLs : ∀ i < n, (i < L ↔ (e i).1 < s) := fun i hi =>
    lt_card_iff (P := fun i => (e i).1 < s) (fun i j hij hj h => (hmono i j hij hj).trans_lt h) hi
  have hUs : ∀ i < n, (i < U ↔ (e i).1 ≤ s) := fun i hi =>
    lt_card_iff (P := fun i => (e i).1 ≤ s) (fun i j hij hj h => (hmono i j hij hj).trans h) hi
  have hUn : U ≤ n := (Finset.card_filter_le _ _).trans (by simp)
  have hLU : L ≤ U := Finset.card_le_card (Finset.monotone_filter_right _ fun i _ h => h.le)
  have hLn : L < n := by
    by_contra h
    have h1 : i0 < L := by omega
    have := (hLs i0 (by omega)).mp h1
    exact absurd hs0 this.ne
  have hfib : (Finset.range c).filter (fun i => (e i).1 = s) = Finset.Ico L U := by
    ext i
    simp only [Finset.mem_filter, Finset.mem_range, Finset.mem_Ico]
    constructor
    · rintro ⟨hi, hes⟩
      have hin : i < n := by omega
      exact ⟨by have := (hLs i hin).mp.mt (by rw [hes]; exact lt_irrefl s); omega,
        (hUs i hin).mpr hes.le⟩
    · rintro ⟨h1, h2⟩
      have hin : i < n := by omega
      have a1 := (hUs i hin).mp h2
      have a2 := (hLs i hin).mpr.mt (by omega)
      exact ⟨(hcut i hin).mpr (a1.trans hst), le_antisymm a1 (not_lt.mp a2)⟩
  have hrisk : atRisk obs s = n - L := by
    unfold atRisk
    rw [hcount]
    have : ((Finset.range n).filter fun i => decide (s ≤ (e i).1) = true) =
        (Finset.range n).filter fun i => ¬(e i).1 < s := by
      refine Finset.filter_congr fun i _ => ?_
      simp
    rw [this]
    have := Finset.card_filter_add_card_filter_not (s := Finset.range n) (fun i => (e i).1 < s)
    rw [Finset.card_range] at this
    omega
  have hind : ∀ i ∈ Finset.Ico L U, (e i).2 = (e i0).2 := by
    intro i hi
    rw [← hfib] at hi
    obtain ⟨hi, hes⟩ := Finset.mem_filter.mp hi
    have := Finset.mem_range.mp hi
    exact hties _ (hmem i (by omega)) _ (hmem i0 (by omega)) (hes.trans hs0.symm)
  have hds : ∀ i < n, (S.map Prod.snd).getD i 0 = (e i).2 := by
    intro i hi
    simp only [he]
    rw [List.getD_eq_getElem _ _ (by simpa using hi), List.getD_eq_getElem _ _ hi, List.getElem_map]
  rw [hfib, hrisk]
  have hev : eventsAt obs s = if (e i0).2 = 1 then U - L else 0 := by
    unfold eventsAt
    rw [hcount]
    have : ((Finset.range n).filter fun i => decide ((e i).1 = s ∧ (e i).2 = 1) = true) =
        (Finset.Ico L U).filter fun _ => (e i0).2 = 1 := by
      ext i
      simp only [Finset.mem_filter, Finset.mem_range, decide_eq_true_eq]
      constructor
      · rintro ⟨hi, h1, h2⟩
        have : i ∈ Finset.Ico L U := by
          rw [← hfib]
          exact Finset.mem_filter.mpr ⟨Finset.mem_range.mpr ((hcut i hi).mpr (h1.le.trans hst)), h1⟩
        exact ⟨this, by rw [← hind i this]; exact h2⟩
      · rintro ⟨hi, h2⟩
        have h3 := hind i hi
        rw [← hfib] at hi
        obtain ⟨h4, h5⟩ := Finset.mem_filter.mp hi
        have := Finset.mem_range.mp h4
        exact ⟨by omega, h5, by rw [h3]; exact h2⟩
    rw [this]
    by_cases h1 : (e i0).2 = 1
    · simp [h1]
    · simp [h1]
  have hterm : ∏ i ∈ Finset.Ico L U, (if (S.map Prod.snd).getD i 0 = 1 then 1 - 1 / ((n : ℝ) - i)
      else 1) = ∏ i ∈ Finset.Ico L U, (if (e i0).2 = 1 then 1 - 1 / ((n : ℝ) - i) else 1) := by
    refine Finset.prod_congr rfl fun i hi => ?_
    have := Finset.mem_Ico.mp hi
    rw [hds i (by omega), hind i hi]
  rw [hterm, hev]
  by_cases h1 : (e i0).2 = 1
  · simp only [if_pos h1]
    rw [prod_at_risk hLn hLU hUn, Nat.cast_sub hLU, Nat.cast_sub hLn.le]
    have : (n : ℝ) - L ≠ 0 := by
      have : (L : ℝ) < n := by exact_mod_cast hLn
      linarith
    field_simp
    ring
  · simp [h1]

/-- Three observations at different times, two of them censored. -/
example : ∀ p ∈ [((1 : ℝ), (1 : ℤ)), (2, 0), (3, 1)], ∀ q ∈ [((1 : ℝ), (1 : ℤ)), (2, 0), (3, 1)],
    p.1 = q.1 → p.2 = q.2 := by
  simp

theorem kmSurvival_ge {n : ℕ} (ds : List ℤ) {k : ℕ} (hk : k < n) :
    ((n : ℝ) - k) / n ≤ kmSurvival n ds k := by
  have h := prod_at_risk (n := n) (L := 0) (U := k) (by omega) (by omega) hk.le
  rw [Nat.cast_zero, sub_zero] at h
  rw [← h, kmSurvival_eq, Finset.range_eq_Ico]
  have hf : ∀ i ∈ Finset.Ico 0 k, 0 ≤ 1 - 1 / ((n : ℝ) - i) ∧ 1 - 1 / ((n : ℝ) - i) ≤ 1 := by
    intro i hi
    have hi := (Finset.mem_Ico.mp hi).2
    have h1 : (1 : ℝ) ≤ (n : ℝ) - i := by
      have : (i : ℝ) + 1 ≤ n := by exact_mod_cast (by omega : i + 1 ≤ n)
      linarith
    have h2 : 1 / ((n : ℝ) - i) ≤ 1 := div_le_one_of_le₀ h1 (by linarith)
    have h3 : 0 ≤ 1 / ((n : ℝ) - i) := by positivity
    constructor <;> linarith
  refine Finset.prod_le_prod (fun i hi => (hf i hi).1) fun i hi => ?_
  split
  · exact le_rfl
  · exact (hf i hi).2

/-- At an uncensored observation the estimate is at least `1 / n`, so no weight exceeds the sample
size. -/
theorem C116_weight (obs : List (ℝ × ℤ))
    (hties : ∀ p ∈ obs, ∀ q ∈ obs, p.1 = q.1 → p.2 = q.2) {p : ℝ × ℤ} (hp : p ∈ obs)
    (hp0 : p.2 ≠ 1) :
    1 / (obs.length : ℝ) ≤ productLimit obs p.1 ∧ productLimit obs p.1 ≤ 1 := by
  have hfac : ∀ s, 0 ≤ 1 - (eventsAt obs s : ℝ) / atRisk obs s ∧
      1 - (eventsAt obs s : ℝ) / atRisk obs s ≤ 1 := by
    intro s
    have h : (eventsAt obs s : ℝ) ≤ atRisk obs s := by
      exact_mod_cast List.countP_mono_left fun q _ h => by
        simp only [decide_eq_true_eq] at h ⊢
        exact h.1.ge
    have h0 : (0 : ℝ) ≤ (eventsAt obs s : ℝ) / atRisk obs s := by positivity
    have h1 : (eventsAt obs s : ℝ) / atRisk obs s ≤ 1 := div_le_one_of_le₀ h (Nat.cast_nonneg _)
    constructor <;> linarith
  refine ⟨?_, Finset.prod_le_one (fun s _ => (hfac s).1) fun s _ => (hfac s).2⟩
  rw [← C116_partial obs hties]
  have hz : (obs.map Prod.fst).zip (obs.map Prod.snd) = obs := by
    rw [List.zip_map', List.map_id'' (by intro x; rfl)]
  unfold kaplanMeier
  dsimp only
  rw [hz, List.length_map]
  set S := obs.insertionSort fun p q : ℝ × ℤ => p.1 ≤ q.1 with hS
  have hperm : S.Perm obs := List.perm_insertionSort _ _
  have htot : Std.Total fun p q : ℝ × ℤ => p.1 ≤ q.1 := ⟨fun p q => le_total _ _⟩
  have htr : IsTrans (ℝ × ℤ) fun p q => p.1 ≤ q.1 := ⟨fun _ _ _ => le_trans⟩
  have hsorted : S.Pairwise fun p q => p.1 ≤ q.1 := List.pairwise_insertionSort _ _
  have hlen : S.length = obs.length := hperm.length_eq
  set c := (obs.map Prod.fst).countP fun s => decide (s ≤ p.1) with hc
  have hc' : c = ((Finset.range S.length).filter fun i => (S.getD i (0, 0)).1 ≤ p.1).card := by
    rw [hc, List.countP_map, ← hperm.countP_eq, countP_card (0, 0)]
    simp
  have hmono : ∀ i j, i ≤ j → j < S.length → (S.getD i (0, 0)).1 ≤ (S.getD j (0, 0)).1 := by
    intro i j hij hj
    rcases hij.eq_or_lt with rfl | hlt
    · exact le_rfl
    · rw [List.getD_eq_getElem _ _ (by omega), List.getD_eq_getElem _ _ hj]
      exact List.pairwise_iff_getElem.mp hsorted i j (by omega) hj hlt
  have hcut : ∀ i < S.length, (i < c ↔ (S.getD i (0, 0)).1 ≤ p.1) := fun i hi => by
    rw [hc']
    exact lt_card_iff (P := fun i => (S.getD i (0, 0)).1 ≤ p.1)
      (fun i j hij hj h => (hmono i j hij hj).trans h) hi
  have hcle : c ≤ S.length := by
    rw [hc']; exact (Finset.card_filter_le _ _).trans (by simp)
  obtain ⟨i, hi, hip⟩ := List.mem_iff_getElem.mp (hperm.mem_iff.mpr hp)
  have hgi : S.getD i (0, 0) = p := by rw [List.getD_eq_getElem _ _ hi]; exact hip
  have hic : i < c := (hcut i hi).mpr (by rw [hgi])
  obtain ⟨k, hk⟩ : ∃ k, c = k + 1 := ⟨c - 1, by omega⟩
  have hkl : k < S.length := by omega
  have hk1 : (S.getD k (0, 0)).1 = p.1 := by
    refine le_antisymm ((hcut k hkl).mp (by omega)) ?_
    rw [← hgi]
    exact hmono i k (by omega) hkl
  have hk2 : (S.map Prod.snd).getD k 0 = p.2 := by
    have hm : S[k] ∈ obs := hperm.mem_iff.mp (List.getElem_mem hkl)
    rw [List.getD_eq_getElem _ _ hkl] at hk1
    rw [List.getD_eq_getElem _ _ (by simpa using hkl), List.getElem_map]
    exact hties _ hm _ hp hk1
  rw [hk, kmSurvival, hk2, if_neg hp0]
  refine le_trans ?_ (kmSurvival_ge _ (by omega))
  have hn : (0 : ℝ) < obs.length := by
    have : 0 < obs.length := by omega
    exact_mod_cast this
  have hk' : (k : ℝ) + 1 ≤ obs.length := by exact_mod_cast (by omega : k + 1 ≤ obs.length)
  gcongr
  linarith

theorem pairSum_range (f : ℝ → ℝ → ℝ) : ∀ l : List ℝ, pairSum f l =
    ∑ i ∈ Finset.range l.length, ∑ j ∈ Finset.range i, f (l.getD j 0) (l.getD i 0)
  | [] => by simp [pairSum]
  | x :: l => by
    rw [pairSum, pairSum_range f l, List.length_cons, Finset.sum_range_succ']
    have e : ∀ i, ∑ j ∈ Finset.range (i + 1), f ((x :: l).getD j 0) ((x :: l).getD (i + 1) 0) =
        ∑ j ∈ Finset.range i, f (l.getD j 0) (l.getD i 0) + f x (l.getD i 0) := by
      intro i
      rw [Finset.sum_range_succ']
      simp
    simp only [e, Finset.sum_add_distrib, Finset.range_zero, Finset.sum_empty, add_zero]
    rw [add_comm]
    congr 1
    clear e
    induction l with
    | nil => simp
    | cons y l ih => rw [List.map_cons, List.sum_cons, ih, List.length_cons, Finset.sum_range_succ']; simp [add_comm]

theorem pairs_filter (l : List (ℝ × ℤ)) :
    (pairs l).filter (fun p => p.1.2 = 0 ∧ p.2.2 = 0) = pairs (l.filter fun p => p.2 = 0) := by
  induction l with
  | nil => rfl
  | cons x l ih =>
    rw [pairs, List.filter_append, ih, List.filter_map]
    by_cases hx : x.2 = 0
    · rw [List.filter_cons_of_pos (by simpa using hx), pairs]
      congr 2
      refine List.filter_congr fun y _ => ?_
      simp [hx]
    · rw [List.filter_cons_of_neg (by simpa using hx), List.filter_eq_nil_iff.mpr]
      · rfl
      · intro y _; simp [hx]

theorem pairs_map_fst (l : List (ℝ × ℤ)) (f : ℝ → ℝ → ℝ) :
    ((pairs l).map fun p => f p.1.1 p.2.1).sum = pairSum f (l.map Prod.fst) := by
  rw [pairs_sum fun p q : ℝ × ℤ => f p.1 q.1]
  induction l with
  | nil => rfl
  | cons x l ih => rw [List.map_cons, pairSum, pairSum, ih, List.map_map]; rfl

/-- **C116**: the censored statistic on the unit interval is twice the mean, over the pairs of uncensored
observations, of the Stein kernel divided by the estimated probabilities of not being censored. -/
theorem C116_statistic_partial (obs : List (ℝ × ℤ)) (h01 : ∀ p ∈ obs, 0 ≤ p.1 ∧ p.1 ≤ 1)
    (hbin : ∀ p ∈ obs, p.2 = 0 ∨ p.2 = 1)
    (hties : ∀ p ∈ obs, ∀ q ∈ obs, p.1 = q.1 → p.2 = q.2)
    (hsome : ∃ p ∈ obs, p.2 = 1) (hn : obs.length ≤ 10 ^ 10)
    (hfree : 2 ≤ (obs.filter fun p => p.2 = 0).length) :
    UniStat.value (.censoredStein (.array (obs.map Prod.snd))) 0 1 (obs.map Prod.fst) =
      .ok (2 * pairMean (fun x y => (max x y - x - y + (x ^ 2 + y ^ 2) / 2) /
        (productLimit obs x * productLimit obs y)) ((obs.filter fun p => p.2 = 0).map Prod.fst)) := by
  have hz : (obs.map Prod.fst).zip (obs.map Prod.snd) = obs := by
    rw [List.zip_map', List.map_id'' (by intro x; rfl)]
  have hv : validateUniform (0 : ℝ) 1 (obs.map Prod.fst) = .ok (obs.map Prod.fst) :=
    validateUniform_ok (by
      intro x hx
      obtain ⟨p, hp, rfl⟩ := List.mem_map.mp hx
      exact h01 p hp)
  have hu : (Indices.array (obs.map Prod.snd)).uncensored = false := by
    obtain ⟨p, hp, hp1⟩ := hsome
    simp only [Indices.uncensored, List.all_map, Bool.eq_false_iff, ne_eq, List.all_eq_true]
    intro h
    have := h p hp
    simp [hp1] at this
  have hstd : standard 0 1 (obs.map Prod.fst) = obs.map Prod.fst := by
    simp [standard]
  have hval : UniStat.value (.censoredStein (.array (obs.map Prod.snd))) 0 1 (obs.map Prod.fst) =
      .ok (weightedU (kaplanMeier (obs.map Prod.fst) (obs.map Prod.snd)) obs) := by
    simp only [UniStat.value, hv, bind, Except.bind, censoredStein, hstd, hu, Bool.false_eq_true,
      if_false, Indices.values, List.length_map, ne_eq, not_true_eq_false, hz]
  rw [hval]
  congr 1
  unfold weightedU
  dsimp only
  rw [pairs_filter]
  set free := obs.filter fun p => p.2 = 0 with hfr
  have hlen : 2 * ((pairs free).length : ℝ) = free.length * ((free.length : ℝ) - 1) := length_pairs free
  have hl2 : (2 : ℝ) ≤ free.length := by exact_mod_cast hfree
  have hpos : 0 < (pairs free).length := by
    have : (0 : ℝ) < (pairs free).length := by nlinarith
    exact_mod_cast this
  rw [if_pos hpos]
  have hw : ∀ p ∈ free, 1 / max (kaplanMeier (obs.map Prod.fst) (obs.map Prod.snd) p.1) (1 / 10 ^ 10) =
      1 / productLimit obs p.1 := by
    intro p hp
    obtain ⟨hp, h0⟩ := List.mem_filter.mp hp
    have h0 : p.2 = 0 := by simpa using h0
    rw [C116_partial obs hties, max_eq_left]
    refine le_trans ?_ (C116_weight obs hties hp (by rw [h0]; norm_num)).1
    have hp0 : 0 < obs.length := List.length_pos_of_mem hp
    have h1 : (0 : ℝ) < obs.length := by exact_mod_cast hp0
    have h2 : (obs.length : ℝ) ≤ 10 ^ 10 := by exact_mod_cast hn
    exact one_div_le_one_div_of_le h1 h2
  have hmem : ∀ (l : List (ℝ × ℤ)) (p : (ℝ × ℤ) × (ℝ × ℤ)), p ∈ pairs l → p.1 ∈ l ∧ p.2 ∈ l := by
    intro l
    induction l with
    | nil => intro p hp; simp [pairs] at hp
    | cons x l ih =>
      intro p hp
      rw [pairs, List.mem_append] at hp
      rcases hp with hp | hp
      · obtain ⟨y, hy, rfl⟩ := List.mem_map.mp hp
        exact ⟨List.mem_cons_self, List.mem_cons_of_mem _ hy⟩
      · exact ⟨List.mem_cons_of_mem _ (ih p hp).1, List.mem_cons_of_mem _ (ih p hp).2⟩
  have hsum : ((pairs free).map fun p => 1 / max (kaplanMeier (obs.map Prod.fst)
      (obs.map Prod.snd) p.1.1) (1 / 10 ^ 10) * (1 / max (kaplanMeier (obs.map Prod.fst)
      (obs.map Prod.snd) p.2.1) (1 / 10 ^ 10)) * steinKernel p.1.1 p.2.1).sum =
      ((pairs free).map fun p => (max p.1.1 p.2.1 - p.1.1 - p.2.1 + (p.1.1 ^ 2 + p.2.1 ^ 2) / 2) /
        (productLimit obs p.1.1 * productLimit obs p.2.1)).sum := by
    congr 1
    refine List.map_congr_left fun p hp => ?_
    obtain ⟨m1, m2⟩ := hmem _ _ hp
    rw [hw _ m1, hw _ m2]
    unfold steinKernel
    rw [one_div_mul_one_div, one_div_mul_eq_div]
    congr 1
    ring
  rw [hsum, pairs_map_fst free fun x y => (max x y - x - y + (x ^ 2 + y ^ 2) / 2) /
    (productLimit obs x * productLimit obs y), pairSum_range]
  unfold pairMean
  rw [List.length_map, ← hlen]
  have : ((pairs free).length : ℝ) ≠ 0 := by positivity
  field_simp

/-- The hypotheses hold of three observations, the second of which is censored. -/
example : let obs : List (ℝ × ℤ) := [(1 / 4, 0), (1 / 2, 1), (3 / 4, 0)]
    obs.length ≤ 10 ^ 10 ∧ (∀ p ∈ obs, (0 : ℝ) ≤ p.1 ∧ p.1 ≤ 1) ∧
    (∀ p ∈ obs, ∀ q ∈ obs, p.1 = q.1 → p.2 = q.2) ∧ (∀ p ∈ obs, p.2 = 0 ∨ p.2 = 1) ∧
    (∃ p ∈ obs, p.2 = 1) ∧ 2 ≤ (obs.filter fun p => p.2 = 0).length := by
  norm_num

/-- Observations at one time, one censored and one not: the value depends on the order in which they
are listed. -/
theorem C116_refuted_ties :
    UniStat.value (.censoredStein (.array [1, 0, 0])) 0 1 [1 / 2, 1 / 2, 3 / 4] ≠
      UniStat.value (.censoredStein (.array [0, 1, 0])) 0 1 [1 / 2, 1 / 2, 3 / 4] := by
  have hv : validateUniform (0 : ℝ) 1 [1 / 2, 1 / 2, 3 / 4] = .ok [1 / 2, 1 / 2, 3 / 4] :=
    validateUniform_ok (by norm_num)
  have h34 : ¬(3 / 4 : ℝ) ≤ 1 / 2 := by norm_num
  have h43 : (1 / 2 : ℝ) ≤ 3 / 4 := by norm_num
  have hm : max (1 / 2 : ℝ) (3 / 4) = 3 / 4 := max_eq_right h43
  simp only [UniStat.value, hv, bind, Except.bind, censoredStein, standard, List.map_cons,
    List.map_nil, sub_zero, div_one, Indices.uncensored, Indices.values, List.length_cons,
    List.length_nil, weightedU, kaplanMeier, List.zip_cons_cons, List.zip_nil_right,
    List.insertionSort_cons, List.insertionSort_nil, List.orderedInsert, pairs, List.filter,
    List.countP_cons, List.countP_nil, h34, h43, kmSurvival, steinKernel, hm]
  norm_num [kmSurvival, List.getD, max_def]

end Pysatl.Props
