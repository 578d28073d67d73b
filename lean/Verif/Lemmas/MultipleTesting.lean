import Mathlib.Data.Finset.Max
import Mathlib.Data.List.NodupEquivFin
import Mathlib.Order.Interval.Finset.Fin
import Mathlib.Tactic.Linarith
import Mathlib.Tactic.FieldSimp
import Mathlib.Tactic.GCongr
import Mathlib.Tactic.Positivity
import Verif.Model.MultipleTesting
import Verif.Spec.MultipleTesting

/-!
# Helper lemmas: closed forms of the sorting-based procedures
-/

set_option linter.unusedSectionVars false
set_option linter.unusedSimpArgs false

namespace Pysatl.MultipleTesting

open Pysatl.Spec

variable {K : Type} [Field K] [LinearOrder K] {n : ℕ}

theorem holmForward_not_mem (p : Fin n → K) (i : ℕ) (L : List (Fin n)) (a : Fin n → K) (x : Fin n)
    (hx : x ∉ L) : holmForward p i L a x = a x := by
  induction L generalizing i a with
  | nil => rfl
  | cons y L ih =>
    simp only [List.mem_cons, not_or] at hx
    rw [holmForward, ih _ _ hx.2, Function.update_of_ne hx.1]

theorem holmForward_get (p : Fin n → K) (i : ℕ) (L : List (Fin n)) (a : Fin n → K) (hL : L.Nodup)
    (s : ℕ) (hs : s < L.length) :
    holmForward p i L a L[s] = min 1 (p L[s] * ((n : K) - ((i + s : ℕ) : K))) := by
  induction L generalizing i a s with
  | nil => simp at hs
  | cons y L ih =>
    rw [List.nodup_cons] at hL
    cases s with
    | zero =>
      simp only [holmForward, List.getElem_cons_zero, Nat.add_zero]
      rw [holmForward_not_mem _ _ _ _ _ hL.1, Function.update_self]
    | succ s =>
      simp only [holmForward, List.getElem_cons_succ]
      rw [ih (i + 1) _ hL.2 s (by simpa using hs)]
      rw [show i + 1 + s = i + (s + 1) by omega]

theorem byForward_not_mem (c : K) (p : Fin n → K) (i : ℕ) (L : List (Fin n)) (a : Fin n → K)
    (x : Fin n) (hx : x ∉ L) : byForward c p i L a x = a x := by
  induction L generalizing i a with
  | nil => rfl
  | cons y L ih =>
    simp only [List.mem_cons, not_or] at hx
    rw [byForward, ih _ _ hx.2, Function.update_of_ne hx.1]

theorem byForward_get (c : K) (p : Fin n → K) (i : ℕ) (L : List (Fin n)) (a : Fin n → K)
    (hL : L.Nodup) (s : ℕ) (hs : s < L.length) :
    byForward c p i L a L[s] = min 1 (p L[s] * (n : K) * c / ((i + s + 1 : ℕ) : K)) := by
  induction L generalizing i a s with
  | nil => simp at hs
  | cons y L ih =>
    rw [List.nodup_cons] at hL
    cases s with
    | zero =>
      simp only [byForward, List.getElem_cons_zero, Nat.add_zero]
      rw [byForward_not_mem _ _ _ _ _ _ hL.1, Function.update_self]
    | succ s =>
      simp only [byForward, List.getElem_cons_succ]
      rw [ih (i + 1) _ hL.2 s (by simpa using hs)]
      rw [show i + 1 + s + 1 = i + (s + 1) + 1 by omega]

theorem holmBackward_not_mem (L : List (Fin n)) (a : Fin n → K) (x : Fin n) (hx : x ∉ L) :
    holmBackward L a x = a x := by
  induction L with
  | nil => rfl
  | cons y L ih =>
    simp only [List.mem_cons, not_or] at hx
    cases L with
    | nil => rfl
    | cons z L =>
      have := ih hx.2
      simp only [holmBackward]
      split
      · rw [Function.update_of_ne hx.1, this]
      · exact this

theorem le_holmBackward_iff (b : K) (L : List (Fin n)) (a : Fin n → K) (hL : L.Nodup)
    (t : ℕ) (ht : t < L.length) :
    b ≤ holmBackward L a L[t] ↔ ∀ s (hs : s < L.length), t ≤ s → b ≤ a L[s] := by
  induction L generalizing t with
  | nil => simp at ht
  | cons y L ih =>
    rw [List.nodup_cons] at hL
    cases L with
    | nil =>
      have : t = 0 := by simpa using ht
      subst this
      simp [holmBackward]
    | cons z L =>
      have ih' := ih hL.2
      have hy : holmBackward (z :: L) a y = a y := holmBackward_not_mem _ _ _ hL.1
      have hhead : b ≤ holmBackward (z :: L) a z ↔
          ∀ s (hs : s < (z :: L).length), b ≤ a (z :: L)[s] := by
        have := ih hL.2 0 (by simp)
        simpa using this
      cases t with
      | zero =>
        simp only [List.getElem_cons_zero, Nat.zero_le, true_implies]
        have key : ∀ v, (b ≤ v ↔ b ≤ a y ∧ b ≤ holmBackward (z :: L) a z) →
            (b ≤ v ↔ ∀ s (hs : s < (y :: z :: L).length), b ≤ a (y :: z :: L)[s]) := by
          intro v hv
          rw [hv, hhead]
          constructor
          · rintro ⟨h0, h⟩ s hs
            cases s with
            | zero => simpa using h0
            | succ s => simpa using h s (by simpa using hs)
          · intro h
            exact ⟨h 0 (by simp), fun s hs => h (s + 1) (by simpa using hs)⟩
        apply key
        simp only [holmBackward]
        split
        · rename_i hlt
          rw [Function.update_self]
          rw [hy] at hlt
          exact ⟨fun h => ⟨h.trans hlt.le, h⟩, fun h => h.2⟩
        · rename_i hlt
          rw [hy] at hlt ⊢
          rw [not_lt] at hlt
          exact ⟨fun h => ⟨h, h.trans hlt⟩, fun h => h.1⟩
      | succ t =>
        have ht' : t < (z :: L).length := by simpa using ht
        have hne : (z :: L)[t] ≠ y := fun h => hL.1 (h ▸ List.getElem_mem ht')
        have hval : holmBackward (y :: z :: L) a (z :: L)[t] = holmBackward (z :: L) a (z :: L)[t] := by
          simp only [holmBackward]
          split
          · rw [Function.update_of_ne hne]
          · rfl
        simp only [List.getElem_cons_succ]
        rw [hval, ih' t ht']
        constructor
        · intro h s hs hts
          cases s with
          | zero => omega
          | succ s => simpa using h s (by simpa using hs) (by omega)
        · intro h s hs hts
          exact h (s + 1) (by simpa using hs) (by omega)

theorem byBackward_not_mem (y : Fin n) (L : List (Fin n)) (a : Fin n → K) (x : Fin n)
    (hx : x ∉ y :: L) : (byBackward y L a).1 x = a x := by
  induction L generalizing y with
  | nil => rfl
  | cons z L ih =>
    simp only [List.mem_cons, not_or] at hx
    have := ih z (by simp [hx.2])
    simp only [byBackward]
    split
    · simp only []
      rw [Function.update_of_ne hx.1, this]
    · exact this

theorem byBackward_snd (y : Fin n) (L : List (Fin n)) (a : Fin n → K) :
    (byBackward y L a).2 = (byBackward y L a).1 y := by
  cases L with
  | nil => rfl
  | cons z L =>
    simp only [byBackward]
    split
    · simp
    · rfl

/-- The two backward loops (`fwer.py:101-103` and `fdr.py:42-48`) do the same. -/
theorem byBackward_eq_holmBackward (y : Fin n) (L : List (Fin n)) (a : Fin n → K) :
    (byBackward y L a).1 = holmBackward (y :: L) a := by
  induction L generalizing y with
  | nil => rfl
  | cons z L ih =>
    simp only [byBackward, holmBackward]
    rw [byBackward_snd, ih z]
    split <;> rfl

/-! ### Ranks in the sorted index list -/

theorem sortedIndices_perm (p : Fin n → K) : (sortedIndices p).Perm (List.finRange n) :=
  List.perm_insertionSort _ _

theorem sortedIndices_length (p : Fin n → K) : (sortedIndices p).length = n := by
  simpa using (sortedIndices_perm p).length_eq

theorem sortedIndices_nodup (p : Fin n → K) : (sortedIndices p).Nodup :=
  (sortedIndices_perm p).nodup_iff.2 (List.nodup_finRange n)

theorem sortedIndices_mem (p : Fin n → K) (i : Fin n) : i ∈ sortedIndices p :=
  (sortedIndices_perm p).mem_iff.2 (List.mem_finRange i)

theorem sortedIndices_pairwise (p : Fin n → K) :
    (sortedIndices p).Pairwise (fun i j => p i ≤ p j) := by
  have : Std.Total (fun i j : Fin n => p i ≤ p j) := ⟨fun a b => le_total _ _⟩
  have : IsTrans (Fin n) (fun i j : Fin n => p i ≤ p j) := ⟨fun a b c => le_trans⟩
  exact List.pairwise_insertionSort _ _

theorem sortedIndices_mono (p : Fin n → K) (s t : ℕ) (ht : t < (sortedIndices p).length)
    (hst : s ≤ t) : p ((sortedIndices p)[s]'(by omega)) ≤ p (sortedIndices p)[t] := by
  rcases hst.eq_or_lt with rfl | h
  · exact le_rfl
  · exact List.pairwise_iff_getElem.1 (sortedIndices_pairwise p) s t _ ht h

/-- Position of an index in the sorted list. -/
theorem exists_pos (p : Fin n → K) (i : Fin n) :
    ∃ (s : ℕ) (hs : s < (sortedIndices p).length), (sortedIndices p)[s] = i :=
  List.getElem_of_mem (sortedIndices_mem p i)

/-- Counting along the sorted list. -/
theorem countLe_eq_countP (p : Fin n → K) (x : K) :
    countLe p x = (sortedIndices p).countP (fun k => decide (p k ≤ x)) := by
  classical
  unfold countLe
  rw [(sortedIndices_perm p).countP_eq]
  rw [List.countP_eq_length_filter, ← List.toFinset_card_of_nodup]
  · congr 1
    ext k
    simp
  · exact (List.nodup_finRange n).filter _

theorem lt_countLe (p : Fin n → K) (s : ℕ) (hs : s < (sortedIndices p).length) :
    s < countLe p (p (sortedIndices p)[s]) := by
  rw [countLe_eq_countP]
  have h1 : ((sortedIndices p).take (s + 1)).countP
      (fun k => decide (p k ≤ p (sortedIndices p)[s])) = s + 1 := by
    rw [List.countP_eq_length.2, List.length_take_of_le (by omega)]
    intro k hk
    rw [List.mem_take_iff_getElem] at hk
    obtain ⟨t, ht, rfl⟩ := hk
    simpa using sortedIndices_mono p t s hs (by omega)
  have h2 : ((sortedIndices p).take (s + 1)).countP
      (fun k => decide (p k ≤ p (sortedIndices p)[s])) ≤
      (sortedIndices p).countP (fun k => decide (p k ≤ p (sortedIndices p)[s])) :=
    (List.take_sublist _ _).countP_le
  omega

theorem countLe_pos (p : Fin n → K) (j : Fin n) : 0 < countLe p (p j) :=
  Finset.card_pos.2 ⟨j, by simp⟩

theorem countLe_le (p : Fin n → K) (x : K) : countLe p x ≤ n := by
  simpa [countLe] using Finset.card_filter_le (Finset.univ : Finset (Fin n)) (fun k => p k ≤ x)

theorem countLe_add_countGt (p : Fin n → K) (x : K) : countLe p x + countGt p x = n := by
  have := Finset.card_filter_add_card_filter_not (s := (Finset.univ : Finset (Fin n)))
    (fun k => p k ≤ x)
  simpa [countLe, countGt] using this

/-- The last member of the tie group of `j` sits at position `countLe - 1`. -/
theorem exists_last (p : Fin n → K) (j : Fin n) :
    ∃ hs : countLe p (p j) - 1 < (sortedIndices p).length,
      p (sortedIndices p)[countLe p (p j) - 1] = p j := by
  have hpos := countLe_pos p j
  have hle := countLe_le p (p j)
  have hlen := sortedIndices_length p
  have hs : countLe p (p j) - 1 < (sortedIndices p).length := by omega
  refine ⟨hs, ?_⟩
  obtain ⟨s, hs', hj⟩ := exists_pos p j
  have h1 := lt_countLe p s hs'
  rw [hj] at h1
  apply le_antisymm
  · -- otherwise at most `countLe - 1` elements are `≤ p j`
    by_contra hcon
    rw [not_le] at hcon
    have : (sortedIndices p).countP (fun k => decide (p k ≤ p j)) ≤ countLe p (p j) - 1 := by
      rw [← List.take_append_drop (countLe p (p j) - 1) (sortedIndices p), List.countP_append]
      have hz : (List.drop (countLe p (p j) - 1) (sortedIndices p)).countP
          (fun k => decide (p k ≤ p j)) = 0 := by
        rw [List.countP_eq_zero]
        intro k hk
        obtain ⟨t, ht, rfl⟩ := List.mem_iff_getElem.1 hk
        rw [List.getElem_drop]
        have := sortedIndices_mono p (countLe p (p j) - 1) (countLe p (p j) - 1 + t)
          (by simpa [List.length_drop] using (by simp at ht; omega)) (by omega)
        simpa using lt_of_lt_of_le hcon this
      rw [hz, Nat.add_zero]
      exact List.countP_le_length.trans (by simp)
    rw [← countLe_eq_countP] at this
    omega
  · have := sortedIndices_mono p s (countLe p (p j) - 1) hs (by omega)
    rwa [hj] at this

/-! ### Generic step-up closed form -/

/-- Generic step-up formula with the value `w r x` for rank `r` (counted from 0) and
p-value `x`. -/
def stepUp (w : ℕ → K → K) (p : Fin n → K) (i : Fin n) : K :=
  (Finset.univ.filter (fun j => p i ≤ p j)).inf' (nonempty_ge p i)
    (fun j => w (countLe p (p j) - 1) (p j))

theorem le_stepUp_iff (w : ℕ → K → K) (p : Fin n → K) (i : Fin n) (b : K) :
    b ≤ stepUp w p i ↔ ∀ j, p i ≤ p j → b ≤ w (countLe p (p j) - 1) (p j) := by
  unfold stepUp; rw [Finset.le_inf'_iff]; simp

theorem stepUp_le_iff (w : ℕ → K → K) (p : Fin n → K) (i : Fin n) (b : K) :
    stepUp w p i ≤ b ↔ ∃ j, p i ≤ p j ∧ w (countLe p (p j) - 1) (p j) ≤ b := by
  unfold stepUp; rw [Finset.inf'_le_iff]; simp

theorem stepUp_lt_iff (w : ℕ → K → K) (p : Fin n → K) (i : Fin n) (b : K) :
    stepUp w p i < b ↔ ∃ j, p i ≤ p j ∧ w (countLe p (p j) - 1) (p j) < b := by
  unfold stepUp; rw [Finset.inf'_lt_iff]; simp

/-- A backward running minimum over the sorted list is the step-up formula. -/
theorem backward_eq_stepUp (w : ℕ → K → K) (p : Fin n → K)
    (hw : ∀ s t j, s ≤ t → t < n → w t (p j) ≤ w s (p j))
    (a : Fin n → K)
    (ha : ∀ s (hs : s < (sortedIndices p).length),
      a (sortedIndices p)[s] = w s (p (sortedIndices p)[s]))
    (i : Fin n) : holmBackward (sortedIndices p) a i = stepUp w p i := by
  have hlen := sortedIndices_length p
  apply eq_of_forall_le_iff
  intro b
  obtain ⟨t, ht, hi⟩ := exists_pos p i
  rw [← hi, le_holmBackward_iff _ _ _ (sortedIndices_nodup p), le_stepUp_iff]
  constructor
  · intro h j hj
    obtain ⟨hs, hlast⟩ := exists_last p j
    have htl : t ≤ countLe p (p j) - 1 := by
      obtain ⟨s, hs', hjs⟩ := exists_pos p j
      by_contra hcon
      rw [not_le] at hcon
      have h1 := lt_countLe p t ht
      have : countLe p (p (sortedIndices p)[t]) ≤ countLe p (p j) := by
        apply Finset.card_le_card
        intro k hk
        simp only [Finset.mem_filter, Finset.mem_univ, true_and] at hk ⊢
        exact hk.trans hj
      omega
    have := h _ hs htl
    rwa [ha, hlast] at this
  · intro h s hs hts
    rw [ha]
    refine (h (sortedIndices p)[s] (sortedIndices_mono p t s hs hts)).trans ?_
    have h1 := lt_countLe p s hs
    have h2 := countLe_le p (p (sortedIndices p)[s])
    exact hw _ _ _ (by omega) (by omega)

/-- Value used by Holm at (0-based) rank `r`. -/
def holmW (K : Type) [Field K] [LinearOrder K] (n r : ℕ) (x : K) : K := min 1 (x * ((n : K) - (r : K)))

/-- Value used by Benjamini-Yekutieli at (0-based) rank `r`. -/
def byW (n : ℕ) (c : K) (r : ℕ) (x : K) : K := min 1 (x * (n : K) * c / ((r + 1 : ℕ) : K))

variable [IsStrictOrderedRing K]

theorem holmW_anti (s t : ℕ) (x : K) (hx : 0 ≤ x) (hst : s ≤ t) :
    holmW K n t x ≤ holmW K n s x := by
  have : (s : K) ≤ t := by exact_mod_cast hst
  unfold holmW
  gcongr

theorem byW_anti (c : K) (hc : 0 ≤ c) (s t : ℕ) (x : K) (hx : 0 ≤ x) (hst : s ≤ t) :
    byW n c t x ≤ byW n c s x := by
  have h : ((s + 1 : ℕ) : K) ≤ ((t + 1 : ℕ) : K) := by exact_mod_cast Nat.succ_le_succ hst
  have h0 : (0 : K) < ((s + 1 : ℕ) : K) := by exact_mod_cast Nat.succ_pos s
  unfold byW
  gcongr

theorem holmW_mono (r : ℕ) (hr : r ≤ n) (x y : K) (hxy : x ≤ y) : holmW K n r x ≤ holmW K n r y := by
  have : (r : K) ≤ n := by exact_mod_cast hr
  have : 0 ≤ (n : K) - r := by linarith
  unfold holmW
  gcongr

theorem byW_mono (c : K) (hc : 0 ≤ c) (r : ℕ) (x y : K) (hxy : x ≤ y) :
    byW n c r x ≤ byW n c r y := by
  unfold byW
  gcongr

/-- Closed form of `Holm.adjust` on a non-negative vector. -/
theorem holmAdjust_eq (p : List K) (hp : ∀ x ∈ p, 0 ≤ x) :
    holmAdjust p = List.ofFn (stepUp (holmW K p.length) p.get) := by
  unfold holmAdjust
  split
  · rename_i h
    have : p = [] := List.length_eq_zero_iff.1 h
    subst this
    rfl
  · simp only
    congr 1
    funext i
    apply backward_eq_stepUp
    · intro s t j hst _
      exact holmW_anti s t _ (hp _ (List.get_mem _ _)) hst
    · intro s hs
      rw [holmForward_get _ _ _ _ (sortedIndices_nodup _)]
      simp [holmW]

/-- Closed form of `BenjaminiYekutieli.adjust` on a non-negative vector. -/
theorem byAdjustWith_eq (c : K) (hc : 0 ≤ c) (p : List K) (hp : ∀ x ∈ p, 0 ≤ x) :
    byAdjustWith c p = List.ofFn (stepUp (byW p.length c) p.get) := by
  unfold byAdjustWith
  split
  · rename_i h
    have : p = [] := List.length_eq_zero_iff.1 h
    subst this
    rfl
  · rename_i hlen
    have hl := sortedIndices_length p.get
    have key : ∀ i, holmBackward (sortedIndices p.get)
        (byForward c p.get 0 (sortedIndices p.get) fun _ => 0) i =
        stepUp (byW p.length c) p.get i := by
      intro i
      apply backward_eq_stepUp
      · intro s t j hst _
        exact byW_anti c hc s t _ (hp _ (List.get_mem _ _)) hst
      · intro s hs
        rw [byForward_get _ _ _ _ _ (sortedIndices_nodup _)]
        simp [byW]
    cases hsi : sortedIndices p.get with
    | nil => rw [hsi] at hl; simp at hl; omega
    | cons x rest =>
      simp only
      rw [byBackward_eq_holmBackward, ← hsi]
      congr 1
      funext i
      exact key i

/-! ### Consequences of the step-up form -/

omit [IsStrictOrderedRing K] in
theorem stepUp_mono (w : ℕ → K → K) (p : Fin n → K) (i j : Fin n) (h : p i ≤ p j) :
    stepUp w p i ≤ stepUp w p j := by
  rw [le_stepUp_iff]
  intro k hk
  exact (le_stepUp_iff w p i _).1 le_rfl k (h.trans hk)

omit [IsStrictOrderedRing K] in
theorem countLe_comp_perm (p : Fin n → K) (σ : Equiv.Perm (Fin n)) (x : K) :
    countLe (p ∘ σ) x = countLe p x := by
  unfold countLe
  refine Finset.card_bij (fun k _ => σ k) ?_ ?_ ?_
  · intro k hk; simpa using hk
  · intro a _ b _ h; exact σ.injective h
  · intro b hb; exact ⟨σ.symm b, by simpa using hb, by simp⟩

omit [IsStrictOrderedRing K] in
theorem stepUp_comp_perm (w : ℕ → K → K) (p : Fin n → K) (σ : Equiv.Perm (Fin n)) (i : Fin n) :
    stepUp w (p ∘ σ) i = stepUp w p (σ i) := by
  apply eq_of_forall_le_iff
  intro b
  rw [le_stepUp_iff, le_stepUp_iff]
  simp only [countLe_comp_perm, Function.comp]
  exact ⟨fun h j hj => by simpa using h (σ.symm j) (by simpa using hj), fun h j hj => h (σ j) hj⟩

omit [IsStrictOrderedRing K] in
/-- Raising p-values raises the step-up values. -/
theorem stepUp_le_stepUp (w : ℕ → K → K) (p q : Fin n → K)
    (hanti : ∀ s t j, s ≤ t → t < n → w t (p j) ≤ w s (p j))
    (hmono : ∀ r x y, r < n → x ≤ y → w r x ≤ w r y)
    (hpq : ∀ i, p i ≤ q i) (i : Fin n) : stepUp w p i ≤ stepUp w q i := by
  rw [le_stepUp_iff]
  intro j hj
  rw [stepUp_le_iff]
  -- the largest `p`-value that is at most `q j`
  obtain ⟨k, hk, hkmax⟩ := Finset.exists_max_image
    (Finset.univ.filter (fun k => p k ≤ q j)) p ⟨i, by simpa using (hpq i).trans hj⟩
  simp only [Finset.mem_filter, Finset.mem_univ, true_and] at hk hkmax
  have hcount : countLe q (q j) ≤ countLe p (p k) := by
    apply Finset.card_le_card
    intro l hl
    simp only [Finset.mem_filter, Finset.mem_univ, true_and] at hl ⊢
    exact hkmax l ((hpq l).trans hl)
  have h1 := countLe_pos q j
  have h2 := countLe_le p (p k)
  have h3 := countLe_le q (q j)
  refine ⟨k, hkmax i ((hpq i).trans hj), ?_⟩
  exact (hanti _ _ _ (by omega) (by omega)).trans (hmono _ _ _ (by omega) hk)

theorem harmonicSum_eq (n : ℕ) : (harmonicSum n : K) = harmonicNumber n := by
  unfold harmonicSum harmonicNumber
  induction n with
  | zero => simp
  | succ n ih => rw [List.range_succ, List.map_append, List.sum_append, ih, Finset.sum_range_succ]; simp

theorem one_le_harmonicSum (n : ℕ) (hn : 0 < n) : (1 : K) ≤ harmonicSum n := by
  rw [harmonicSum_eq]
  unfold harmonicNumber
  obtain ⟨m, rfl⟩ : ∃ m, n = m + 1 := ⟨n - 1, by omega⟩
  rw [Finset.sum_range_succ']
  have : 0 ≤ ∑ k ∈ Finset.range m, 1 / (((k + 1 : ℕ) : K) + 1) := by
    apply Finset.sum_nonneg
    intro k _
    positivity
  simpa using this

end Pysatl.MultipleTesting
