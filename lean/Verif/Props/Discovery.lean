import Verif.Spec.Discovery
import Mathlib.Data.Finset.Sort

/-! # C70: discovery of classes -/

namespace Pysatl.Props

open Pysatl Pysatl.Spec Pysatl.Discovery

theorem foldl_insert_union {α : Type} (g : α → ℕ) (f : α → Finset ℕ) :
    ∀ (l : List α) (acc : Finset ℕ) (x : ℕ),
      x ∈ l.foldl (fun acc s => insert (g s) (acc ∪ f s)) acc ↔
        x ∈ acc ∨ ∃ s ∈ l, x = g s ∨ x ∈ f s
  | [], acc, x => by simp
  | a :: l, acc, x => by
    rw [List.foldl_cons, foldl_insert_union g f l]
    simp only [Finset.mem_insert, Finset.mem_union, List.mem_cons]
    constructor
    · rintro ((h | h | h) | ⟨s, hs, h⟩)
      · exact Or.inr ⟨a, Or.inl rfl, Or.inl h⟩
      · exact Or.inl h
      · exact Or.inr ⟨a, Or.inl rfl, Or.inr h⟩
      · exact Or.inr ⟨s, Or.inr hs, h⟩
    · rintro (h | ⟨s, rfl | hs, h⟩)
      · exact Or.inl (Or.inr (Or.inl h))
      · rcases h with h | h
        · exact Or.inl (Or.inl h)
        · exact Or.inl (Or.inr (Or.inr h))
      · exact Or.inr ⟨s, hs, h⟩

theorem below_step {H : Hierarchy} {c x : ℕ} :
    Below H c x ↔ ∃ s ∈ H.subs c, x = s ∨ Below H s x := by
  unfold Below
  rw [Relation.TransGen.head'_iff]
  constructor
  · rintro ⟨s, hs, h⟩
    rcases Relation.reflTransGen_iff_eq_or_transGen.1 h with h | h
    · exact ⟨s, hs, Or.inl h⟩
    · exact ⟨s, hs, Or.inr h⟩
  · rintro ⟨s, hs, h | h⟩
    · exact ⟨s, hs, h ▸ Relation.ReflTransGen.refl⟩
    · exact ⟨s, hs, h.to_reflTransGen⟩

/-- **C70** The set of subclasses found is the set of all classes below the root. -/
theorem C70_subclasses (H : Hierarchy) (root x : ℕ) :
    x ∈ allSubclasses H root ↔ Below H root x := by
  have : ∀ n c x, H.count - c ≤ n → (x ∈ allSubclasses H c ↔ Below H c x) := by
    intro n
    induction n with
    | zero =>
      intro c x hn
      have hs : H.subs c = [] := by
        rw [List.eq_nil_iff_forall_not_mem]
        intro s hs
        have := H.later c s hs
        omega
      rw [allSubclasses, below_step, hs]
      simp
    | succ n ih =>
      intro c x hn
      rw [allSubclasses, below_step, foldl_insert_union]
      simp only [Finset.notMem_empty, false_or, List.mem_attach, true_and, Subtype.exists]
      constructor
      · rintro ⟨s, hs, h | h⟩
        · exact ⟨s, hs, Or.inl h⟩
        · have := H.later c s hs
          exact ⟨s, hs, Or.inr ((ih s x (by omega)).1 h)⟩
      · rintro ⟨s, hs, h | h⟩
        · exact ⟨s, hs, Or.inl h⟩
        · have := H.later c s hs
          exact ⟨s, hs, Or.inr ((ih s x (by omega)).2 h)⟩
  exact this _ root x (le_refl _)

/-- **C70** `get_available_criteria` lists the short code of every concrete class below the root
with the wanted distribution, once for each class. -/
theorem C70_criteria {D : Type} [DecidableEq D] (H : Hierarchy) {iter : Finset ℕ → List ℕ}
    (hi : Enumerates iter) (root : ℕ) (dist : ℕ → D) (short : ℕ → String) (d : D) :
    ∃ classes : List ℕ, classes.Nodup ∧
      (∀ c, c ∈ classes ↔ Below H root c ∧ H.concrete c = true ∧ dist c = d) ∧
      availableCriteria H iter root dist short d = classes.map short := by
  refine ⟨_, (hi _).1.filter _, ?_, rfl⟩
  intro c
  rw [List.mem_filter, (hi _).2, C70_subclasses]
  simp

/-- **C70** `get_available_generator` returns a concrete class below the root with the wanted
distribution, and raises `StopIteration` exactly when there is none. -/
theorem C70_generator {D : Type} [DecidableEq D] (H : Hierarchy) {iter : Finset ℕ → List ℕ}
    (hi : Enumerates iter) (root : ℕ) (dist : ℕ → D) (d : D) :
    (∃ c, availableGenerator H iter root dist d = .ok c ∧
      Below H root c ∧ H.concrete c = true ∧ dist c = d) ∨
    (availableGenerator H iter root dist d = .error .stopIteration ∧
      ∀ c, Below H root c → H.concrete c = true → dist c ≠ d) := by
  have hm : ∀ c, c ∈ (iter (allSubclasses H root)).filter (fun c => H.concrete c && decide (dist c = d)) ↔
      Below H root c ∧ H.concrete c = true ∧ dist c = d := by
    intro c
    rw [List.mem_filter, (hi _).2, C70_subclasses]
    simp
  unfold availableGenerator
  cases hl : (iter (allSubclasses H root)).filter (fun c => H.concrete c && decide (dist c = d)) with
  | nil =>
    right
    refine ⟨rfl, fun c h1 h2 h3 => ?_⟩
    have := (hm c).2 ⟨h1, h2, h3⟩
    rw [hl] at this
    simp at this
  | cons c l =>
    left
    exact ⟨c, rfl, (hm c).1 (by rw [hl]; simp)⟩

theorem mem_iterDescriptors (H : Hierarchy) (root x : ℕ) :
    x ∈ iterDescriptors H root ↔ Below H root x ∧ H.concrete x = true := by
  have : ∀ n c x, H.count - c ≤ n → (x ∈ iterDescriptors H c ↔ Below H c x ∧ H.concrete x = true) := by
    intro n
    induction n with
    | zero =>
      intro c x hn
      have hs : H.subs c = [] := by
        rw [List.eq_nil_iff_forall_not_mem]
        intro s hs
        have := H.later c s hs
        omega
      rw [iterDescriptors, below_step, hs]
      simp
    | succ n ih =>
      intro c x hn
      rw [iterDescriptors, below_step, List.mem_flatMap]
      simp only [List.mem_attach, true_and, Subtype.exists, List.mem_append]
      constructor
      · rintro ⟨s, hs, h | h⟩
        · have := H.later c s hs
          have h' := (ih s x (by omega)).1 h
          exact ⟨⟨s, hs, Or.inr h'.1⟩, h'.2⟩
        · by_cases hc : H.concrete s = true
          · rw [if_pos hc, List.mem_singleton] at h
            exact ⟨⟨s, hs, Or.inl h⟩, h ▸ hc⟩
          · rw [if_neg hc] at h
            simp at h
      · rintro ⟨⟨s, hs, h | h⟩, hc⟩
        · refine ⟨s, hs, Or.inr ?_⟩
          rw [h] at hc ⊢
          rw [if_pos hc]
          simp
        · have := H.later c s hs
          exact ⟨s, hs, Or.inl ((ih s x (by omega)).2 ⟨h, hc⟩)⟩
  exact this _ root x (le_refl _)

/-- **C70** `get_available_distribution_descriptor` returns a concrete class below the root with
the wanted distribution, and raises `StopIteration` exactly when there is none. -/
theorem C70_descriptor {D : Type} [DecidableEq D] (H : Hierarchy) (root : ℕ) (dist : ℕ → D) (d : D) :
    (∃ c, availableDescriptor H root dist d = .ok c ∧
      Below H root c ∧ H.concrete c = true ∧ dist c = d) ∨
    (availableDescriptor H root dist d = .error .stopIteration ∧
      ∀ c, Below H root c → H.concrete c = true → dist c ≠ d) := by
  have hm : ∀ c, c ∈ (iterDescriptors H root).filter (fun c => decide (dist c = d)) ↔
      Below H root c ∧ H.concrete c = true ∧ dist c = d := by
    intro c
    rw [List.mem_filter, mem_iterDescriptors]
    simp [and_assoc]
  unfold availableDescriptor
  cases hl : (iterDescriptors H root).filter (fun c => decide (dist c = d)) with
  | nil =>
    right
    refine ⟨rfl, fun c h1 h2 h3 => ?_⟩
    have := (hm c).2 ⟨h1, h2, h3⟩
    rw [hl] at this
    simp at this
  | cons c l =>
    left
    exact ⟨c, rfl, (hm c).1 (by rw [hl]; simp)⟩

/-- A diamond: 1 and 2 below 0, and 3 below both. -/
def diamond : Hierarchy where
  subs c := if c = 0 then [1, 2] else if c = 1 ∨ c = 2 then [3] else []
  count := 4
  nodup c := by
    split_ifs <;> decide
  later c s := by
    split_ifs with h1 h2
    · subst h1
      simp only [List.mem_cons, List.not_mem_nil, or_false]
      omega
    · simp only [List.mem_cons, List.not_mem_nil, or_false]
      omega
    · simp
  concrete c := c != 0

theorem iterDescriptors_eq (H : Hierarchy) (c : ℕ) :
    iterDescriptors H c = (H.subs c).flatMap fun s =>
      iterDescriptors H s ++ if H.concrete s then [s] else [] := by
  rw [iterDescriptors]
  simp

theorem diamond_leaf : iterDescriptors diamond 3 = [] := by
  rw [iterDescriptors_eq]
  rfl

theorem diamond_mid {c : ℕ} (h : c = 1 ∨ c = 2) : iterDescriptors diamond c = [3] := by
  have e : diamond.subs c = [3] := by
    rcases h with rfl | rfl <;> rfl
  rw [iterDescriptors_eq, e, List.flatMap_cons, diamond_leaf]
  rfl

/-- **C70, refuted** for the iterator over descriptor classes itself: with multiple inheritance it
yields a class once for every path to it. -/
theorem C70_refuted_iterator : iterDescriptors diamond 0 = [3, 1, 3, 2] ∧ ¬ (iterDescriptors diamond 0).Nodup := by
  have e : diamond.subs 0 = [1, 2] := rfl
  have h : iterDescriptors diamond 0 = [3, 1, 3, 2] := by
    rw [iterDescriptors_eq, e, List.flatMap_cons, List.flatMap_cons, diamond_mid (Or.inl rfl),
      diamond_mid (Or.inr rfl)]
    rfl
  rw [h]
  exact ⟨rfl, by decide⟩

/-- Sets can be enumerated; three classes lie below the root of the diamond, one of them by two
paths. -/
example : Enumerates (fun s => s.sort (· ≤ ·)) ∧ Below diamond 0 1 ∧ Below diamond 0 2 ∧ Below diamond 0 3 := by
  refine ⟨fun s => ⟨Finset.sort_nodup _ _, fun x => Finset.mem_sort _⟩, ?_, ?_, ?_⟩
  · exact below_step.2 ⟨1, by simp [diamond], Or.inl rfl⟩
  · exact below_step.2 ⟨2, by simp [diamond], Or.inl rfl⟩
  · exact below_step.2 ⟨2, by simp [diamond], Or.inr (below_step.2 ⟨3, by simp [diamond], Or.inl rfl⟩)⟩

end Pysatl.Props
