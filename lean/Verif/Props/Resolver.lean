import Verif.Model.Resolver
import Verif.Lemmas.Decision

/-! # Properties of the Monte Carlo resolver -/

set_option linter.unusedSectionVars false

namespace Pysatl.Props

open Pysatl.Decision Pysatl.Resolver

variable {σ K : Type}

/-- Specification: from world `w`, running "draw a sample of the given size, evaluate the
statistic on it" several times, one after the other, yields these values and this world. -/
inductive Simulated (generate : ℤ → Py σ (List K)) (execute : List K → Py σ K) (size : ℤ) :
    σ → List K → σ → Prop
  | done (w) : Simulated generate execute size w [] w
  | run {w w1 w2 w3 : σ} {sample : List K} {value : K} {values : List K} :
      (generate size).exec w = (.ok sample, w1) → (execute sample).exec w1 = (.ok value, w2) →
      Simulated generate execute size w2 values w3 →
      Simulated generate execute size w (value :: values) w3

/-- One run fails from world `w` with error `e`, leaving `w'`. -/
def RunFails (generate : ℤ → Py σ (List K)) (execute : List K → Py σ K) (size : ℤ) (w : σ)
    (e : PyErr) (w' : σ) : Prop :=
  (generate size).exec w = (.error e, w') ∨
    ∃ sample w1, (generate size).exec w = (.ok sample, w1) ∧ (execute sample).exec w1 = (.error e, w')

theorem mcLoop_spec (generate : ℤ → Py σ (List K)) (execute : List K → Py σ K) (size : ℤ) (n : ℕ)
    (w : σ) :
    (∀ L w', (mcLoop generate execute size n).exec w = (.ok L, w') →
      L.length = n ∧ Simulated generate execute size w L w') ∧
    (∀ e w', (mcLoop generate execute size n).exec w = (.error e, w') →
      ∃ L w1, L.length < n ∧ Simulated generate execute size w L w1 ∧
        RunFails generate execute size w1 e w') := by
  induction n generalizing w with
  | zero =>
    refine ⟨?_, ?_⟩
    · intro L w' h
      simp only [mcLoop, exec_pure, Prod.mk.injEq, Except.ok.injEq] at h
      obtain ⟨rfl, rfl⟩ := h
      exact ⟨rfl, .done w⟩
    · intro e w' h
      simp [mcLoop] at h
  | succ n ih =>
    rcases hg : (generate size).exec w with ⟨e1 | sample, w1⟩
    · refine ⟨?_, ?_⟩
      · intro L w' h
        simp [mcLoop, exec_bind, hg] at h
      · intro e w' h
        simp only [mcLoop, exec_bind, hg, Prod.mk.injEq, Except.error.injEq] at h
        obtain ⟨rfl, rfl⟩ := h
        exact ⟨[], w, by simp, .done w, Or.inl hg⟩
    · rcases he : (execute sample).exec w1 with ⟨e2 | value, w2⟩
      · refine ⟨?_, ?_⟩
        · intro L w' h
          simp [mcLoop, exec_bind, hg, he] at h
        · intro e w' h
          simp only [mcLoop, exec_bind, hg, he, Prod.mk.injEq, Except.error.injEq] at h
          obtain ⟨rfl, rfl⟩ := h
          exact ⟨[], w, by simp, .done w, Or.inr ⟨sample, w1, hg, he⟩⟩
      · rcases hr : (mcLoop generate execute size n).exec w2 with ⟨e3 | rest, w3⟩
        · refine ⟨?_, ?_⟩
          · intro L w' h
            simp only [mcLoop, exec_bind, hg, he, hr, exec_pure, Prod.mk.injEq] at h
            exact absurd h.1 (by simp)
          · intro e w' h
            simp only [mcLoop, exec_bind, hg, he, hr, Prod.mk.injEq, Except.error.injEq] at h
            obtain ⟨rfl, rfl⟩ := h
            obtain ⟨L, w4, hl, hs, hf⟩ := (ih w2).2 e3 w3 hr
            exact ⟨value :: L, w4, by simp; omega, .run hg he hs, hf⟩
        · refine ⟨?_, ?_⟩
          · intro L w' h
            simp only [mcLoop, exec_bind, hg, he, hr, exec_pure, Prod.mk.injEq, Except.ok.injEq] at h
            obtain ⟨rfl, rfl⟩ := h
            obtain ⟨hl, hs⟩ := (ih w2).1 rest w3 hr
            exact ⟨by simp [hl], .run hg he hs⟩
          · intro e w' h
            simp only [mcLoop, exec_bind, hg, he, hr, exec_pure, Prod.mk.injEq] at h
            exact absurd h.1 (by simp)

/-- C29: a resolver exists exactly for positive counts; a non-positive size raises `ValueError`
and leaves the world (in particular the random number generator) untouched; a returned list has
exactly the requested number of values, the results of that many runs, each on a fresh sample of
the requested size, one after the other; an error is the error of the first run that fails (or
of the generator lookup), and then no list is returned. -/
theorem C29_monte_carlo (count : ℤ) (getGenerator : Py σ (ℤ → Py σ (List K)))
    (execute : List K → Py σ K) (size : ℤ) (w : σ) :
    (count ≤ 0 → mcInit count = .error .valueError) ∧
    (0 < count → ∃ n, mcInit count = .ok n ∧ (n : ℤ) = count ∧
      (size ≤ 0 → (mcResolve n getGenerator execute size).exec w = (.error .valueError, w)) ∧
      (0 < size →
        (∀ L w', (mcResolve n getGenerator execute size).exec w = (.ok L, w') →
          (L.length : ℤ) = count ∧ ∃ generate w0, getGenerator.exec w = (.ok generate, w0) ∧
            Simulated generate execute size w0 L w') ∧
        (∀ e w', (mcResolve n getGenerator execute size).exec w = (.error e, w') →
          getGenerator.exec w = (.error e, w') ∨
          ∃ generate w0, getGenerator.exec w = (.ok generate, w0) ∧
            ∃ L w1, (L.length : ℤ) < count ∧ Simulated generate execute size w0 L w1 ∧
              RunFails generate execute size w1 e w'))) := by
  refine ⟨fun h => by simp [mcInit, h], fun h => ⟨count.toNat, ?_, ?_, ?_, ?_⟩⟩
  · simp [mcInit, not_le.2 h]
  · omega
  · intro hs
    simp [mcResolve, hs]
  · intro hs
    have hn : ¬ size ≤ 0 := not_le.2 hs
    rcases hg : getGenerator.exec w with ⟨e0 | generate, w0⟩
    · refine ⟨?_, ?_⟩
      · intro L w' h'
        simp [mcResolve, hn, exec_bind, hg] at h'
      · intro e w' h'
        simp only [mcResolve, if_neg hn, exec_bind, hg, Prod.mk.injEq, Except.error.injEq] at h'
        obtain ⟨rfl, rfl⟩ := h'
        exact Or.inl rfl
    · have hrun : (mcResolve count.toNat getGenerator execute size).exec w =
          (mcLoop generate execute size count.toNat).exec w0 := by
        simp [mcResolve, hn, exec_bind, hg]
      refine ⟨?_, ?_⟩
      · intro L w' h'
        obtain ⟨hl, hsim⟩ := (mcLoop_spec generate execute size count.toNat w0).1 L w' (hrun ▸ h')
        exact ⟨by omega, generate, w0, rfl, hsim⟩
      · intro e w' h'
        obtain ⟨L, w1, hl, hsim, hf⟩ :=
          (mcLoop_spec generate execute size count.toNat w0).2 e w' (hrun ▸ h')
        exact Or.inr ⟨generate, w0, rfl, L, w1, by omega, hsim, hf⟩

/-- A generator that counts how often it was called and returns a constant sample. -/
def countingGenerator (n : ℤ) : Py ℕ (List ℚ) :=
  ExceptT.mk fun w => (.ok (List.replicate n.toNat (w : ℚ)), w + 1)

example : (mcResolve 3 (pure countingGenerator) (fun s => pure (s.sum)) 2).exec 5 =
    (.ok [10, 12, 14], 8) := by
  have h : ∀ w : ℕ, (countingGenerator 2).exec w = (.ok [(w : ℚ), w], w + 1) := fun _ => rfl
  simp only [mcResolve, mcLoop, exec_bind, exec_pure, h, if_neg (show ¬ (2 : ℤ) ≤ 0 by decide)]
  norm_num

end Pysatl.Props
