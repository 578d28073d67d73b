import Verif.Spec.NormalShape
import Mathlib.Topology.Instances.EReal.Lemmas

/-! # Specification: one observation moved away from the others -/

namespace Pysatl.Spec

open Filter Topology

/-- For samples of size `n`: as one observation is moved away to the right, the others staying where they
are, the value of the criterion tends to a limit, possibly infinite, which no sample of this size
with two different observations exceeds. -/
def StrongestAtInfinity {E : Type} (stat : List ℝ → Except E (Option ℝ)) (n : ℕ) : Prop :=
  ∀ xs : List ℝ, xs.length + 1 = n → ∃ (f : ℝ → ℝ) (L : EReal),
    (∀ᶠ y in atTop, stat (y :: xs) = .ok (some (f y))) ∧
    Tendsto (fun y => (f y : EReal)) atTop (𝓝 L) ∧
    ∀ (zs : List ℝ) (v : ℝ), zs.length = n → (∃ a ∈ zs, ∃ b ∈ zs, a ≠ b) →
      stat zs = .ok (some v) → (v : EReal) ≤ L

end Pysatl.Spec
