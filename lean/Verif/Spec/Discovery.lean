import Mathlib.Logic.Relation
import Verif.Model.Discovery

/-!
# Specification for C70: the classes below a class
-/

namespace Pysatl.Spec

/-- `x` is a subclass of `root`, direct or not, other than `root` itself: there is a chain of
direct subclasses from `root` to `x`. -/
def Below (H : Discovery.Hierarchy) (root x : ℕ) : Prop :=
  Relation.TransGen (fun a b => b ∈ H.subs a) root x

/-- `iter` is a way of running through finite sets, each member once, in any order. -/
def Enumerates (iter : Finset ℕ → List ℕ) : Prop := ∀ s, (iter s).Nodup ∧ ∀ x, x ∈ iter s ↔ x ∈ s

end Pysatl.Spec
