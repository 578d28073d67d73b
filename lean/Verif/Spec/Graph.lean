import Mathlib.Combinatorics.SimpleGraph.Clique
import Mathlib.Combinatorics.SimpleGraph.Finite
import Mathlib.Combinatorics.SimpleGraph.DegreeSum
import Mathlib.Combinatorics.SimpleGraph.Connectivity.Connected
import Mathlib.Algebra.Order.Field.Basic

/-!
# Specification of the graph statistics

The proximity graph of a sample: its vertices are the positions of the sample, and two different
positions are adjacent when their values differ by less than the threshold.  Edges, degrees,
connected components, cliques and independent sets are Mathlib's.
-/

namespace Pysatl.Graph

variable {K : Type} [Field K] [LinearOrder K]

/-- The proximity graph. -/
def proximity (rvs : List K) (d : K) : SimpleGraph (Fin rvs.length) where
  Adj i j := i ≠ j ∧ |rvs[i] - rvs[j]| < d
  symm := ⟨fun i j ⟨h1, h2⟩ => ⟨h1.symm, by rw [abs_sub_comm]; exact h2⟩⟩
  loopless := ⟨fun i h => h.1 rfl⟩

instance (rvs : List K) (d : K) : DecidableRel (proximity rvs d).Adj := fun _ _ =>
  inferInstanceAs (Decidable (_ ∧ _))

/-- The threshold rules of the library: a tenth of the range of the sample, or that divided by the
mean (exponentiality family) or by the population variance (normality family) unless the divisor
is zero. -/
inductive Rule where
  | range
  | overMean
  | overVariance
  deriving DecidableEq

/-- `d` is the threshold of the sample under the rule. -/
def IsThreshold (r : Rule) (rvs : List K) (d : K) : Prop :=
  ∃ hi ∈ rvs, ∃ lo ∈ rvs, (∀ x ∈ rvs, lo ≤ x ∧ x ≤ hi) ∧
    let n : K := rvs.length
    let m := rvs.sum / n
    let v := (rvs.map (fun x => (x - m) ^ 2)).sum / n
    match r with
    | .range => d = (hi - lo) / 10
    | .overMean => d = if m = 0 then (hi - lo) / 10 else (hi - lo) / 10 / m
    | .overVariance => d = if v = 0 then (hi - lo) / 10 else (hi - lo) / 10 / v

/-- The number of observations within the threshold of the largest one. -/
def topCluster (rvs : List K) (d : K) : ℕ :=
  (Finset.univ.filter (fun j : Fin rvs.length => ∀ i : Fin rvs.length, rvs[i] - rvs[j] < d)).card

end Pysatl.Graph
