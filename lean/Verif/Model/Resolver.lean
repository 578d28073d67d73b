import Verif.Model.Decision

/-!
# Model of the Monte Carlo limit distribution resolver

`/repo/src/pysatl_criterion/hypothesis_testing/limit_distribution/base.py` 35-80.

`σ` is the world (state of numpy's random number generator).  The generator lookup
(`get_available_generator`, modelled in `Model/Generators.lean`) and the statistic are
parameters that may raise and change the world.
-/

namespace Pysatl.Resolver

open Pysatl.Decision

variable {σ K : Type}

/-- `MonteCarloLimitDistributionResolver.__init__`, `base.py` 40-53: the stored count. -/
def mcInit (monteCarloCount : ℤ) : Except PyErr ℕ :=
  if monteCarloCount ≤ 0 then .error .valueError else .ok monteCarloCount.toNat

/-- The loop `for i in range(count)`, `base.py` 77-78; the slots of `np.empty(count)` are
filled in order. -/
def mcLoop (generate : ℤ → Py σ (List K)) (execute : List K → Py σ K) (sampleSize : ℤ) :
    ℕ → Py σ (List K)
  | 0 => pure []
  | n + 1 => do
    let sample ← generate sampleSize
    let value ← execute sample
    let rest ← mcLoop generate execute sampleSize n
    return value :: rest

/-- `resolve`, `base.py` 55-80. -/
def mcResolve (count : ℕ) (getGenerator : Py σ (ℤ → Py σ (List K))) (execute : List K → Py σ K)
    (sampleSize : ℤ) : Py σ (List K) :=
  if sampleSize ≤ 0 then throw .valueError
  else do
    let generate ← getGenerator
    mcLoop generate execute sampleSize count

end Pysatl.Resolver
