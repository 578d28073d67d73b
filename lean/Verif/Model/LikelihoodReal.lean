import Verif.Model.LikelihoodFit
import Mathlib.Algebra.Order.Floor.Ring

/-!
# Model of the discrete likelihood functions on arrays of floats

`/repo/src/pysatl_criterion/estimation/maximum_likelihood/function_for_maximum_likelihood.py` 422-537.
`Likelihood` models the same functions on arrays of integers.  Empty arrays, NaN in numpy, raise here.
-/

namespace Pysatl.Likelihood

/-- `np.floor(x) == x`, and `np.mod(x, 1) == 0` (480). -/
noncomputable def isWhole (x : ℝ) : Bool := decide ((⌊x⌋ : ℝ) = x)

/-- `likelihood_function_discrete_uniform`, 422-438. -/
noncomputable def discreteUniformFloat (d : List ℝ) : Except PyErr Num := do
  let a ← npMin d
  let b ← npMax d
  return ((Real.exp (-(d.length : ℝ) * Real.log (b - a + 1)) : ℝ) : Num)

/-- `likelihood_function_bernoulli`, 442-463. -/
noncomputable def bernoulliFloat (d : List ℝ) : Except PyErr Num := do
  if ¬ (d.all fun x => decide (x = 0 ∨ x = 1)) then return 0
  if d = [] then throw .valueError
  let n : ℝ := d.length
  let k : ℝ := d.sum
  let p := k / n
  if p = 0 ∨ p = 1 then return 1
  return ((Real.exp (k * Real.log p + (n - k) * Real.log (1 - p)) : ℝ) : Num)

/-- `math.comb(n, x)` and `math.factorial(x)` with a float: `TypeError`, also for a whole number (`comb` always,
`factorial` from Python 3.10 on, the oldest version the project supports). -/
def intArgument : Except PyErr ℝ := .error .typeError

/-- `likelihood_function_binomial`, 467-494, for at least one trial. -/
noncomputable def binomialFloat (d : List ℝ) (n : ℕ) : Except PyErr Num := do
  if d.any (fun x => decide (x < 0) || decide ((n : ℝ) < x) || !isWhole x) then return 0
  if d = [] ∨ n = 0 then throw .valueError
  let p : ℝ := d.sum / (d.length * n)
  if p = 0 ∨ p = 1 then
    if d.all (fun x => decide (x = 0)) ∨ d.all (fun x => decide (x = n)) then return 1 else return 0
  let ll ← d.foldlM (fun acc x => do
    let c ← intArgument
    let lc ← mathLog c
    let lp ← mathLog p
    let lq ← mathLog (1 - p)
    return acc + (lc + x * lp + (n - x) * lq)) 0
  return ((Real.exp ll : ℝ) : Num)

/-- `likelihood_function_poisson`, 498-515. -/
noncomputable def poissonFloat (d : List ℝ) : Except PyErr Num := do
  if d.any (fun x => decide (x < 0)) || !(d.all isWhole) then return 0
  if d = [] then throw .valueError
  let lam : ℝ := d.sum / d.length
  let ll ← d.foldlM (fun acc x => do
    let l ← mathLog lam
    let c ← intArgument
    let lc ← mathLog c
    return acc + (x * l - lam - lc)) 0
  return ((Real.exp ll : ℝ) : Num)

/-- `likelihood_function_geometric`, 519-537. -/
noncomputable def geometricFloat (d : List ℝ) : Except PyErr Num := do
  if d.any (fun x => decide (x < 1)) || !(d.all isWhole) then return 0
  if d = [] then throw .valueError
  let n : ℝ := d.length
  let s : ℝ := d.sum
  let p := n / s
  let lp ← mathLog p
  let lq ← mathLog (1 - p)
  return ((Real.exp (n * lp + (s - n) * lq) : ℝ) : Num)

end Pysatl.Likelihood
