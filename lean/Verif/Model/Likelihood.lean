import Verif.Model.Graph
import Mathlib.Analysis.SpecialFunctions.Log.Basic
import Mathlib.Analysis.SpecialFunctions.Pow.Real
import Mathlib.Analysis.Real.Pi.Bounds
import Mathlib.Order.WithBot

/-!
# Model of maximum likelihood selection

`/repo/src/pysatl_criterion/estimation/maximum_likelihood/function_for_maximum_likelihood.py`
and `maximum_likelihood.py`.

Numbers are real: no rounding, underflow or NaN; `np.inf` is `⊤`.  The data are a numpy array
(`List ℝ`, or `List ℤ` for the discrete families).  The functions that
call `scipy`'s numerical `fit` (gamma, beta, Cauchy, chi-square, Student, Fisher) are in `LikelihoodFit`.
-/

namespace Pysatl.Likelihood

open Pysatl.Graph

/-- A float or `np.inf`. -/
abbrev Num := WithTop ℝ

/-- `math.log`: `ValueError` outside the positive numbers. -/
noncomputable def mathLog (x : ℝ) : Except PyErr ℝ :=
  if x ≤ 0 then .error .valueError else .ok (Real.log x)

/-- `np.min`: `ValueError` on an empty array. -/
def npMin {α : Type} [Min α] (l : List α) : Except PyErr α :=
  match l.min? with
  | some m => .ok m
  | none => .error .valueError

/-- `np.max`: `ValueError` on an empty array. -/
def npMax {α : Type} [Max α] (l : List α) : Except PyErr α :=
  match l.max? with
  | some m => .ok m
  | none => .error .valueError

/-- `log_likelihood = 0; for x in dataArray: log_likelihood += log(prob_density)`, lines 76-79,
105-110, 136-139. -/
noncomputable def sumLogs (pdf : ℝ → ℝ) (d : List ℝ) : Except PyErr ℝ :=
  d.foldlM (fun acc x => do
    let l ← mathLog (pdf x)
    return acc + l) 0

/-- `likelihood_function_uniform_continuous`, 39-56. -/
noncomputable def uniformContinuous (d : List ℝ) : Except PyErr Num := do
  let a ← npMin d
  let b ← npMax d
  if a = b then return 0
  let l ← mathLog (b - a)
  return ((Real.exp (-(d.length : ℝ) * l) : ℝ) : Num)

/-- `likelihood_function_normal`, 60-83. -/
noncomputable def normal (d : List ℝ) : Except PyErr Num := do
  let n : ℝ := d.length
  if n = 0 then throw .zeroDivisionError
  let mean := d.sum / n
  let variance := (d.map fun x => (x - mean) ^ 2).sum / n
  if variance = 0 then return 0
  let ll ← sumLogs (fun x =>
    1 / √(2 * Real.pi * variance) * Real.exp (-((x - mean) ^ 2) / (2 * variance))) d
  return ((Real.exp ll : ℝ) : Num)

/-- `likelihood_function_lognormal`, 87-114. -/
noncomputable def lognormal (d : List ℝ) : Except PyErr Num := do
  let n : ℝ := d.length
  if d.any (fun x => decide (x ≤ 0)) then return 0
  if n = 0 then throw .zeroDivisionError
  let logs := d.map Real.log
  let mean := logs.sum / n
  let variance := (logs.map fun x => (x - mean) ^ 2).sum / n
  if variance = 0 then return 0
  let ll ← sumLogs (fun x =>
    1 / (x * √(2 * Real.pi * variance)) *
      Real.exp (-((Real.log x - mean) ^ 2) / (2 * variance))) d
  return ((Real.exp ll : ℝ) : Num)

/-- `likelihood_function_exponential`, 118-143. -/
noncomputable def exponential (d : List ℝ) : Except PyErr Num := do
  if d.any (fun x => decide (x < 0)) then return 0
  if d.all (fun x => decide (x = 0)) then return 0
  let lam : ℝ := d.length / d.sum
  let ll ← sumLogs (fun x => lam * Real.exp (-lam * x)) d
  return ((Real.exp ll : ℝ) : Num)

/-- The inner function `g` of `likelihood_function_weibull`, 158-164. -/
noncomputable def weibullG (d : List ℝ) (k : ℝ) : ℝ :=
  let a := (d.map Real.log).sum / d.length
  let c := Real.log ((d.map fun x => x ^ k).sum / d.length)
  let b := (d.map fun x => x ^ k * Real.log x).sum / (d.map fun x => x ^ k).sum
  (1 - c) / k + a - b

/-- `likelihood_function_weibull`, 147-177.  `root` stands for `root_scalar(g, bracket=[0.1, 10],
method="bisect").root`; the theorems assume that it returns an exact zero of `g` in the bracket
when there is a change of sign. -/
noncomputable def weibull (root : (ℝ → ℝ) → ℝ) (d : List ℝ) : Except PyErr Num := do
  if d.any (fun x => decide (x ≤ 0)) then return 0
  if weibullG d (1 / 10) * weibullG d 10 > 0 then return 0
  let k := root (weibullG d)
  let lam := ((d.map fun x => x ^ k).sum / d.length) ^ (1 / k)
  return (((d.map fun x =>
    k / lam * (x / lam) ^ (k - 1) * Real.exp (-((x / lam) ^ k))).prod : ℝ) : Num)

/-- `likelihood_function_rayleigh`, 319-334, for positive observations (at 0 the density vanishes
and numpy's `log` is `-inf`).  `rayleigh.fit(x, floc=0)` is the documented closed form
`scale = sqrt(sum(x^2) / (2 n))`. -/
noncomputable def rayleigh (d : List ℝ) : Except PyErr Num := do
  if d.any (fun x => decide (x < 0)) then return 0
  let scale := √((d.map fun x => x ^ 2).sum / (2 * d.length))
  return ((Real.exp (d.map fun x =>
    Real.log (x / scale ^ 2 * Real.exp (-(x ^ 2) / (2 * scale ^ 2)))).sum : ℝ) : Num)

/-- `max_abs_x`, 349. -/
noncomputable def maxAbs (d : List ℝ) : Except PyErr ℝ := npMax (d.map fun x => |x|)

/-- `neg_log_likelihood`, 351-355 above `max_abs_x`. -/
noncomputable def wignerNll (d : List ℝ) (R : ℝ) : ℝ :=
  -(d.length * Real.log (2 / (Real.pi * R ^ 2)) + 1 / 2 * (d.map fun x => Real.log (R ^ 2 - x ^ 2)).sum)

/-- `likelihood_function_wigner`, 338-364.  `argmin f lo hi` stands for the point
`minimize_scalar(f, bounds=(lo, hi), method="bounded")` returns; the theorem assumes nothing of it
except that it lies within the bounds. -/
noncomputable def wigner (argmin : (ℝ → ℝ) → ℝ → ℝ → ℝ) (d : List ℝ) : Except PyErr Num := do
  match d with
  | [] => throw .indexError
  | x :: _ =>
    if d.all (fun y => decide (y = x)) then return 0
    let m ← maxAbs d
    let R := argmin (wignerNll d) (m + 1 / 1000000) (m + 10)
    return ((Real.exp (-wignerNll d R) : ℝ) : Num)

/-- `likelihood_function_pareto`, 368-394. -/
noncomputable def pareto (d : List ℝ) : Except PyErr Num := do
  if d.any (fun x => decide (x ≤ 0)) then return 0
  let n : ℝ := d.length
  let xm ← npMin d
  let s := (d.map fun x => Real.log (x / xm)).sum
  if s = 0 then return ⊤
  let alpha := n / s
  let ll := n * Real.log alpha + n * alpha * Real.log xm - (alpha + 1) * (d.map Real.log).sum
  return ((Real.exp ll : ℝ) : Num)

/-- `np.median` of a non-empty array. -/
noncomputable def median (d : List ℝ) : ℝ :=
  let s := sort d
  (at' s ((s.length - 1) / 2) + at' s (s.length / 2)) / 2

/-- `likelihood_function_laplace`, 398-415.  On an empty array numpy gives NaN; the model raises
and no theorem speaks about it. -/
noncomputable def laplace (d : List ℝ) : Except PyErr Num := do
  if d = [] then throw .valueError
  let n : ℝ := d.length
  let mu := median d
  let b := (d.map fun x => |x - mu|).sum / n
  if b = 0 then return ⊤
  let ll := -n * Real.log (2 * b) - 1 / b * (d.map fun x => |x - mu|).sum
  return ((Real.exp ll : ℝ) : Num)

/-- `likelihood_function_discrete_uniform`, 422-438. -/
noncomputable def discreteUniform (d : List ℤ) : Except PyErr Num := do
  let a ← npMin d
  let b ← npMax d
  return ((Real.exp (-(d.length : ℝ) * Real.log ((b - a + 1 : ℤ) : ℝ)) : ℝ) : Num)

/-- `likelihood_function_bernoulli`, 442-463 (empty arrays, NaN in numpy, raise here). -/
noncomputable def bernoulli (d : List ℤ) : Except PyErr Num := do
  if ¬ (d.all fun x => decide (x = 0 ∨ x = 1)) then return 0
  if d = [] then throw .valueError
  let n : ℝ := d.length
  let k : ℝ := d.sum
  let p := k / n
  if p = 0 ∨ p = 1 then return 1
  return ((Real.exp (k * Real.log p + (n - k) * Real.log (1 - p)) : ℝ) : Num)

/-- `likelihood_function_binomial`, 467-494, for at least one trial (empty arrays and zero
trials, NaN in numpy, raise here). -/
noncomputable def binomial (d : List ℤ) (n : ℕ) : Except PyErr Num := do
  if d.any (fun x => decide (x < 0 ∨ (n : ℤ) < x)) then return 0
  if d = [] ∨ n = 0 then throw .valueError
  let p : ℝ := (d.sum : ℝ) / (d.length * n)
  if p = 0 ∨ p = 1 then
    if d.all (fun x => decide (x = 0)) ∨ d.all (fun x => decide (x = n)) then return 1 else return 0
  let lp ← mathLog p
  let lq ← mathLog (1 - p)
  return ((Real.exp (d.map fun x : ℤ =>
    Real.log (n.choose x.toNat) + x * lp + (n - x) * lq).sum : ℝ) : Num)

/-- `likelihood_function_poisson`, 498-515 (empty arrays, NaN in numpy, raise here).  `log(lam)`
is `math.log`. -/
noncomputable def poisson (d : List ℤ) : Except PyErr Num := do
  if d.any (fun x => decide (x < 0)) then return 0
  if d = [] then throw .valueError
  let lam : ℝ := (d.sum : ℝ) / d.length
  let ll ← mathLog lam
  return ((Real.exp (d.map fun x : ℤ => x * ll - lam - Real.log (x.toNat.factorial)).sum : ℝ) : Num)

/-- `likelihood_function_geometric`, 519-537 (empty arrays, NaN in numpy, raise here).  `log` is
`math.log`. -/
noncomputable def geometric (d : List ℤ) : Except PyErr Num := do
  if d.any (fun x => decide (x < 1)) then return 0
  if d = [] then throw .valueError
  let n : ℝ := d.length
  let s : ℝ := d.sum
  let p := n / s
  let lp ← mathLog p
  let lq ← mathLog (1 - p)
  return ((Real.exp (n * lp + (s - n) * lq) : ℝ) : Num)

/-! ### Selection, `maximum_likelihood.py` -/

/-- A function of a module: its name and what it does when called with one argument. -/
structure Fn (D : Type) where
  name : String
  call : D → Except PyErr Num

/-- The loop of `find_max_probability_function`, 21-26, with `max_func` and `max_probability`. -/
noncomputable def findLoop {D : Type} (d : D) : List (Fn D) → Option (Fn D) × Num →
    Except PyErr (Option (Fn D) × Num)
  | [], st => .ok st
  | f :: rest, st => do
    let r ← f.call d
    findLoop d rest (if st.2 < r then (some f, r) else st)

/-- `find_max_probability_function`, 7-28, for the functions of a module. -/
noncomputable def findMax {D : Type} (fs : List (Fn D)) (d : D) : Except PyErr (Option (Fn D)) := do
  let st ← findLoop d fs (none, 0)
  return st.1

/-- The names `inspect.getmembers(function_for_maximum_likelihood, inspect.isfunction)` returns
(sorted), `maximum_likelihood.py` 15-17: the Python functions defined in the module and the two
imported from `scipy.optimize`. -/
def moduleFunctionNames : List String :=
  ["likelihood_function_bernoulli", "likelihood_function_beta", "likelihood_function_binomial",
   "likelihood_function_cauchy", "likelihood_function_chi_squared",
   "likelihood_function_discrete_uniform", "likelihood_function_exponential",
   "likelihood_function_fisher", "likelihood_function_gamma", "likelihood_function_geometric",
   "likelihood_function_laplace", "likelihood_function_lognormal", "likelihood_function_normal",
   "likelihood_function_pareto", "likelihood_function_poisson", "likelihood_function_rayleigh",
   "likelihood_function_t_distribution", "likelihood_function_uniform_continuous",
   "likelihood_function_weibull", "likelihood_function_wigner", "minimize_scalar", "root_scalar"]

/-- The functions of the module; `impl` gives what each does.  `likelihood_function_binomial`
has a second parameter without default (467): a call with one argument raises `TypeError`. -/
def moduleFunctions {D : Type} (impl : String → D → Except PyErr Num) : List (Fn D) :=
  moduleFunctionNames.map fun n =>
    ⟨n, fun d => if n = "likelihood_function_binomial" then .error .typeError else impl n d⟩

/-- `find_result_of_likelihood_function`, 31-48, on numbers: `if not data_array` raises
`ValueError` itself for more than one element (truth value of an array); the last statement
calls `find_max_probability_function` and drops what it returns, so the function returns
`None`. -/
noncomputable def findResult (impl : String → List ℝ → Except PyErr Num) (d : List ℝ) :
    Except PyErr (Option (Fn (List ℝ) × Num)) := do
  match (← (Sample.ndarray d).truth) with
  | false => throw .valueError
  | true =>
    let _ ← findMax (moduleFunctions impl) d
    return none

end Pysatl.Likelihood
