import Mathlib.Data.List.Sort
import Mathlib.Data.List.FinRange
import Mathlib.Algebra.Field.Defs
import Mathlib.Algebra.Order.Ring.Defs
import Mathlib.Analysis.SpecialFunctions.Log.Basic
import Verif.Model.Basic

/-!
# Model of `hypothesis_testing/multiple_testing`

Source: `src/pysatl_criterion/hypothesis_testing/multiple_testing/` (three files).

Python floats are elements of a linearly ordered field `K`; the procedure selector at
the end is over `ℝ`, because Benjamini-Yekutieli calls `math.log`.

A Python list that is indexed and updated in place (`adjusted`) is a function
`Fin n → K` updated with `Function.update`, so that no out-of-range access exists.
-/

namespace Pysatl.MultipleTesting

variable {K : Type} [Field K] [LinearOrder K]

/-- `abstract_multiple_testing.py:10-17`, `_validate_p_values`:
`if not all(0 <= x <= 1 for x in p_values): raise ValueError`. -/
def validatePValues (p : List K) : Except PyErr Unit :=
  if p.all (fun x => decide (0 ≤ x) && decide (x ≤ 1)) then .ok () else .error .valueError

/-- `fwer.py:12-23`, `BonferroniMultipleTesting.adjust`:
validates, then `[min(p_value * m, 1.0) for p_value in p_values]`. -/
def bonferroniAdjust (p : List K) : Except PyErr (List K) := do
  validatePValues p
  let m := p.length
  return p.map (fun x => min (x * (m : K)) 1)

/-- `fwer.py:44-56`, `SidakMultipleTesting.adjust`:
validates, then `[1 - (1 - p_value) ** m for p_value in p_values]`. -/
def sidakAdjust (p : List K) : Except PyErr (List K) := do
  validatePValues p
  let m := p.length
  return p.map (fun x => 1 - (1 - x) ^ m)

/-- `fwer.py:94` and `fdr.py:34`: `sorted(range(n), key=lambda i: p_values[i])`.
Python's `sorted` is stable and so is `List.insertionSort` (an element is put before
the later elements that compare equal). -/
def sortedIndices {n : ℕ} (p : Fin n → K) : List (Fin n) :=
  (List.finRange n).insertionSort (fun i j => p i ≤ p j)

/-- `fwer.py:97-99`: `for i, idx in enumerate(sorted_indices):
adjusted[idx] = min(1.0, p_values[idx] * (n - i))`.  The first argument is the current
value of `i`, the second the part of `sorted_indices` still to be visited. -/
def holmForward {n : ℕ} (p : Fin n → K) : ℕ → List (Fin n) → (Fin n → K) → (Fin n → K)
  | _, [], adjusted => adjusted
  | i, idx :: rest, adjusted =>
    holmForward p (i + 1) rest
      (Function.update adjusted idx (min 1 (p idx * ((n : K) - (i : K)))))

/-- `fwer.py:101-103`: `for i in range(n - 2, -1, -1): if adjusted[si[i]] > adjusted[si[i+1]]:
adjusted[si[i]] = adjusted[si[i+1]]`.  The loop visits the neighbouring pairs of
`sorted_indices` from the last to the first; here: first the pairs of the tail, then
the pair at the head. -/
def holmBackward {n : ℕ} : List (Fin n) → (Fin n → K) → (Fin n → K)
  | [], adjusted => adjusted
  | [_], adjusted => adjusted
  | x :: y :: rest, adjusted =>
    let adjusted' := holmBackward (y :: rest) adjusted
    if adjusted' y < adjusted' x then Function.update adjusted' x (adjusted' y) else adjusted'

/-- `fwer.py:78-105`, `Holm.adjust`.  No validation here. -/
def holmAdjust (p : List K) : List K :=
  if p.length = 0 then []
  else
    let si := sortedIndices p.get
    let adjusted := holmForward p.get 0 si (fun _ => 0)
    List.ofFn (holmBackward si adjusted)

/-- `fwer.py:114-124`, `SidakHolm.adjust`: `[min(1.0, 1 - (1 - p) ** n) for p in p_values]`.
No validation here. -/
def sidakHolmAdjust (p : List K) : List K :=
  if p.length = 0 then []
  else p.map (fun x => min 1 (1 - (1 - x) ^ p.length))

/-- `fdr.py:32`: `sum(1.0 / i for i in range(1, n + 1))`. -/
def harmonicSum (n : ℕ) : K := ((List.range n).map (fun i : ℕ => 1 / ((i : K) + 1))).sum

/-- `fdr.py:37-40`: `for i, idx in enumerate(sorted_indices): rank = i + 1;
adjusted[idx] = min(1.0, p_values[idx] * n * c / rank)`. -/
def byForward {n : ℕ} (c : K) (p : Fin n → K) : ℕ → List (Fin n) → (Fin n → K) → (Fin n → K)
  | _, [], adjusted => adjusted
  | i, idx :: rest, adjusted =>
    byForward c p (i + 1) rest
      (Function.update adjusted idx (min 1 (p idx * (n : K) * c / ((i + 1 : ℕ) : K))))

/-- `fdr.py:42-48`: `current_min = adjusted[sorted_indices[-1]]`, then
`for i in range(n - 2, -1, -1)`: if `adjusted[idx] > current_min` write `current_min`,
otherwise `current_min = adjusted[idx]`.  The (non-empty) list of indices is given as
head and tail; the result is the pair of `adjusted` and `current_min` after the pairs
of that list were visited, last first. -/
def byBackward {n : ℕ} : Fin n → List (Fin n) → (Fin n → K) → (Fin n → K) × K
  | x, [], adjusted => (adjusted, adjusted x)
  | x, y :: rest, adjusted =>
    let r := byBackward y rest adjusted
    if r.2 < r.1 x then (Function.update r.1 x r.2, r.2) else (r.1, r.1 x)

/-- `fdr.py:12-50`, `BenjaminiYekutieli.adjust`, with the harmonic factor `c` as a
parameter.  The `[]` case of the match is unreachable (`sorted_indices` has `n > 0`
entries). -/
def byAdjustWith (c : K) (p : List K) : List K :=
  if p.length = 0 then []
  else
    let si := sortedIndices p.get
    let adjusted := byForward c p.get 0 si (fun _ => 0)
    match si with
    | [] => []
    | x :: rest => List.ofFn (byBackward x rest adjusted).1

/-- `fdr.py:29-32`: the factor `c`: `math.log(n) + 0.577...` when `n > 10000`, the
harmonic sum otherwise. -/
noncomputable def byFactor (n : ℕ) : ℝ :=
  if n > 10000 then Real.log n + 0.5772156649015328606065120900824024310421
  else harmonicSum n

/-- `fdr.py:12-50`, `BenjaminiYekutieli.adjust`. -/
noncomputable def byAdjust (p : List ℝ) : List ℝ := byAdjustWith (byFactor p.length) p

/-- The five procedures of `fwer.py` and `fdr.py`. -/
inductive Procedure where
  | bonferroni | sidak | holm | sidakHolm | benjaminiYekutieli
  deriving DecidableEq, Repr

/-- `cls.adjust(p_values)` for each class. -/
noncomputable def adjust : Procedure → List ℝ → Except PyErr (List ℝ)
  | .bonferroni, p => bonferroniAdjust p
  | .sidak, p => sidakAdjust p
  | .holm, p => .ok (holmAdjust p)
  | .sidakHolm, p => .ok (sidakHolmAdjust p)
  | .benjaminiYekutieli, p => .ok (byAdjust p)

/-- `abstract_multiple_testing.py:20-31`, `test`: validate, adjust, then
`rejected = [p_value < threshold for p_value in p_values_adjusted]`.
(`fwer.py:26-35` and `fwer.py:59-69` only call `super().test`.) -/
noncomputable def test (proc : Procedure) (p : List ℝ) (threshold : ℝ) :
    Except PyErr (List Bool × List ℝ) := do
  validatePValues p
  let adjusted ← adjust proc p
  return (adjusted.map (fun x => decide (x < threshold)), adjusted)

end Pysatl.MultipleTesting
