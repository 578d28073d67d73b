import Verif.Model.MultipleTesting
import Verif.Spec.Float64

/-!
# Model of `hypothesis_testing/multiple_testing` with the rounding of every operation

The same functions as in `Verif/Model/MultipleTesting.lean`, but every arithmetic operation
of the Python code is the operation of a `FloatOps`: a number is a real number, and each
`+ - * /` of two floats, and each conversion of an integer to a float, is followed by
rounding.  Comparisons, `min` and the sorting are exact, as they are in IEEE-754.  Infinities
and NaN are not modelled: p-values outside `[0,1]`, NaN among them, are refused by
`_validate_p_values` before, and no product below overflows.
-/

namespace Pysatl.MultipleTesting.Rounded

open Pysatl.Spec

variable (A : FloatOps)

/-- `fwer.py:12-23`, `BonferroniMultipleTesting.adjust`:
`[min(p_value * m, 1.0) for p_value in p_values]`. -/
noncomputable def bonferroniAdjust (p : List ℝ) : Except PyErr (List ℝ) := do
  validatePValues p
  let m := p.length
  return p.map (fun x => min (A.fl (x * A.fl (m : ℝ))) 1)

/-- `fwer.py:44-56`, `SidakMultipleTesting.adjust`:
`[1 - (1 - p_value) ** m for p_value in p_values]`. -/
noncomputable def sidakAdjust (p : List ℝ) : Except PyErr (List ℝ) := do
  validatePValues p
  let m := p.length
  return p.map (fun x => A.fl (1 - A.pow (A.fl (1 - x)) m))

/-- `fwer.py:97-99`: `adjusted[idx] = min(1.0, p_values[idx] * (n - i))` for the index `idx`
at position `i` of `sorted_indices`; `n - i` is computed in integers. -/
noncomputable def holmForward {n : ℕ} (p : Fin n → ℝ) : ℕ → List (Fin n) → (Fin n → ℝ) → (Fin n → ℝ)
  | _, [], adjusted => adjusted
  | i, idx :: rest, adjusted =>
    holmForward p (i + 1) rest
      (Function.update adjusted idx (min 1 (A.fl (p idx * A.fl ((n : ℝ) - (i : ℝ))))))

/-- `fwer.py:78-105`, `Holm.adjust`. -/
noncomputable def holmAdjust (p : List ℝ) : List ℝ :=
  if p.length = 0 then []
  else
    let si := sortedIndices p.get
    let adjusted := holmForward A p.get 0 si (fun _ => 0)
    List.ofFn (holmBackward si adjusted)

/-- `fwer.py:114-124`, `SidakHolm.adjust`: `[min(1.0, 1 - (1 - p) ** n) for p in p_values]`. -/
noncomputable def sidakHolmAdjust (p : List ℝ) : List ℝ :=
  if p.length = 0 then []
  else p.map (fun x => min 1 (A.fl (1 - A.pow (A.fl (1 - x)) p.length)))

/-- `fdr.py:29-32`: `math.log(n) + 0.577...` when `n > 10000`, otherwise
`sum(1.0 / i for i in range(1, n + 1))`. -/
noncomputable def byFactor (n : ℕ) : ℝ :=
  if n > 10000 then A.fl (A.log n + A.fl 0.5772156649015328606065120900824024310421)
  else A.sum ((List.range n).map (fun i : ℕ => A.fl (1 / A.fl ((i + 1 : ℕ) : ℝ))))

/-- `fdr.py:37-40`: `adjusted[idx] = min(1.0, p_values[idx] * n * c / rank)`. -/
noncomputable def byForward {n : ℕ} (c : ℝ) (p : Fin n → ℝ) :
    ℕ → List (Fin n) → (Fin n → ℝ) → (Fin n → ℝ)
  | _, [], adjusted => adjusted
  | i, idx :: rest, adjusted =>
    byForward c p (i + 1) rest
      (Function.update adjusted idx (min 1
        (A.fl (A.fl (A.fl (p idx * A.fl (n : ℝ)) * c) / A.fl ((i + 1 : ℕ) : ℝ)))))

/-- `fdr.py:12-50`, `BenjaminiYekutieli.adjust`.  The `[]` case of the match is
unreachable. -/
noncomputable def byAdjust (p : List ℝ) : List ℝ :=
  if p.length = 0 then []
  else
    let si := sortedIndices p.get
    let adjusted := byForward A (byFactor A p.length) p.get 0 si (fun _ => 0)
    match si with
    | [] => []
    | x :: rest => List.ofFn (byBackward x rest adjusted).1

/-- `cls.adjust(p_values)` for each class. -/
noncomputable def adjust : Procedure → List ℝ → Except PyErr (List ℝ)
  | .bonferroni, p => bonferroniAdjust A p
  | .sidak, p => sidakAdjust A p
  | .holm, p => .ok (holmAdjust A p)
  | .sidakHolm, p => .ok (sidakHolmAdjust A p)
  | .benjaminiYekutieli, p => .ok (byAdjust A p)

/-- `abstract_multiple_testing.py:20-31`, `test`. -/
noncomputable def test (proc : Procedure) (p : List ℝ) (threshold : ℝ) :
    Except PyErr (List Bool × List ℝ) := do
  validatePValues p
  let adjusted ← adjust A proc p
  return (adjusted.map (fun x => decide (x < threshold)), adjusted)

end Pysatl.MultipleTesting.Rounded
