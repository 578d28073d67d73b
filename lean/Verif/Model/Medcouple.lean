import Verif.Model.Basic
import Verif.Model.Graph

/-!
# Model of the Brys-Hubert-Struyf statistic

`/repo/src/pysatl_criterion/statistics/goodness_of_fit/normal.py` 1966-2306: a translation of the fast
medcouple algorithm.  Numbers are elements of a linear ordered field `K` (no rounding, infinities or
NaN).  Printing is not modelled.  The `while True` loop of `whi_med_i` has no bound: it is a step
function iterated with fuel, and `none` means that the loop has not ended yet.  Python lists that are
changed in place are returned.  Indices that the code keeps in range are read with a default.
-/

namespace Pysatl.Medcouple

open Pysatl.Graph

variable {K : Type} [Field K] [LinearOrder K]

/-- `eps[0]`, 1999. -/
def eps0 : K := 2220446 / 10 ^ 22

/-- `eps[1]`, 1999. -/
def eps1 : K := 2225074 / 10 ^ 314

/-- `np.sign` of an integer. -/
def sign (z : ℤ) : K := if 0 < z then 1 else if z < 0 then -1 else 0

/-- `h_kern`, 2265-2270. -/
def hKern (a b : K) (ai bi ab : ℕ) : K :=
  if |a - b| < 2 * eps1 ∨ 0 < b then sign ((ab : ℤ) - (ai + bi)) else (a + b) / (a - b)

/-- The variables of `whi_med_i`, 2272-2306, that live across iterations. -/
structure WhiMed (K : Type) where
  a : List K
  w : List ℕ
  n : ℕ
  rest : ℕ
deriving Repr, DecidableEq

/-- The first `n` pairs `(a[i], w[i])` that satisfy `p`, written over the start of `a` and `w`:
2286-2298, 2303-2306. -/
def keep (s : WhiMed K) (p : K → Bool) : WhiMed K :=
  let cand := ((s.a.zip s.w).take s.n).filter fun q => p q.1
  { s with a := cand.map (·.1) ++ s.a.drop cand.length, w := cand.map (·.2) ++ s.w.drop cand.length,
           n := cand.length }

/-- One round of the loop, 2277-2306: the result, or the state for the next round. -/
def whiStep (tot : ℕ) (s : WhiMed K) : K ⊕ WhiMed K :=
  let trial := (sort s.a).getD (s.n / 2) 0
  let pairs := (s.a.zip s.w).take s.n
  let left := ((pairs.filter fun q => decide (q.1 < trial)).map (·.2)).sum
  let mid := ((pairs.filter fun q => decide (q.1 = trial)).map (·.2)).sum
  if tot < 2 * (s.rest + left) then .inr (keep s fun v => decide (v < trial))
  else if 2 * (s.rest + left + mid) ≤ tot then
    .inr { keep s (fun v => decide (trial < v)) with rest := s.rest + left + mid }
  else .inl trial

/-- `fuel` rounds of the loop: the result together with the lists as the call leaves them. -/
def whiLoop (tot : ℕ) : ℕ → WhiMed K → Option (K × WhiMed K)
  | 0, _ => none
  | fuel + 1, s =>
    match whiStep tot s with
    | .inl t => some (t, s)
    | .inr s' => whiLoop tot fuel s'

/-- `whi_med_i(a, w, n, ...)`, 2272-2306. -/
def whiMed (fuel : ℕ) (a : List K) (w : List ℕ) (n : ℕ) : Option (K × List K × List ℕ) :=
  (whiLoop w.sum fuel ⟨a, w, n, 0⟩).map fun r => (r.1, r.2.a, r.2.w)

/-- The prepared sample of `mc_c_d`: `x` (one-based, `x[0]` is `0`), `x2`, `h1`, `h2`. -/
structure Table (K : Type) where
  x : List K
  x2 : List K
  h1 : ℕ
  h2 : ℕ
  n : ℕ
deriving Repr

/-- `h_kern(x[k], x2[i - 1], k, i, h1 + 1, eps[1])`. -/
def Table.kern (t : Table K) (k i : ℕ) : K :=
  hKern (t.x.getD k 0) (t.x2.getD (i - 1) 0) k i (t.h1 + 1)

/-- `median(x[1:n])`, 2053-2058, for the sorted list `y = x[1:]`. -/
def median (y : List K) : K :=
  let n := y.length
  if n % 2 = 1 then y.getD (n / 2) 0 else (y.getD (n / 2 - 1) 0 + y.getD (n / 2) 0) / 2

/-- The centred and rescaled reflected sample and its median, 2044-2083: a value if the median is at
the border, else `x[1:]` and `x_med`. -/
def prepare (z : List K) : K ⊕ (List K × K) :=
  let y := sort (z.map fun v => -v)
  let med := median y
  let first := y.headD 0
  let last := y.getLastD 0
  if |first - med| < eps0 * (eps0 + |med|) then .inl (-1)
  else if |last - med| < eps0 * (eps0 + |med|) then .inl 1
  else
    let den := -2 * max (-(first - med)) (last - med)
    .inr (y.map fun v => (v - med) / den, med / den)

/-- 2087-2103: the two halves.  `x2 = x[j - 1:]` for the `j` after the first loop. -/
def table (y : List K) (med : K) : Table K :=
  let xEps := eps0 * (eps0 + |med|)
  let c1 := (y.takeWhile fun v => decide (xEps < v)).length
  let rest := y.drop c1
  let c2 := (rest.takeWhile fun v => decide (-xEps < v)).length
  let x := 0 :: y
  { x := x, x2 := x.drop c1, h1 := c1 + c2, h2 := 1 + c2 + (y.length - (1 + c1 + c2)), n := y.length }

/-- The variables of the main loop, 2107-2127. -/
structure Search (K : Type) where
  left : List ℕ
  right : List ℕ
  nl : ℕ
  nr : ℕ
  neq : ℕ
  work : List K
  iwt : List ℕ
  it : ℕ
  found : Option K
  trial : K
deriving Repr

/-- 2112-2127, with `left[i]`, `right[i]` at position `i - 1`. -/
def Search.start (t : Table K) : Search K :=
  { left := List.replicate t.h2 1, right := List.replicate t.h2 t.h1, nl := 0, nr := t.h1 * t.h2, neq := 0,
    work := List.replicate t.n 0, iwt := List.replicate t.n 0, it := 0, found := none, trial := -2 }

/-- 2137-2143: the middle element of each row that is not empty, with its weight. -/
def rowMedians (t : Table K) (s : Search K) : List (K × ℕ) :=
  ((s.left.zip s.right).mapIdx fun i lr => (i + 1, lr.1, lr.2)).filterMap fun q =>
    if q.2.1 ≤ q.2.2 then
      let w := q.2.2 - q.2.1 + 1
      some (t.kern (q.2.1 + w / 2) q.1, w)
    else none

/-- `while j <= h1 and h_kern(x[j], x2[i - 1], ...) - trial > eps_trial: j += 1`, 2173-2177. -/
def advance (t : Table K) (trial eps : K) (i : ℕ) : ℕ → ℕ → ℕ
  | 0, j => j
  | fuel + 1, j => if j ≤ t.h1 ∧ eps < t.kern j i - trial then advance t trial eps i fuel (j + 1) else j

/-- `while j >= 1 and trial - h_kern(x[j], x2[i - 1], ...) > eps_trial: j -= 1`, 2184-2188. -/
def retreat (t : Table K) (trial eps : K) (i : ℕ) : ℕ → ℕ
  | 0 => 0
  | j + 1 => if eps < trial - t.kern (j + 1) i then retreat t trial eps i j else j + 1

/-- `p[1:]`, 2171-2178. -/
def pList (t : Table K) (trial eps : K) : List ℕ :=
  ((List.range t.h2).foldr (fun i (acc : ℕ × List ℕ) =>
    let j := advance t trial eps (i + 1) t.h1 acc.1
    (j, (j - 1) :: acc.2)) (1, [])).2

/-- `q[i] - 1` for the rows, 2180-2192. -/
def qList (t : Table K) (trial eps : K) : List ℕ :=
  ((List.range t.h2).foldl (fun (acc : ℕ × List ℕ) i =>
    let j := retreat t trial eps (i + 1) acc.1
    (j, acc.2 ++ [j])) (t.h1, [])).2

/-- 2218-2219, 2231-2232. -/
def gaps (left right : List ℕ) : ℕ :=
  ((left.zip right).map fun lr => if lr.2 + 1 < lr.1 then lr.1 - lr.2 - 1 else 0).sum

/-- One round of the main loop, 2135-2233. -/
def round (fuel : ℕ) (t : Table K) (s : Search K) : Option (Search K) :=
  let rows := rowMedians t s
  let j := rows.length
  (whiMed fuel (rows.map (·.1) ++ s.work.drop j) (rows.map (·.2) ++ s.iwt.drop j) j).map fun r =>
    let trial := r.1
    let eps := eps0 * (eps0 + |trial|)
    let p := pList t trial eps
    let q := qList t trial eps
    let s := { s with work := r.2.1, iwt := r.2.2, it := s.it + 1, trial := trial }
    let knew := t.h1 * t.h2 / 2 + 1
    if knew ≤ p.sum then
      { s with right := p, neq := s.neq + gaps s.left p, nr := p.sum }
    else if knew ≤ q.sum then { s with found := some trial }
    else
      let left := q.map (· + 1)
      { s with left := left, neq := s.neq + gaps left s.right, nl := q.sum }

/-- The main loop, 2134-2233, with at most `iter_[0]` rounds. -/
def search (fuel : ℕ) (t : Table K) : ℕ → Search K → Option (Search K)
  | 0, s => some s
  | k + 1, s =>
    if s.found.isSome ∨ s.nr + s.neq ≤ s.nl + t.n then some s
    else (round fuel t s).bind (search fuel t k)

/-- 2241-2255: the remaining elements of the table, row by row. -/
def remaining (t : Table K) (s : Search K) : List K :=
  (((s.left.zip s.right).mapIdx fun i lr =>
    (List.range (lr.2 + 1 - lr.1)).map fun d => -t.kern (lr.1 + d) (i + 1))).flatten

/-- The end of `mc_c_d`, 2235-2263: the result and `[it, converged]`. -/
def finish (t : Table K) (s : Search K) : Except PyErr (K × ℕ × Bool) :=
  match s.found with
  | some v => .ok (v, s.it, true)
  | none =>
    if s.nr + s.neq ≤ s.nl + t.n then
      let rest := remaining t s
      let k := t.h1 * t.h2 / 2 + 1 - s.nl
      if t.n < rest.length then .error .indexError
      else
        let work := rest ++ s.work.drop rest.length
        match (sort (work.take k) ++ work.drop k)[k - 1]? with
        | some v => .ok (-v, s.it, true)
        | none => .error .indexError
    else .ok (s.trial, s.it, false)

/-- A computation that may raise or still be running (`none`) when the fuel is spent. -/
abbrev Run (α : Type) := ExceptT PyErr Option α

/-- `mc_c_d(z, eps, iter_)`, 2022-2263; `maxIt` is `iter_[0]`.  The result carries the new contents
`[it, converged]` of `iter_`.  `iter_[1]` is only used for printing. -/
def mc (fuel : ℕ) (maxIt : ℕ) (z : List K) : Run (K × ℕ × Bool) :=
  if z.length < 3 then some (.ok (0, 0, true))
  else
    match prepare z with
    | .inl v => some (.ok (v, 0, true))
    | .inr (y, med) =>
      let t := table y med
      (search fuel t maxIt (Search.start t)).map (finish t)

/-- `stat16`, 1986-2018, the value of `BHSNormalityGofStatistic.execute_statistic`, 1983-1984.  The list
`iter_` is shared by the three calls.  Python's `None` is `none` in the result. -/
def bhs (fuel : ℕ) (x : List K) : Run (Option K) :=
  let n := x.length
  if n ≤ 3 then pure none
  else do
    let s := sort x
    let half := if n % 2 = 0 then n / 2 else n / 2 + 1
    let (w1, it1, _) ← mc fuel 1000 x
    let (w2, it2, _) ← mc fuel it1 (s.take half)
    let (w3, _, _) ← mc fuel it2 (s.drop half)
    let omega : K := 198828 / 10 ^ 6
    let v1 := w1
    let v2 := -w2 - omega
    let v3 := w3 - omega
    let u1 := 8571890822945882 / 10 ^ 16 * v1 + -(1051268907484579 / 10 ^ 16) * v2
      + 1051268907484580 / 10 ^ 16 * v3
    let u2 := -(1051268907484579 / 10 ^ 16) * v1 + 3944817329840534 / 10 ^ 16 * v2
      + -(1109532299714422 / 10 ^ 17) * v3
    let u3 := 1051268907484579 / 10 ^ 16 * v1 + -(1109532299714422 / 10 ^ 17) * v2
      + 3944817329840535 / 10 ^ 16 * v3
    pure (some ((n : K) * (v1 * u1 + v2 * u2 + v3 * u3)))

end Pysatl.Medcouple
