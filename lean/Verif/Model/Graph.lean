import Verif.Model.Decision
import Verif.Spec.Graph

/-!
# Model of the graph-based statistics

`/repo/src/pysatl_criterion/statistics/goodness_of_fit/graph_goodness_of_fit.py` and the
families built on it (`exponent.py` 1295-1464, `normal.py` 2426-2512, `gamma.py` 797-1000).

Numbers are elements of a linear ordered field `K` (no rounding, infinities or NaN).
-/

namespace Pysatl.Graph

variable {K : Type} [Field K] [LinearOrder K]

/-- `rvs[i]` for an index known to be in range. -/
def at' (rvs : List K) (i : ℕ) : K := rvs.getD i 0

/-- `adjacency_list[i].append(j); adjacency_list[j].append(i)`,
`graph_goodness_of_fit.py` 42-43. -/
def addEdge (adj : List (List ℕ)) (i j : ℕ) : List (List ℕ) :=
  (adj.modify i (· ++ [j])).modify j (· ++ [i])

/-- The inner loop over `j in range(i)`, `graph_goodness_of_fit.py` 40-43. -/
def connectRow (rvs : List K) (dist : K) (i : ℕ) (adj : List (List ℕ)) : List (List ℕ) :=
  (List.range i).foldl
    (fun adj j => if |at' rvs i - at' rvs j| < dist then addEdge adj i j else adj) adj

/-- `_make_adjacency_list`, `graph_goodness_of_fit.py` 34-45. -/
def makeAdjacencyList (rvs : List K) (dist : K) : List (List ℕ) :=
  (List.range rvs.length).foldl (fun adj i => connectRow rvs dist i (adj ++ [[]])) []

/-- `_compute_dist`, `graph_goodness_of_fit.py` 47-49; `max`/`min` of an empty sequence raise
`ValueError`. -/
def computeDist (rvs : List K) : Except PyErr K :=
  match rvs.max?, rvs.min? with
  | some hi, some lo => .ok ((hi - lo) / 10)
  | _, _ => .error .valueError

/-- `np.mean` of a non-empty list. -/
def mean (rvs : List K) : K := rvs.sum / rvs.length

/-- `np.var` of a non-empty list (population variance). -/
def variance (rvs : List K) : K := (rvs.map (fun x => (x - mean rvs) ^ 2)).sum / rvs.length

/-- `AbstractGraphExponentialityGofStatistic._compute_dist`, `exponent.py` 1320-1331. -/
def computeDistExponential (rvs : List K) : Except PyErr K := do
  let base ← computeDist rvs
  return if mean rvs ≠ 0 then base / mean rvs else base

/-- `AbstractGraphNormalityGofStatistic._compute_dist`, `normal.py` 2439-2444. -/
def computeDistNormal (rvs : List K) : Except PyErr K := do
  let base ← computeDist rvs
  return if variance rvs ≠ 0 then base / variance rvs else base

/-- `AbstractGraphTestStatistic.execute_statistic`, `graph_goodness_of_fit.py` 15-21, for a
distance rule and a graph statistic. -/
def execute {α : Type} (dist : List K → Except PyErr K) (stat : List (List ℕ) → Except PyErr α)
    (rvs : List K) : Except PyErr α := do
  let d ← dist rvs
  stat (makeAdjacencyList rvs d)

/-- `GraphEdgesNumberTestStatistic.get_graph_stat`, `graph_goodness_of_fit.py` 57-67. -/
def edgesNumber (graph : List (List ℕ)) : Except PyErr ℕ := .ok ((graph.map List.length).sum / 2)

/-- `GraphMaxDegreeTestStatistic.get_graph_stat`, `graph_goodness_of_fit.py` 85-94. -/
def maxDegree (graph : List (List ℕ)) : Except PyErr ℕ :=
  match (graph.map List.length).max? with
  | some d => .ok d
  | none => .error .valueError

/-- `GraphAverageDegreeTestStatistic.get_graph_stat`, `graph_goodness_of_fit.py` 112-122
(`degrees != 0` compares a list with a number and is always true). -/
def averageDegree (graph : List (List ℕ)) : Except PyErr K :=
  .ok (((graph.map List.length).sum : ℕ) / (graph.length : K))

/-- The `while stack` loop of `dfs`, `graph_goodness_of_fit.py` 152-158.  The top of the stack is
the head of the list; `graph[v]` out of range raises `IndexError`. -/
def dfs (graph : List (List ℕ)) (visited stack : List ℕ) : Except PyErr (List ℕ) :=
  match stack with
  | [] => .ok visited
  | v :: stack =>
    if v ∈ visited then dfs graph visited stack
    else
      if h : v < graph.length then
        dfs graph (v :: visited) ((graph[v].filter (fun u => u ∉ v :: visited)).reverse ++ stack)
      else .error .indexError
termination_by (((List.range graph.length).filter (fun v => v ∉ visited)).length, stack.length)
decreasing_by
  · apply Prod.Lex.right
    simp
  · apply Prod.Lex.left
    rename_i hv
    have hsub : ((List.range graph.length).filter (fun u => u ∉ v :: visited)).Sublist
        ((List.range graph.length).filter (fun u => u ∉ visited)) := by
      apply List.monotone_filter_right
      intro u hu
      simp only [List.mem_cons, not_or, decide_eq_true_eq] at hu ⊢
      exact hu.2
    apply lt_of_le_of_ne hsub.length_le
    intro he
    have heq := hsub.eq_of_length he
    have : v ∈ (List.range graph.length).filter (fun u => u ∉ visited) :=
      List.mem_filter.2 ⟨List.mem_range.2 h, by simpa using hv⟩
    rw [← heq] at this
    simp at this

/-- One iteration of `for node in range(len(graph))`, `graph_goodness_of_fit.py` 160-163. -/
def componentStep (graph : List (List ℕ)) (st : List ℕ × ℕ) (node : ℕ) :
    Except PyErr (List ℕ × ℕ) :=
  if node ∈ st.1 then .ok st
  else do
    let visited ← dfs graph st.1 [node]
    return (visited, st.2 + 1)

/-- `GraphConnectedComponentsTestStatistic.get_graph_stat`, `graph_goodness_of_fit.py`
140-164. -/
def connectedComponents (graph : List (List ℕ)) : Except PyErr ℕ := do
  let st ← (List.range graph.length).foldlM (componentStep graph) ([], 0)
  return st.2

/-- The inner `while` loop of the clique statistic, `graph_goodness_of_fit.py` 196-197. -/
def advance (rvs : List K) (bound : K) (right : ℕ) : ℕ :=
  if h : right < rvs.length then
    if bound > rvs[right] then advance rvs bound (right + 1) else right
  else right
termination_by rvs.length - right

/-- The loop over `left_border`, `graph_goodness_of_fit.py` 193-202, with the loop variables as
arguments. -/
def cliqueLoop (rvs : List K) (dist : K) (left right : ℕ) (best : ℤ) : ℤ :=
  if h : left < rvs.length then
    let right := advance rvs (rvs[left] + dist) right
    if right = rvs.length then max best ((right : ℤ) - left + 1)
    else cliqueLoop rvs dist (left + 1) right (max best ((right : ℤ) - left))
  else best
termination_by rvs.length - left

/-- `rvs.sort()`. -/
def sort (rvs : List K) : List K := rvs.insertionSort (· ≤ ·)

/-- `GraphCliqueNumberTestStatistic.execute_statistic`, `graph_goodness_of_fit.py` 182-202.  The
caller's list is sorted in place (see `cliqueNumberPy`). -/
def cliqueNumber (dist : List K → Except PyErr K) (rvs : List K) : Except PyErr ℤ := do
  let d ← dist rvs
  return cliqueLoop (sort rvs) d 0 0 0

/-- The loop of the independence statistic, `graph_goodness_of_fit.py` 237-241. -/
def independenceLoop (dist last : K) : List K → ℕ
  | [] => 0
  | x :: rest =>
    if x ≥ last + dist then 1 + independenceLoop dist x rest else independenceLoop dist last rest

/-- `GraphIndependenceNumberTestStatistic.execute_statistic` on a Python list,
`graph_goodness_of_fit.py` 220-243. -/
def independenceNumber (dist : List K → Except PyErr K) (rvs : List K) : Except PyErr ℕ :=
  if rvs = [] then .ok 0
  else do
    let d ← dist rvs
    match sort rvs with
    | [] => .error .indexError
    | x :: rest => return 1 + independenceLoop d x rest

/-- The same as a computation whose world is the caller's list object, `graph_goodness_of_fit.py`
190-202: `rvs.sort()` changes it. -/
def cliqueNumberPy (dist : List K → Except PyErr K) : Decision.Py (List K) ℤ := do
  let rvs ← get
  let d ← liftM (dist rvs)
  set (sort rvs)
  let sorted ← get
  return cliqueLoop sorted d 0 0 0

/-- `AbstractGraphTestStatistic.execute_statistic` as a computation whose world is the caller's
list object, `graph_goodness_of_fit.py` 15-21. -/
def executePy {α : Type} (dist : List K → Except PyErr K) (stat : List (List ℕ) → Except PyErr α) :
    Decision.Py (List K) α := do
  let rvs ← get
  let d ← liftM (dist rvs)
  liftM (stat (makeAdjacencyList rvs d))

/-- `GraphIndependenceNumberTestStatistic.execute_statistic` on a caller's list object,
`graph_goodness_of_fit.py` 220-243. -/
def independenceNumberPy (dist : List K → Except PyErr K) : Decision.Py (List K) ℕ := do
  let rvs ← get
  if rvs = [] then return 0
  let d ← liftM (dist rvs)
  set (sort rvs)
  let sorted ← get
  match sorted with
  | [] => throw .indexError
  | x :: rest => return 1 + independenceLoop d x rest

/-- The distance rule of a family (`_compute_dist` of the base class and its overrides). -/
def distOf : Rule → List K → Except PyErr K
  | .range => computeDist
  | .overMean => computeDistExponential
  | .overVariance => computeDistNormal

/-- The six graph statistics. -/
inductive Kind where
  | edges | maxDegree | averageDegree | components | clique | independence
  deriving DecidableEq

/-- A graph statistic of a Python list, as a number: `execute_statistic` of the classes in
`graph_goodness_of_fit.py` 52-243 with the distance rule of a family. -/
def statistic (r : Rule) (rvs : List K) : Kind → Except PyErr K
  | .edges => (execute (distOf r) edgesNumber rvs).map (fun n : ℕ => (n : K))
  | .maxDegree => (execute (distOf r) maxDegree rvs).map (fun n : ℕ => (n : K))
  | .averageDegree => execute (distOf r) averageDegree rvs
  | .components => (execute (distOf r) connectedComponents rvs).map (fun n : ℕ => (n : K))
  | .clique => (cliqueNumber (distOf r) rvs).map (fun n : ℤ => (n : K))
  | .independence => (independenceNumber (distOf r) rvs).map (fun n : ℕ => (n : K))

/-- A sample as a Python object: a list, or a one-dimensional numpy array (what the generators
return). -/
inductive Sample (K : Type) where
  | list (v : List K)
  | ndarray (v : List K)

/-- The numbers of a sample. -/
def Sample.values : Sample K → List K
  | .list v => v
  | .ndarray v => v

/-- Truth value of a sample (`if not rvs`, `graph_goodness_of_fit.py` 228): a list is true when
non-empty; an array of one element has the truth value of that element, a longer one raises
`ValueError`, an empty one is false. -/
def Sample.truth : Sample K → Except PyErr Bool
  | .list v => .ok (decide (v ≠ []))
  | .ndarray [] => .ok false
  | .ndarray [x] => .ok (decide (x ≠ 0))
  | .ndarray _ => .error .valueError

/-- `GraphIndependenceNumberTestStatistic.execute_statistic` on any sample,
`graph_goodness_of_fit.py` 220-243. -/
def independenceNumberOf (dist : List K → Except PyErr K) (s : Sample K) : Except PyErr ℕ := do
  if (← s.truth) then independenceNumber dist s.values else return 0

/-- `AbstractGraphGammaGofStatistic.execute_statistic`, `gamma.py` 820-847: the statistic of the
sorted sample transformed by the distribution function (`cdf`), as a list. -/
def executeGamma {α : Type} (cdf : K → K) (statistic : List K → Except PyErr α) (rvs : List K) :
    Except PyErr α :=
  if rvs = [] then .error .valueError
  else statistic ((sort rvs).map cdf)

end Pysatl.Graph
