import Verif.Model.Codec
import Verif.Model.Decision

/-!
# Model of the limit distribution storage

`/repo/src/pysatl_criterion/persistence/sqlalchemy/datastorage.py`,
`persistence/sqlalchemy/models/limit_distribution_orm.py`,
`persistence/models/limit_distribution.py`.

The database is a list of rows.  The order in which a `SELECT` without (or with ties in)
`ORDER BY` returns rows is the engine's choice: a parameter that permutes the matching rows.
SQL transactions are modelled as atomic commits of a session's pending copy.
`N` is the type of the numbers in `criterion_parameters`, `F` that of Python floats.
-/

namespace Pysatl.Storage

open Pysatl.Codec Pysatl.Decision

/-- `json.dumps` / `json.loads` on a list of numbers (`limit_distribution_orm.py` 47, 65;
`datastorage.py` 85, 147).  Law: loading a dumped list gives it back. -/
structure Json (N : Type) where
  dumps : List N → String
  loads : String → List N
  loads_dumps : ∀ l, loads (dumps l) = l

/-- Everything outside the modelled code. -/
structure Env (N F : Type) where
  codec : Codec.Env F
  json : Json N

/-- `LimitDistributionModel`, `persistence/models/limit_distribution.py` 19-30. -/
structure Model (N F : Type) where
  experimentId : ℤ
  code : String
  parameters : List N
  sampleSize : ℤ
  count : ℤ
  results : List F
  deriving DecidableEq

/-- `LimitDistributionQuery`, `persistence/models/limit_distribution.py` 33-42. -/
structure Query (N : Type) where
  code : String
  parameters : List N
  sampleSize : ℤ
  count : ℤ

/-- `CriticalValueQuery`, `persistence/models/limit_distribution.py` 45-53. -/
structure CvQuery where
  code : String
  sampleSize : ℤ
  sampleSizeError : ℤ := 0

/-- The primary key, `limit_distribution_orm.py` 27-36 (parameters as JSON text). -/
structure Key where
  experimentId : ℤ
  code : String
  params : String
  sampleSize : ℤ
  count : ℤ
  deriving DecidableEq

/-- A row of `limit_distributions`, `limit_distribution_orm.py` 13-25. -/
structure Row where
  key : Key
  results : Column
  deriving DecidableEq

/-- The durable content of the table. -/
abbrev DB := List Row

/-- The engine's choice of an order for the rows of a result set. -/
structure Engine where
  order : List Row → List Row
  perm : ∀ l, (order l).Perm l

variable {N F : Type}

/-- `LimitDistributionORM.from_model`, `limit_distribution_orm.py` 53-69, together with the
conversion of the results column when the row is flushed (`CompressedFloatArray(use_float32=
True)`, 25). -/
def fromModel (E : Env N F) (m : Model N F) : Except PyErr Row := do
  let c ← processBindParam E.codec true (.floats m.results)
  return ⟨⟨m.experimentId, m.code, E.json.dumps m.parameters, m.sampleSize, m.count⟩, c⟩

/-- Loading a row and `to_model`, `limit_distribution_orm.py` 38-51.  A `NULL` results column
(which `from_model` never writes) is read as an empty list here. -/
def toModel (E : Env N F) (r : Row) : Except PyErr (Model N F) := do
  let v ← processResultValue E.codec r.results
  return ⟨r.key.experimentId, r.key.code, E.json.loads r.key.params, r.key.sampleSize,
    r.key.count, v.getD []⟩

/-- `session.merge(orm_obj)`: update the row with the same primary key or add a new one
(`datastorage.py` 71, 137). -/
def mergeRow (db : DB) (r : Row) : DB :=
  if db.any (fun x => x.key = r.key) then db.map (fun x => if x.key = r.key then r else x)
  else db ++ [r]

/-- The statements of a session. -/
inductive Step (N F : Type) where
  | merge (m : Model N F)
  | commit

/-- A session: the durable table and the session's pending view of it. -/
structure Session where
  durable : DB
  pending : DB

/-- One statement of a session; an exception leaves the durable table as it was. -/
def Step.run (E : Env N F) (s : Session) : Step N F → Except PyErr Session
  | .merge m => do
    let r ← fromModel E m
    return { s with pending := mergeRow s.pending r }
  | .commit => .ok { durable := s.pending, pending := s.pending }

/-- Run statements until the end or the first exception; what is durable afterwards.  Leaving
the `with self.Session()` block rolls back what was not committed. -/
def runSteps (E : Env N F) : List (Step N F) → Session → Except PyErr Unit × DB
  | [], s => (.ok (), s.durable)
  | st :: rest, s =>
    match st.run E s with
    | .error e => (.error e, s.durable)
    | .ok s' => runSteps E rest s'

/-- A Python computation given by its effect on the table. -/
def ofRun {α : Type} (f : DB → Except PyErr α × DB) : Py DB α := ExceptT.mk (fun db => f db)

/-- The statements of `insert_data`, `datastorage.py` 69-72. -/
def insertSteps (m : Model N F) : List (Step N F) := [.merge m, .commit]

/-- `insert_data`, `datastorage.py` 60-72. -/
def insertData (E : Env N F) (m : Model N F) : Py DB Unit :=
  ofRun fun db => runSteps E (insertSteps m) ⟨db, db⟩

/-- The statements of `insert_bulk_data`, `datastorage.py` 131-138. -/
def insertBulkSteps (ms : List (Model N F)) : List (Step N F) :=
  if ms.isEmpty then [] else ms.map .merge ++ [.commit]

/-- `insert_bulk_data`, `datastorage.py` 125-138. -/
def insertBulkData (E : Env N F) (ms : List (Model N F)) : Py DB Unit :=
  ofRun fun db => runSteps E (insertBulkSteps ms) ⟨db, db⟩

/-- The `WHERE` clause of `get_data` and `delete_data`, `datastorage.py` 83-88, 145-150. -/
def Query.holds (E : Env N F) (q : Query N) (r : Row) : Bool :=
  r.key.code = q.code ∧ r.key.params = E.json.dumps q.parameters ∧
    r.key.sampleSize = q.sampleSize ∧ r.key.count = q.count

/-- `get_data`, `datastorage.py` 74-90: `scalar_one_or_none` raises `MultipleResultsFound` when
more than one row matches.  Simplification: all matching rows are decoded. -/
def getData (E : Env N F) (eng : Engine) (q : Query N) : Py DB (Option (Model N F)) :=
  ofRun fun db =>
    (match (eng.order (db.filter (q.holds E))).mapM (toModel E) with
      | .error e => .error e
      | .ok [] => .ok none
      | .ok [m] => .ok (some m)
      | .ok (_ :: _ :: _) => .error .multipleResultsFound, db)

/-- `delete_data`, `datastorage.py` 140-154. -/
def deleteData (E : Env N F) (eng : Engine) (q : Query N) : Py DB Unit :=
  ofRun fun db =>
    match eng.order (db.filter (q.holds E)) with
    | [] => (.ok (), db)
    | [r] => (.ok (), db.filter (fun x => x.key ≠ r.key))
    | _ :: _ :: _ => (.error .multipleResultsFound, db)

/-- `get_data_for_cv`, `datastorage.py` 156-177: rows with the code and exactly the sample size
(`sample_size_error` is not used), `ORDER BY monte_carlo_count DESC LIMIT 1`. -/
def getDataForCv (E : Env N F) (eng : Engine) (q : CvQuery) : Py DB (Option (Model N F)) :=
  ofRun fun db =>
    (match ((eng.order (db.filter fun r => r.key.code = q.code ∧ r.key.sampleSize = q.sampleSize)).insertionSort
        (fun a b => b.key.count ≤ a.key.count)).head? with
      | none => .ok none
      | some r =>
        match toModel E r with
        | .error e => .error e
        | .ok m => .ok (some m), db)

/-- One iteration of the loop over the result set, `datastorage.py` 115-121: a dictionary from
codes to models in insertion order. -/
def bestStep (best : List (String × Model N F)) (m : Model N F) : List (String × Model N F) :=
  match best.lookup m.code with
  | none => best ++ [(m.code, m)]
  | some b =>
    if m.count > b.count then best.map (fun e => if e.1 = m.code then (m.code, m) else e)
    else best

/-- `get_bulk_data`, `datastorage.py` 92-123. -/
def getBulkData (E : Env N F) (eng : Engine) (codes : List String) (sampleSize sampleSizeError : ℤ) :
    Py DB (List (Model N F)) :=
  ofRun fun db =>
    (match (eng.order (db.filter fun r => r.key.code ∈ codes ∧
        sampleSize - sampleSizeError ≤ r.key.sampleSize ∧
        r.key.sampleSize ≤ sampleSize + sampleSizeError)).mapM (toModel E) with
      | .error e => .error e
      | .ok ms => .ok ((ms.foldl bestStep []).map Prod.snd), db)

/-- A Python number in `criterion_parameters`: `int` or `float` (JSON writes `1` and `1.0`). -/
inductive PyNum where
  | int (z : ℤ)
  | float (q : ℚ)
  deriving DecidableEq, Repr

/-- The mathematical value: Python's `==` compares it (`1 == 1.0` is `True`). -/
def PyNum.value : PyNum → ℚ
  | .int z => z
  | .float q => q

/-- `StorageLimitDistributionResolver.resolve`, `limit_distribution/base.py` 97-120 (the query
asks for `monte_carlo_count=1`). -/
def storageResolve (E : Env N F) (eng : Engine) (code : String) (parameters : List N)
    (sampleSize : ℤ) : Py DB (Option (List F)) := do
  let r ← getData E eng ⟨code, parameters, sampleSize, 1⟩
  return r.map (·.results)

end Pysatl.Storage
