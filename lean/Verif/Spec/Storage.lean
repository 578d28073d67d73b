import Verif.Model.Storage
import Mathlib.Logic.Function.Basic

/-!
# Specification of the limit distribution storage

What the storage promises, in terms of a partial map from (experiment, criterion code,
parameters, sample size, simulation count) to results.  No rows, no SQL, no JSON, no blobs.
-/

namespace Pysatl.Storage

open Pysatl.Codec Pysatl.Decision

variable {N F : Type}

/-- What identifies a stored distribution. -/
@[ext] structure DKey (N : Type) where
  experimentId : ℤ
  code : String
  parameters : List N
  sampleSize : ℤ
  count : ℤ
  deriving DecidableEq

/-- The abstract content of a storage. -/
abbrev State (N F : Type) := DKey N → Option (List F)

/-- The empty storage. -/
def State.empty : State N F := fun _ => none

/-- The identity of a model. -/
def Model.dkey (m : Model N F) : DKey N :=
  ⟨m.experimentId, m.code, m.parameters, m.sampleSize, m.count⟩

/-- The keys addressed by a query: one per experiment. -/
def Query.at (q : Query N) (id : ℤ) : DKey N := ⟨id, q.code, q.parameters, q.sampleSize, q.count⟩

/-- The query that addresses a model. -/
def Model.query (m : Model N F) : Query N := ⟨m.code, m.parameters, m.sampleSize, m.count⟩

open Classical in
/-- Writing a model: the results, rounded to single precision, replace what the key held. -/
noncomputable def State.put (round : F → F) (s : State N F) (m : Model N F) : State N F :=
  Function.update s m.dkey (some (m.results.map round))

/-- Outcome of reading one distribution: nothing stored under any experiment; exactly one
experiment, whose results come back; or several, which is an error. -/
def GetSpec (s : State N F) (q : Query N) : Except PyErr (Option (Model N F)) → Prop
  | .ok none => ∀ id, s (q.at id) = none
  | .ok (some m) => s m.dkey = some m.results ∧ m.dkey = q.at m.experimentId ∧
      ∀ id, s (q.at id) ≠ none → id = m.experimentId
  | .error e => e = .multipleResultsFound ∧
      ∃ id id', id ≠ id' ∧ s (q.at id) ≠ none ∧ s (q.at id') ≠ none

open Classical in
/-- Outcome of a deletion and the state after it. -/
def DeleteSpec (s : State N F) (q : Query N) (out : Except PyErr Unit) (s' : State N F) : Prop :=
  match out with
  | .ok () => ((∀ id, s (q.at id) = none) ∧ s' = s) ∨
      ∃ id, s (q.at id) ≠ none ∧ (∀ id', s (q.at id') ≠ none → id' = id) ∧
        s' = Function.update s (q.at id) none
  | .error e => e = .multipleResultsFound ∧ s' = s ∧
      ∃ id id', id ≠ id' ∧ s (q.at id) ≠ none ∧ s (q.at id') ≠ none

/-- Outcome of a critical-value lookup: a stored distribution for this code and sample size
with the largest simulation count, nothing if there is none; never an error. -/
def CvSpec (s : State N F) (q : CvQuery) : Except PyErr (Option (Model N F)) → Prop
  | .ok none => ∀ k, k.code = q.code → k.sampleSize = q.sampleSize → s k = none
  | .ok (some m) => s m.dkey = some m.results ∧ m.code = q.code ∧ m.sampleSize = q.sampleSize ∧
      ∀ k, k.code = q.code → k.sampleSize = q.sampleSize → s k ≠ none → k.count ≤ m.count
  | .error _ => False

/-- A key is in the range of a bulk lookup. -/
def InRange (sampleSize sampleSizeError : ℤ) (k : DKey N) : Prop :=
  sampleSize - sampleSizeError ≤ k.sampleSize ∧ k.sampleSize ≤ sampleSize + sampleSizeError

/-- Outcome of a bulk lookup: at most one distribution per code, stored, requested, in range,
with the largest simulation count of its code in range; one for every requested code that has
any; never an error. -/
def BulkSpec (s : State N F) (codes : List String) (size err : ℤ) :
    Except PyErr (List (Model N F)) → Prop
  | .ok ms => (ms.map (·.code)).Nodup ∧
      (∀ m ∈ ms, s m.dkey = some m.results ∧ m.code ∈ codes ∧ InRange size err m.dkey ∧
        ∀ k, k.code = m.code → InRange size err k → s k ≠ none → k.count ≤ m.count) ∧
      (∀ k, k.code ∈ codes → InRange size err k → s k ≠ none → ∃ m ∈ ms, m.code = k.code)
  | .error _ => False

/-- A list of results fits into the storage format. -/
def Model.fits (m : Model N F) : Prop := m.results.length < 2 ^ 32

open Classical in
/-- Outcome of a bulk write and the state after it: everything, in order, or nothing. -/
noncomputable def PutAllSpec (round : F → F) (s : State N F) (ms : List (Model N F))
    (out : Except PyErr Unit) (s' : State N F) : Prop :=
  if ∀ m ∈ ms, m.fits then out = .ok () ∧ s' = ms.foldl (State.put round) s
  else out = .error .structError ∧ s' = s

/-- The operations of the storage, with the order chosen by the engine where it matters. -/
inductive Op (N F : Type) where
  | insert (m : Model N F)
  | insertBulk (ms : List (Model N F))
  | delete (eng : Engine) (q : Query N)
  | get (eng : Engine) (q : Query N)
  | getForCv (eng : Engine) (q : CvQuery)
  | getBulk (eng : Engine) (codes : List String) (size err : ℤ)

/-- Observable outcomes. -/
inductive Out (N F : Type) where
  | done (r : Except PyErr Unit)
  | one (r : Except PyErr (Option (Model N F)))
  | many (r : Except PyErr (List (Model N F)))

/-- One step of the specification. -/
def SpecStep (round : F → F) (s : State N F) : Op N F → Out N F → State N F → Prop
  | .insert m, .done r, s' => PutAllSpec round s [m] r s'
  | .insertBulk ms, .done r, s' => PutAllSpec round s ms r s'
  | .delete _ q, .done r, s' => DeleteSpec s q r s'
  | .get _ q, .one r, s' => GetSpec s q r ∧ s' = s
  | .getForCv _ q, .one r, s' => CvSpec s q r ∧ s' = s
  | .getBulk _ codes size err, .many r, s' => BulkSpec s codes size err r ∧ s' = s
  | _, _, _ => False

/-- A run of the specification. -/
inductive SpecRun (round : F → F) : State N F → List (Op N F) → List (Out N F) → State N F → Prop
  | nil (s) : SpecRun round s [] [] s
  | cons {s op out s' ops outs s''} : SpecStep round s op out s' →
      SpecRun round s' ops outs s'' → SpecRun round s (op :: ops) (out :: outs) s''

/-! ### How the modelled storage is compared with the map -/

variable (E : Env N F)

/-- Execute an operation of the model. -/
def Op.exec : Op N F → DB → Out N F × DB
  | .insert m, db => let r := (insertData E m).exec db; (.done r.1, r.2)
  | .insertBulk ms, db => let r := (insertBulkData E ms).exec db; (.done r.1, r.2)
  | .delete eng q, db => let r := (deleteData E eng q).exec db; (.done r.1, r.2)
  | .get eng q, db => let r := (getData E eng q).exec db; (.one r.1, r.2)
  | .getForCv eng q, db => let r := (getDataForCv E eng q).exec db; (.one r.1, r.2)
  | .getBulk eng codes size err, db =>
    let r := (getBulkData E eng codes size err).exec db; (.many r.1, r.2)

/-- Execute a history. -/
def runHistory : List (Op N F) → DB → List (Out N F) × DB
  | [], db => ([], db)
  | op :: ops, db =>
    let r := op.exec E db
    let rs := runHistory ops r.2
    (r.1 :: rs.1, rs.2)

/-- The primary key of an abstract key. -/
def DKey.key (k : DKey N) : Key :=
  ⟨k.experimentId, k.code, E.json.dumps k.parameters, k.sampleSize, k.count⟩

/-- A row holds a key and results. -/
def RowIs (r : Row) (k : DKey N) (v : List F) : Prop :=
  r.key = k.key E ∧ processResultValue E.codec r.results = .ok (some v)

/-- A table represents an abstract state: every row is readable, no key occurs twice, and the
map holds exactly what the rows hold. -/
structure Represents (db : DB) (s : State N F) : Prop where
  nodup : (db.map (·.key)).Nodup
  rows : ∀ r ∈ db, ∃ k v, RowIs E r k v
  iff : ∀ k v, s k = some v ↔ ∃ r ∈ db, RowIs E r k v

end Pysatl.Storage
