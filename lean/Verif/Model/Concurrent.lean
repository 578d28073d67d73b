import Verif.Model.Storage
import Verif.Spec.Storage

/-!
# Several processes on one database

`/repo/src/pysatl_criterion/persistence/sqlalchemy/datastorage.py`, `insert_data` (60-72),
`insert_bulk_data` (125-138), `delete_data` (140-154) and the lookups, executed by several processes (or threads, each call
opens its own session) that share one table.

A lookup is one `SELECT`.  `insert_data` is a `SELECT` by primary key (inside `session.merge`,
71), then an `INSERT` or an `UPDATE` at the flush in `session.commit` (72).  `delete_data` is a
`SELECT` (145-151), then a `DELETE` by primary key at the flush in `session.commit` (154).
Between the two statements other processes may run.

`insert_bulk_data` is a `SELECT` for each model (`session.merge`, 137).  `session.merge` first
flushes what is pending, so the statement for a model is sent before the `SELECT` for the next
one.  The first `INSERT` or `UPDATE` of the batch takes the write lock, which is held until the
`COMMIT` (138): from there on nobody else writes, and nobody else sees what the batch wrote.
What others read meanwhile is what they would have read just before, so the model lets the
statements from the first write to the `COMMIT` happen in one step.  Models that are stored
already send no statement; before the first write the lookups for them are steps of their own.

Simplifications: every statement is atomic and sees what is committed; the statement sent by the
flush and the `COMMIT` after it are one step; lock waits end (no "database is locked"); one
writer at a time, as in SQLite.
-/

namespace Pysatl.Concurrent

open Pysatl.Codec Pysatl.Decision Pysatl.Storage

variable {N F : Type}

/-- How SQLAlchemy compares the loaded results with the new ones, to see whether the row changed
(`list.__eq__`).  Law: lists that compare equal are the same (signed zeros are identified); a
list with NaN may compare unequal to itself. -/
structure Compare (F : Type) where
  same : List F → List F → Bool
  eq_of_same : ∀ a b, same a b = true → a = b

/-- The operations processes run side by side. -/
inductive COp (N F : Type) where
  | insert (m : Model N F)
  | insertBulk (ms : List (Model N F))
  | delete (eng : Engine) (q : Query N)
  | get (eng : Engine) (q : Query N)
  | getForCv (eng : Engine) (q : CvQuery)
  | getBulk (eng : Engine) (codes : List String) (size err : ℤ)

/-- The operation of the sequential storage. -/
def COp.toOp : COp N F → Op N F
  | .insert m => .insert m
  | .insertBulk ms => .insertBulk ms
  | .delete eng q => .delete eng q
  | .get eng q => .get eng q
  | .getForCv eng q => .getForCv eng q
  | .getBulk eng codes size err => .getBulk eng codes size err

/-- What a call returns to the process: an outcome that the sequential storage knows, or one of
the two errors SQLAlchemy raises at a flush that meets another process. -/
inductive Resp (N F : Type) where
  | out (o : Out N F)
  | integrityError
  | staleDataError

/-- The statement a session will send when it is flushed.  `bulkSelect all rest`: the batch
`all` has sent no statement but lookups yet, and the models `rest` are to be merged.
`bulkRow all fresh m rest`: the statement for `m` (an `INSERT` if `fresh`) is pending, and it is
the first of the batch. -/
inductive Plan (N F : Type) where
  | insertRow (m : Model N F)
  | updateRow (m : Model N F)
  | deleteRow (eng : Engine) (q : Query N) (k : Key)
  | bulkSelect (all rest : List (Model N F))
  | bulkRow (all : List (Model N F)) (fresh : Bool) (m : Model N F) (rest : List (Model N F))

/-- The call a plan belongs to. -/
def Plan.op : Plan N F → COp N F
  | .insertRow m => .insert m
  | .updateRow m => .insert m
  | .deleteRow eng q _ => .delete eng q
  | .bulkSelect all _ => .insertBulk all
  | .bulkRow all _ _ _ => .insertBulk all

/-- The table and, for every process, the call it is in the middle of. -/
structure World (N F : Type) where
  db : DB
  phase : ℕ → Option (Plan N F)

/-- What a scheduler can do: let a process begin a call (up to and including its `SELECT`), or
let it continue the call it is in (the next lookup of a batch, or flush and commit).  A process that crashes in the middle of a
call is one that is never continued. -/
inductive Event (N F : Type) where
  | start (p : ℕ) (op : COp N F)
  | finish (p : ℕ)

/-- A completed call: the process, the operation, the response. -/
abbrev Done (N F : Type) := ℕ × COp N F × Resp N F

/-- `session.merge`, `datastorage.py` 71, 137: the `SELECT` by primary key and what is pending
after it.  No row with this primary key, an `INSERT` (`some true`); a row whose results compare
equal, nothing; otherwise an `UPDATE` (`some false`). -/
def select (E : Env N F) (C : Compare F) (db : DB) (m : Model N F) : Except PyErr (Option Bool) :=
  match db.find? (fun r => r.key = m.dkey.key E) with
  | none => .ok (some true)
  | some r =>
    match processResultValue E.codec r.results with
    | .error e => .error e
    | .ok v => if C.same (v.getD []) m.results then .ok none else .ok (some false)

/-- The loop of `insert_bulk_data`, `datastorage.py` 134-138, up to the next `SELECT`, while
nothing is pending. -/
def bulkNext (E : Env N F) (C : Compare F) (db : DB) (all : List (Model N F)) :
    List (Model N F) → Resp N F ⊕ Plan N F
  | [] => .inl (.out (.done (.ok ())))
  | m :: rest =>
    match select E C db m with
    | .error e => .inl (.out (.done (.error e)))
    | .ok (some fresh) => .inr (.bulkRow all fresh m rest)
    | .ok none => if rest.isEmpty then .inl (.out (.done (.ok ()))) else .inr (.bulkSelect all rest)

/-- The first half of a call: the response if the call is over, otherwise what remains to do.
`insert_data` 70-71, `insert_bulk_data` 131-137 (the empty list: 131-132), `delete_data` 145-153.
Lookups: one statement. -/
def begin (E : Env N F) (C : Compare F) (db : DB) : COp N F → Resp N F ⊕ Plan N F
  | .insert m =>
    match select E C db m with
    | .error e => .inl (.out (.done (.error e)))
    | .ok none => .inl (.out (.done (.ok ())))
    | .ok (some true) => .inr (.insertRow m)
    | .ok (some false) => .inr (.updateRow m)
  | .insertBulk ms => bulkNext E C db ms ms
  | .delete eng q =>
    match eng.order (db.filter (q.holds E)) with
    | [] => .inl (.out (.done (.ok ())))
    | [r] => .inr (.deleteRow eng q r.key)
    | _ :: _ :: _ => .inl (.out (.done (.error .multipleResultsFound)))
  | .get eng q => .inl (.out (.one ((getData E eng q).exec db).1))
  | .getForCv eng q => .inl (.out (.one ((getDataForCv E eng q).exec db).1))
  | .getBulk eng codes size err => .inl (.out (.many ((getBulkData E eng codes size err).exec db).1))

/-- The statement for one model.  An `INSERT` (`true`) of a primary key that is there by now
fails; so does an `UPDATE` (`false`) of a row that is gone by now (`StaleDataError`). -/
def flushRow (E : Env N F) (db : DB) (fresh : Bool) (m : Model N F) : Resp N F × DB :=
  match fromModel E m with
  | .error e => (.out (.done (.error e)), db)
  | .ok r =>
    match fresh, db.any (fun x => x.key = r.key) with
    | true, true => (.integrityError, db)
    | true, false => (.out (.done (.ok ())), db ++ [r])
    | false, true => (.out (.done (.ok ())), db.map (fun x => if x.key = r.key then r else x))
    | false, false => (.staleDataError, db)

/-- The rest of the loop of `insert_bulk_data`, `datastorage.py` 135-138, inside the transaction
that holds the write lock: the lookup and the statement for each model. -/
def bulkRest (E : Env N F) (C : Compare F) (db : DB) : List (Model N F) → Resp N F × DB
  | [] => (.out (.done (.ok ())), db)
  | m :: rest =>
    match select E C db m with
    | .error e => (.out (.done (.error e)), db)
    | .ok none => bulkRest E C db rest
    | .ok (some fresh) =>
      match flushRow E db fresh m with
      | (.out (.done (.ok ())), db') => bulkRest E C db' rest
      | (r, _) => (r, db)

/-- The transaction of a batch from its first statement on: the first exception rolls
everything back. -/
def bulkCommit (E : Env N F) (C : Compare F) (db : DB) (fresh : Bool) (m : Model N F)
    (rest : List (Model N F)) : Resp N F × DB :=
  match flushRow E db fresh m with
  | (.out (.done (.ok ())), db') =>
    match bulkRest E C db' rest with
    | (.out (.done (.ok ())), db'') => (.out (.done (.ok ())), db'')
    | (r, _) => (r, db)
  | (r, _) => (r, db)

/-- A call goes on: the response and the table if the call is over (flush and commit,
`datastorage.py` 72, 138, 154), otherwise what remains to do (the next lookup of a batch).  A
`DELETE` of a row that is gone by now is only a warning. -/
def proceed (E : Env N F) (C : Compare F) (db : DB) : Plan N F → (Resp N F × DB) ⊕ Plan N F
  | .insertRow m => .inl (flushRow E db true m)
  | .updateRow m => .inl (flushRow E db false m)
  | .deleteRow _ _ k => .inl (.out (.done (.ok ())), db.filter (fun x => x.key ≠ k))
  | .bulkSelect all rest =>
    match bulkNext E C db all rest with
    | .inl r => .inl (r, db)
    | .inr plan => .inr plan
  | .bulkRow _ fresh m rest => .inl (bulkCommit E C db fresh m rest)

/-- One step of the scheduler.  A process runs one call at a time: beginning a second call in
the middle of one, or continuing when there is nothing to continue, does nothing. -/
def step (E : Env N F) (C : Compare F) (w : World N F) : Event N F → List (Done N F) × World N F
  | .start p op =>
    match w.phase p with
    | some _ => ([], w)
    | none =>
      match begin E C w.db op with
      | .inl r => ([(p, op, r)], w)
      | .inr plan => ([], { w with phase := Function.update w.phase p (some plan) })
  | .finish p =>
    match w.phase p with
    | none => ([], w)
    | some plan =>
      match proceed E C w.db plan with
      | .inl r => ([(p, plan.op, r.1)], ⟨r.2, Function.update w.phase p none⟩)
      | .inr plan' => ([], { w with phase := Function.update w.phase p (some plan') })

/-- A schedule: the calls completed, in the order of completion, and the world after it. -/
def run (E : Env N F) (C : Compare F) : List (Event N F) → World N F → List (Done N F) × World N F
  | [], w => ([], w)
  | e :: es, w => ((step E C w e).1 ++ (run E C es (step E C w e).2).1, (run E C es (step E C w e).2).2)

/-- No table content, nobody in the middle of a call. -/
def World.init : World N F := ⟨[], fun _ => none⟩

end Pysatl.Concurrent
