import Verif.Model.Storage

/-!
# Model of connecting to a storage

`/repo/src/pysatl_criterion/persistence/sqlalchemy/datastorage.py` 29-58: the constructor,
`init` and `create_safe`.  Logging is not modelled.
-/

namespace Pysatl.Connect

open Pysatl.Decision Pysatl.Storage

/-- A database server as it answers one client: whether `create_engine` accepts the connection
string, whether a connection can be opened, whether tables can be created, and the table of limit
distributions, if there is one. -/
structure Server where
  engine : Except PyErr Unit
  connect : Except PyErr Unit
  create : Except PyErr Unit
  table : Option DB

/-- The constructor, `datastorage.py` 29-32: `create_engine` reads the connection string only
(it opens no connection). -/
def construct : Py Server Unit := ExceptT.mk fun srv => (srv.engine, srv)

/-- `Base.metadata.create_all`, `datastorage.py` 39: tables that exist are left alone, missing
tables are created, which may fail. -/
def createAll : Py Server Unit := ExceptT.mk fun srv =>
  match srv.table with
  | some _ => (.ok (), srv)
  | none =>
    match srv.create with
    | .error e => (.error e, srv)
    | .ok () => (.ok (), { srv with table := some [] })

/-- The body of the `try` in `init`, `datastorage.py` 37-39. -/
def initBody : Py Server Unit := do
  ExceptT.mk fun srv => (srv.connect, srv)
  createAll

/-- `init`, `datastorage.py` 34-41: every exception becomes a `ConnectionError`. -/
def init : Py Server Unit := ExceptT.mk fun srv =>
  match initBody.exec srv with
  | (.ok (), srv') => (.ok (), srv')
  | (.error _, srv') => (.error .connectionError, srv')

/-- `create_safe`, `datastorage.py` 43-58: the storage (`some ()`), or `None` after any
exception. -/
def createSafe : Py Server (Option Unit) := ExceptT.mk fun srv =>
  match (construct >>= fun _ => init).exec srv with
  | (.ok (), srv') => (.ok (some ()), srv')
  | (.error _, srv') => (.ok none, srv')

end Pysatl.Connect
