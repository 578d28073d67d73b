import Verif.Model.Storage

/-!
# Model of the critical value loader

`/repo/src/pysatl_criterion/hypothesis_testing/critical_values/loader/remote_loader.py`.

A storage is given by its methods, which may raise and change a world `σ`.  Logging is not
modelled.
-/

namespace Pysatl.Loader

open Pysatl.Decision Pysatl.Storage

variable {σ N F : Type}

/-- The methods of `ILimitDistributionStorage` the loader uses
(`persistence/models/limit_distribution.py` 56-91). -/
structure Store (σ N F : Type) where
  getForCv : CvQuery → Py σ (Option (Model N F))
  getBulk : List String → ℤ → ℤ → Py σ (List (Model N F))
  insert : Model N F → Py σ Unit
  insertBulk : List (Model N F) → Py σ Unit

/-- `BulkLoadResult`, `persistence/models/limit_distribution.py` 7-16. -/
structure BulkLoadResult where
  requestedCount : ℕ
  alreadyCachedCount : ℕ
  newlyCachedCount : ℕ
  notFoundCodes : List String
  deriving DecidableEq

/-- `load`, `remote_loader.py` 22-53.  A model object is truthy. -/
def load (loc : Store σ N F) (remote : Option (Store σ N F)) (code : String)
    (sampleSize sampleSizeError : ℤ) : Py σ Bool :=
  match remote with
  | none => pure false
  | some rem => do
    let first ← rem.getForCv ⟨code, sampleSize, sampleSizeError⟩
    match first with
    | some _ => return true
    | none =>
      let second ← rem.getForCv ⟨code, sampleSize, sampleSizeError⟩
      match second with
      | some m => do
        loc.insert m
        return true
      | none => return false

/-- The loop over the requested codes, `remote_loader.py` 75-83: the codes with local data and
the others. -/
def splitCached (loc : Store σ N F) (sampleSize sampleSizeError : ℤ) :
    List String → Py σ (List String × List String)
  | [] => pure ([], [])
  | code :: rest => do
    let found ← loc.getForCv ⟨code, sampleSize, sampleSizeError⟩
    let tail ← splitCached loc sampleSize sampleSizeError rest
    return if found.isSome then (code :: tail.1, tail.2) else (tail.1, code :: tail.2)

/-- `load_bulk`, `remote_loader.py` 55-117. -/
def loadBulk (loc : Store σ N F) (remote : Option (Store σ N F)) (codes : List String)
    (sampleSize sampleSizeError : ℤ) : Py σ BulkLoadResult :=
  if codes = [] then pure ⟨0, 0, 0, []⟩
  else
    match remote with
    | none => pure ⟨codes.length, 0, 0, codes⟩
    | some rem => do
      let (alreadyCached, missing) ← splitCached loc sampleSize sampleSizeError codes
      if missing = [] then return ⟨codes.length, alreadyCached.length, 0, []⟩
      else
        let remoteModels ← rem.getBulk missing sampleSize sampleSizeError
        tryCatch (loc.insertBulk remoteModels) (fun _ => pure ())
        let notFound := missing.filter (fun c => c ∉ remoteModels.map (·.code))
        return ⟨codes.length, alreadyCached.length, remoteModels.length, notFound⟩

/-! ### Two databases -/

/-- A computation on the first of two databases. -/
def onLocal {α : Type} (x : Py DB α) : Py (DB × DB) α :=
  ExceptT.mk fun w => let r := x.exec w.1; (r.1, (r.2, w.2))

/-- A computation on the second of two databases. -/
def onRemote {α : Type} (x : Py DB α) : Py (DB × DB) α :=
  ExceptT.mk fun w => let r := x.exec w.2; (r.1, (w.1, r.2))

/-- `AlchemyLimitDistributionStorage` as a store over the local database; `insertBulk` is given
separately because it may fail for reasons outside the model (full disk, locked file). -/
def localStore (E : Env N F) (eng : Engine) (insertBulk : List (Model N F) → Py DB Unit) :
    Store (DB × DB) N F where
  getForCv q := onLocal (getDataForCv E eng q)
  getBulk codes size err := onLocal (getBulkData E eng codes size err)
  insert m := onLocal (insertData E m)
  insertBulk ms := onLocal (insertBulk ms)

/-- `AlchemyLimitDistributionStorage` as a store over the remote database. -/
def remoteStore (E : Env N F) (eng : Engine) : Store (DB × DB) N F where
  getForCv q := onRemote (getDataForCv E eng q)
  getBulk codes size err := onRemote (getBulkData E eng codes size err)
  insert m := onRemote (insertData E m)
  insertBulk ms := onRemote (insertBulkData E ms)

end Pysatl.Loader
