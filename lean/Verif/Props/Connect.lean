import Verif.Model.Connect
import Verif.Lemmas.Decision

/-! # Connecting to a storage (C142) -/

namespace Pysatl.Props

open Pysatl.Decision Pysatl.Storage

/-- The server lets a client work: it answers, and the table exists or can be created. -/
def Available (srv : Connect.Server) : Prop :=
  srv.connect = .ok () ∧ (srv.table ≠ none ∨ srv.create = .ok ())

theorem initBody_exec (srv : Connect.Server) :
    Connect.initBody.exec srv = match srv.connect with
      | .ok () => Connect.createAll.exec srv
      | .error e => (.error e, srv) := by
  unfold Connect.initBody
  rw [exec_bind]
  obtain ⟨eng, con, cre, tab⟩ := srv
  cases con <;> rfl

theorem createAll_exec (srv : Connect.Server) :
    Connect.createAll.exec srv = match srv.table with
      | some _ => (.ok (), srv)
      | none => match srv.create with
        | .error e => (.error e, srv)
        | .ok () => (.ok (), { srv with table := some [] }) := rfl

theorem init_exec (srv : Connect.Server) :
    Connect.init.exec srv = match Connect.initBody.exec srv with
      | (.ok (), srv') => (.ok (), srv')
      | (.error _, srv') => (.error .connectionError, srv') := rfl

theorem createSafe_exec (srv : Connect.Server) :
    Connect.createSafe.exec srv =
      match (Connect.construct >>= fun _ => Connect.init).exec srv with
      | (.ok (), srv') => (.ok (some ()), srv')
      | (.error _, srv') => (.ok none, srv') := rfl

/-- C142, `init`: it succeeds exactly when the server is available, its only error is a
connection error, afterwards (if it succeeded) there is a table, and what a table held before is
untouched in every case. -/
theorem C142_init (srv : Connect.Server) :
    ((Connect.init.exec srv).1 = .ok () ∧ Available srv ∧
        (Connect.init.exec srv).2.table = some (srv.table.getD []) ∨
      (Connect.init.exec srv).1 = .error .connectionError ∧ ¬ Available srv ∧
        (Connect.init.exec srv).2 = srv) := by
  rw [init_exec, initBody_exec]
  unfold Available
  obtain ⟨eng, con, cre, tab⟩ := srv
  rcases con with e | ⟨⟩
  · right; exact ⟨rfl, (fun h => by cases h.1), rfl⟩
  · rw [createAll_exec]
    rcases tab with _ | db
    · rcases cre with e | ⟨⟩
      · right
        refine ⟨rfl, ?_, rfl⟩
        rintro ⟨-, h | h⟩
        · exact h rfl
        · cases h
      · left
        exact ⟨rfl, ⟨rfl, Or.inr rfl⟩, rfl⟩
    · left
      exact ⟨rfl, ⟨rfl, Or.inl (by simp)⟩, rfl⟩

/-- C142, `create_safe`: it never raises; it gives a storage exactly when the connection string is
accepted and the server is available, and then the table exists; what a table held before is
untouched in every case. -/
theorem C142_create_safe (srv : Connect.Server) :
    ((Connect.createSafe.exec srv).1 = .ok (some ()) ∧ srv.engine = .ok () ∧ Available srv ∧
        (Connect.createSafe.exec srv).2.table = some (srv.table.getD []) ∨
      (Connect.createSafe.exec srv).1 = .ok none ∧ ¬ (srv.engine = .ok () ∧ Available srv) ∧
        (Connect.createSafe.exec srv).2 = srv) := by
  rw [createSafe_exec, exec_bind]
  have hcon : Connect.construct.exec srv = (srv.engine, srv) := rfl
  rw [hcon]
  rcases heng : srv.engine with e | ⟨⟩
  · right; exact ⟨rfl, (fun h => by cases h.1), rfl⟩
  · have h := C142_init srv
    rcases hi : Connect.init.exec srv with ⟨r, srv'⟩
    dsimp only
    rw [hi] at h ⊢
    rcases h with ⟨h1, h2, h3⟩ | ⟨h1, h2, h3⟩
    · left
      have h1' : r = .ok () := h1
      subst h1'
      exact ⟨rfl, rfl, h2, h3⟩
    · right
      have h1' : r = .error .connectionError := h1
      subst h1'
      exact ⟨rfl, fun h => h2 h.2, h3⟩

/-- C142, connecting again: after a successful `init`, another one succeeds and changes
nothing. -/
theorem C142_again (srv : Connect.Server) (h : (Connect.init.exec srv).1 = .ok ()) :
    Connect.init.exec (Connect.init.exec srv).2 = (.ok (), (Connect.init.exec srv).2) := by
  rw [init_exec, initBody_exec] at h ⊢
  obtain ⟨eng, con, cre, tab⟩ := srv
  rcases con with e | ⟨⟩
  · cases h
  · rw [createAll_exec] at h ⊢
    rcases tab with _ | db
    · rcases cre with e | ⟨⟩
      · cases h
      · rfl
    · rfl

/-- A new server, a server with data, one that does not answer. -/
example : (Connect.createSafe.exec ⟨.ok (), .ok (), .ok (), none⟩).2.table = some [] ∧
    (Connect.createSafe.exec ⟨.ok (), .ok (), .error .databaseError, some []⟩).1 = .ok (some ()) ∧
    (Connect.createSafe.exec ⟨.ok (), .error .databaseError, .ok (), some []⟩).1 = .ok none ∧
    (Connect.init.exec ⟨.ok (), .error .databaseError, .ok (), some []⟩).1 =
      .error .connectionError := ⟨rfl, rfl, rfl, rfl⟩

end Pysatl.Props
