import Verif.Model.Loader
import Verif.Props.Storage

/-! # Properties of the critical value loader -/

set_option linter.unusedSectionVars false

namespace Pysatl.Props

open Pysatl.Decision Pysatl.Storage Pysatl.Loader

variable {N F : Type} (E : Storage.Env N F)

/-- A database has data for a code at exactly this sample size. -/
def HasExact (db : DB) (size : ℤ) (code : String) : Prop :=
  ∃ r ∈ db, r.key.code = code ∧ r.key.sampleSize = size

/-- A database has data for a code within the tolerance. -/
def HasNear (db : DB) (size err : ℤ) (code : String) : Prop :=
  ∃ r ∈ db, r.key.code = code ∧ size - err ≤ r.key.sampleSize ∧ r.key.sampleSize ≤ size + err

instance (db : DB) (size : ℤ) : DecidablePred (HasExact db size) := fun _ =>
  inferInstanceAs (Decidable (∃ r ∈ db, _))

instance (db : DB) (size err : ℤ) : DecidablePred (HasNear db size err) := fun _ =>
  inferInstanceAs (Decidable (∃ r ∈ db, _))

theorem exec_onLocal {α : Type} (x : Py DB α) (w : DB × DB) :
    (onLocal x).exec w = ((x.exec w.1).1, ((x.exec w.1).2, w.2)) := rfl

theorem exec_onRemote {α : Type} (x : Py DB α) (w : DB × DB) :
    (onRemote x).exec w = ((x.exec w.2).1, (w.1, (x.exec w.2).2)) := rfl

theorem exec_tryCatch_unit {σ : Type} (x : Py σ Unit) (w : σ) :
    (tryCatch x (fun _ => pure ()) : Py σ Unit).exec w = (.ok (), (x.exec w).2) := by
  show (ExceptT.run (tryCatch x (fun _ => pure ()))).run w = _
  unfold Py.exec
  simp only [tryCatch, tryCatchThe, MonadExceptOf.tryCatch, ExceptT.tryCatch, ExceptT.run, ExceptT.mk,
    bind, StateT.bind, StateT.run]
  cases h : x w with
  | mk r w' => cases r <;> rfl

/-- The lookup for critical values answers whether there is data of exactly the size. -/
theorem cv_isSome {db : DB} (hdb : Reachable E db) (eng : Engine) (code : String) (size err : ℤ) :
    ∃ o : Option (Model N F), (getDataForCv E eng ⟨code, size, err⟩).exec db = (.ok o, db) ∧
      o.isSome = decide (HasExact db size code) := by
  obtain ⟨h1, h2⟩ := C36_best_for_cv E hdb eng ⟨code, size, err⟩
  rcases h2 with ⟨h3, h4⟩ | ⟨r, hr, m, h3, -, h5, h6, -⟩
  · refine ⟨none, Prod.ext h3 h1, ?_⟩
    have : ¬ HasExact db size code := fun ⟨r, hr, hc⟩ => h4 r hr hc
    simp [this]
  · refine ⟨some m, Prod.ext h3 h1, ?_⟩
    have : HasExact db size code := ⟨r, hr, h5, h6⟩
    simp [this]

theorem splitCached_exec {l r : DB} (hl : Reachable E l) (eng : Engine)
    (ins : List (Model N F) → Py DB Unit) (size err : ℤ) (codes : List String) :
    (splitCached (localStore E eng ins) size err codes).exec (l, r) =
      (.ok (codes.filter (fun c => HasExact l size c), codes.filter (fun c => ¬ HasExact l size c)),
        (l, r)) := by
  induction codes with
  | nil => rfl
  | cons c cs ih =>
    obtain ⟨o, ho, hs⟩ := cv_isSome E hl eng c size err
    have : ((localStore E eng ins).getForCv ⟨c, size, err⟩).exec (l, r) = (.ok o, (l, r)) := by
      show (onLocal _).exec (l, r) = _
      rw [exec_onLocal, ho]
    simp only [splitCached, exec_bind, this, ih, exec_pure, hs]
    by_cases hc : HasExact l size c <;> simp [hc]

/-- What `load_bulk` does when a remote storage is there. -/
theorem loadBulk_exec {l r : DB} (hl : Reachable E l) (hr : Reachable E r) (eng eng' : Engine)
    (ins : List (Model N F) → Py DB Unit) (codes : List String) (size err : ℤ) :
    ∃ ms : List (Model N F), ∃ l',
      (loadBulk (localStore E eng ins) (some (remoteStore E eng')) codes size err).exec (l, r) =
        (.ok ⟨codes.length, (codes.filter (fun c => HasExact l size c)).length, ms.length,
          codes.filter (fun c => ¬ HasExact l size c ∧ ¬ HasNear r size err c)⟩, (l', r)) ∧
      (∃ s, Represents E r s ∧ BulkSpec s (codes.filter (fun c => ¬ HasExact l size c)) size err (.ok ms)) ∧
      ((codes.filter (fun c => ¬ HasExact l size c) = [] ∧ ms = [] ∧ l' = l) ∨
        (codes.filter (fun c => ¬ HasExact l size c) ≠ [] ∧ l' = ((ins ms).exec l).2)) := by
  obtain ⟨s, hs⟩ := hr.represents
  have hcomb : ∀ ms : List (Model N F),
      BulkSpec s (codes.filter (fun c => ¬ HasExact l size c)) size err (.ok ms) →
      (codes.filter (fun c => ¬ HasExact l size c)).filter (fun c => c ∉ ms.map (·.code)) =
        codes.filter (fun c => ¬ HasExact l size c ∧ ¬ HasNear r size err c) := by
    intro ms hb
    rw [List.filter_filter]
    apply List.filter_congr
    intro c hc
    rw [← Bool.decide_and, decide_eq_decide]
    constructor
    · rintro ⟨h1, h2⟩
      refine ⟨h2, fun ⟨x, hx, hxc, ha, hb'⟩ => h1 ?_⟩
      obtain ⟨k, v, hri⟩ := hs.rows x hx
      have hkc : k.code = c := by rw [← hxc, hri.1]; rfl
      have hsz : k.sampleSize = x.key.sampleSize := by rw [hri.1]; rfl
      obtain ⟨m, hm, hmc⟩ := hb.2.2 k (by rw [hkc]; exact List.mem_filter.2 ⟨hc, by simpa using h2⟩)
        ⟨by rw [hsz]; exact ha, by rw [hsz]; exact hb'⟩ ((hs.ne_none k).2 ⟨x, hx, hri.1⟩)
      exact List.mem_map.2 ⟨m, hm, hmc.trans hkc⟩
    · rintro ⟨h1, h2⟩
      refine ⟨fun h3 => h2 ?_, h1⟩
      obtain ⟨m, hm, hmc⟩ := List.mem_map.1 h3
      obtain ⟨h4, -, h5, -⟩ := hb.2.1 m hm
      obtain ⟨x, hx, hri⟩ := (hs.iff _ _).1 h4
      refine ⟨x, hx, by rw [hri.1]; exact hmc, by rw [hri.1]; exact h5.1, by rw [hri.1]; exact h5.2⟩
  by_cases hcodes : codes = []
  · subst hcodes
    refine ⟨[], l, by simp [loadBulk], ⟨s, hs, by simp [BulkSpec]⟩, Or.inl (by simp)⟩
  · by_cases hm : codes.filter (fun c => ¬ HasExact l size c) = []
    · refine ⟨[], l, ?_, ⟨s, hs, by rw [hm]; simp [BulkSpec]⟩, Or.inl ⟨hm, rfl, rfl⟩⟩
      have h0 : codes.filter (fun c => ¬ HasExact l size c ∧ ¬ HasNear r size err c) = [] := by
        rw [List.filter_eq_nil_iff] at hm ⊢
        intro c hc
        have := hm c hc
        simp only [decide_not, Bool.not_eq_eq_eq_not, Bool.not_true, decide_eq_false_iff_not, not_not] at this
        simp [this]
      simp only [loadBulk, if_neg hcodes, exec_bind, splitCached_exec E hl, hm, if_true, exec_pure, h0,
        List.length_nil]
    · obtain ⟨hb1, hb2⟩ := bulk_spec hs eng' (codes.filter (fun c => ¬ HasExact l size c)) size err
      rcases hout : ((getBulkData E eng' (codes.filter (fun c => ¬ HasExact l size c)) size err).exec r).1
        with e | ms
      · rw [hout] at hb1; exact absurd hb1 (by simp [BulkSpec])
      · rw [hout] at hb1
        refine ⟨ms, ((ins ms).exec l).2, ?_, ⟨s, hs, hb1⟩, Or.inr ⟨hm, rfl⟩⟩
        have hget : ((remoteStore E eng').getBulk
            (codes.filter (fun c => ¬ HasExact l size c)) size err).exec (l, r) = (.ok ms, (l, r)) := by
          show (onRemote _).exec (l, r) = _
          rw [exec_onRemote, hout, hb2]
        have hins : ((localStore E eng ins).insertBulk ms) = onLocal (ins ms) := rfl
        simp only [loadBulk, if_neg hcodes, exec_bind, splitCached_exec E hl, if_neg hm, hget,
          exec_tryCatch_unit, exec_pure, hins, exec_onLocal, hcomb ms hb1]

/-! ### C43 -/

/-- `load` never changes the local storage and returns `True` exactly when the remote storage
has data of the requested size. -/
theorem C43_load_effect_partial {l r : DB} (hr : Reachable E r) (eng eng' : Engine)
    (ins : List (Model N F) → Py DB Unit) (code : String) (size err : ℤ) :
    (load (localStore E eng ins) (some (remoteStore E eng')) code size err).exec (l, r) =
      (.ok (decide (HasExact r size code)), (l, r)) := by
  obtain ⟨o, ho, hs⟩ := cv_isSome E hr eng' code size err
  have : ((remoteStore E eng').getForCv ⟨code, size, err⟩).exec (l, r) = (.ok o, (l, r)) := by
    show (onRemote _).exec (l, r) = _
    rw [exec_onRemote, ho]
  rcases o with _ | m
  · simp only [Option.isSome_none] at hs
    simp only [load, exec_bind, this, exec_pure, ← hs]
  · simp only [Option.isSome_some] at hs
    simp only [load, exec_bind, this, exec_pure, ← hs]

/-- C43 is false of the code: with any row `m` in the remote storage and an empty local storage,
`load` returns `True` and the local lookup still returns `None`. -/
theorem C43_refuted (eng eng' : Engine) (m : Model N F) (h : m.results.length < 2 ^ 32) :
    ∃ w : DB × DB,
      (load (localStore E eng (insertBulkData E)) (some (remoteStore E eng')) m.code m.sampleSize
        0).exec ([], ((insertData E m).exec []).2) = (.ok true, w) ∧
      ((getDataForCv E eng ⟨m.code, m.sampleSize, 0⟩).exec w.1).1 = .ok none := by
  classical
  have hr : Reachable E ((insertData E m).exec []).2 := Reachable.exec .empty (.insert m)
  have hput : (State.put E.codec.fmt.round32 State.empty m) m.dkey ≠ none := by
    unfold State.put; rw [Function.update_self]; simp
  obtain ⟨x, hx, hxk⟩ := ((insert_one E m h).ne_none _).1 hput
  have hex : HasExact ((insertData E m).exec []).2 m.sampleSize m.code :=
    ⟨x, hx, by rw [hxk]; rfl, by rw [hxk]; rfl⟩
  refine ⟨_, by rw [C43_load_effect_partial E hr]; simp only [hex, decide_true]; rfl, ?_⟩
  obtain ⟨o, ho, hs⟩ := cv_isSome E (.empty : Reachable E []) eng m.code m.sampleSize 0
  rw [ho]
  have : ¬ HasExact [] m.sampleSize m.code := by rintro ⟨x, hx, -⟩; simp at hx
  simp only [this, decide_false] at hs
  cases o
  · rfl
  · simp at hs

/-- C43 when the local storage already had the data: then it is there after a `load` that
returned `True`.  Missing from the full property: every other case. -/
theorem C43_already_local_partial {l r : DB} (hr : Reachable E r) (eng eng' : Engine)
    (ins : List (Model N F) → Py DB Unit) (code : String) (size err : ℤ)
    (hlocal : HasExact l size code) :
    HasExact ((load (localStore E eng ins) (some (remoteStore E eng')) code size err).exec (l, r)).2.1
      size code := by
  rw [C43_load_effect_partial E hr]; exact hlocal

/-- C43 when another client writes to the remote storage between the two lookups of `load`: for
any storages, if the first lookup finds nothing and the second finds `m`, then `load` inserts
exactly `m` locally, returns `True` if the insert succeeds and passes its exception on otherwise.
Missing from the full property: the case that the first lookup succeeds, in which nothing is
stored (`C43_refuted`). -/
theorem C43_second_lookup_partial {σ : Type} (loc rem : Store σ N F) (code : String) (size err : ℤ)
    {w w1 w2 : σ} {m : Model N F}
    (h1 : (rem.getForCv ⟨code, size, err⟩).exec w = (.ok none, w1))
    (h2 : (rem.getForCv ⟨code, size, err⟩).exec w1 = (.ok (some m), w2)) :
    (load loc (some rem) code size err).exec w =
      (match (loc.insert m).exec w2 with
       | (.ok _, w3) => (.ok true, w3)
       | (.error e, w3) => (.error e, w3)) := by
  simp only [load, exec_bind, h1, h2, exec_pure]
  rcases (loc.insert m).exec w2 with ⟨r | r, w3⟩ <;> rfl

/-- A remote storage that answers the first lookup with nothing and later ones with `m`. -/
example (m : Model N F) :
    ∃ loc rem : Store (ℕ × List (Model N F)) N F,
      (load loc (some rem) m.code m.sampleSize 0).exec (0, []) = (.ok true, (2, [m])) := by
  refine ⟨⟨fun _ => pure none, fun _ _ _ => pure [], fun x => modify fun w => (w.1, x :: w.2),
    fun _ => pure ()⟩, ⟨fun _ => do
      let w ← get
      set (w.1 + 1, w.2)
      return if w.1 = 0 then none else some m, fun _ _ _ => pure [], fun _ => pure (),
      fun _ => pure ()⟩, ?_⟩
  rw [C43_second_lookup_partial (w := (0, [])) (w1 := (1, [])) (w2 := (2, [])) (m := m) _ _ _ _ _ rfl rfl]
  rfl

/-! ### C44 -/

/-- C44: with a reachable remote storage and whatever the local bulk insert does, the result
counts the requested codes, those with local data of the requested size, the distinct others
with remote data within the tolerance, and lists the rest in order. -/
theorem C44_accounting {l r : DB} (hl : Reachable E l) (hr : Reachable E r) (eng eng' : Engine)
    (ins : List (Model N F) → Py DB Unit) (codes : List String) (size err : ℤ) :
    ((loadBulk (localStore E eng ins) (some (remoteStore E eng')) codes size err).exec (l, r)).1 =
      .ok { requestedCount := codes.length
            alreadyCachedCount := codes.countP (fun c => HasExact l size c)
            newlyCachedCount :=
              (codes.filter (fun c => ¬ HasExact l size c ∧ HasNear r size err c)).dedup.length
            notFoundCodes := codes.filter (fun c => ¬ HasExact l size c ∧ ¬ HasNear r size err c) } := by
  obtain ⟨ms, l', h1, ⟨s, hs, hb⟩, -⟩ := loadBulk_exec E hl hr eng eng' ins codes size err
  rw [h1]
  have hlen : ms.length =
      (codes.filter (fun c => ¬ HasExact l size c ∧ HasNear r size err c)).dedup.length := by
    rw [← List.length_map (f := fun m : Model N F => m.code) (as := ms)]
    apply List.Perm.length_eq
    rw [List.perm_ext_iff_of_nodup hb.1 (List.nodup_dedup _)]
    intro c
    rw [List.mem_dedup, List.mem_filter, List.mem_map]
    constructor
    · rintro ⟨m, hm, rfl⟩
      obtain ⟨h4, h5, h6, -⟩ := hb.2.1 m hm
      obtain ⟨x, hx, hri⟩ := (hs.iff _ _).1 h4
      obtain ⟨h7, h8⟩ := List.mem_filter.1 h5
      refine ⟨h7, ?_⟩
      have hnear : HasNear r size err m.code :=
        ⟨x, hx, by rw [hri.1]; rfl, by rw [hri.1]; exact h6.1, by rw [hri.1]; exact h6.2⟩
      simpa [hnear] using h8
    · rintro ⟨hc, hp⟩
      simp only [decide_eq_true_eq] at hp
      obtain ⟨hne, x, hx, hxc, ha, hb'⟩ := hp
      obtain ⟨k, v, hri⟩ := hs.rows x hx
      have hkc : k.code = c := by rw [← hxc, hri.1]; rfl
      have hsz : k.sampleSize = x.key.sampleSize := by rw [hri.1]; rfl
      obtain ⟨m, hm, hmc⟩ := hb.2.2 k (by rw [hkc]; exact List.mem_filter.2 ⟨hc, by simpa using hne⟩)
        ⟨by rw [hsz]; exact ha, by rw [hsz]; exact hb'⟩ ((hs.ne_none k).2 ⟨x, hx, hri.1⟩)
      exact ⟨m, hm, hmc.trans hkc⟩
  simp only [hlen, List.countP_eq_length_filter]

/-! ### C45, C46 -/

theorem foldl_put_none (round : F → F) (ms : List (Model N F)) (s : State N F) (k : DKey N) :
    ms.foldl (State.put round) s k ≠ none ↔ s k ≠ none ∨ ∃ m ∈ ms, m.dkey = k := by
  classical
  induction ms generalizing s with
  | nil => simp
  | cons m ms ih =>
    rw [List.foldl_cons, ih]
    unfold State.put
    rw [Function.update_apply]
    by_cases h : k = m.dkey
    · simp [h]
    · have : m.dkey ≠ k := fun h' => h h'.symm
      simp [h, this]

/-- Stored results always fit the format. -/
def Fitting (s : State N F) : Prop := ∀ k v, s k = some v → v.length < 2 ^ 32

theorem fitting_put {round : F → F} {s : State N F} (h : Fitting s) {m : Model N F} (hm : m.fits) :
    Fitting (State.put round s m) := by
  classical
  intro k v hv
  unfold State.put at hv
  rw [Function.update_apply] at hv
  split at hv
  · simp only [Option.some.injEq] at hv
    rw [← hv, List.length_map]
    exact hm
  · exact h k v hv

theorem fitting_foldl {round : F → F} (ms : List (Model N F)) {s : State N F} (h : Fitting s)
    (hm : ∀ m ∈ ms, m.fits) : Fitting (ms.foldl (State.put round) s) := by
  induction ms generalizing s with
  | nil => exact h
  | cons m ms ih =>
    exact ih (fitting_put h (hm m (by simp))) (fun x hx => hm x (by simp [hx]))

theorem fitting_putAll {round : F → F} {s s' : State N F} {ms : List (Model N F)}
    {r : Except PyErr Unit} (h : Fitting s) (hp : PutAllSpec round s ms r s') : Fitting s' := by
  unfold PutAllSpec at hp
  split at hp
  · rename_i hall; rw [hp.2]; exact fitting_foldl ms h hall
  · rw [hp.2]; exact h

theorem fitting_step {round : F → F} {s s' : State N F} {op : Op N F} {o : Out N F}
    (h : Fitting s) (hs : SpecStep round s op o s') : Fitting s' := by
  classical
  cases op <;> cases o <;> simp only [SpecStep] at hs <;> try contradiction
  · exact fitting_putAll h hs
  · exact fitting_putAll h hs
  · rename_i q r
    rcases r with e | ⟨⟨⟩⟩
    · rw [hs.2.1]; exact h
    · rcases hs with ⟨-, rfl⟩ | ⟨i, -, -, rfl⟩
      · exact h
      · intro k v hv
        rw [Function.update_apply] at hv
        split at hv
        · cases hv
        · exact h k v hv
  · rw [hs.2]; exact h
  · rw [hs.2]; exact h
  · rw [hs.2]; exact h

theorem fitting_run {round : F → F} {s s' : State N F} {ops : List (Op N F)} {outs : List (Out N F)}
    (hr : SpecRun round s ops outs s') (h : Fitting s) : Fitting s' := by
  induction hr with
  | nil => exact h
  | cons hstep _ ih => exact ih (fitting_step h hstep)

theorem represents_unique {db : DB} {s s' : State N F} (h : Represents E db s)
    (h' : Represents E db s') : s = s' := by
  funext k
  apply Option.ext
  intro v
  rw [h.iff, h'.iff]

theorem Reachable.fitting {db : DB} (h : Reachable E db) {s : State N F} (hs : Represents E db s) :
    Fitting s := by
  obtain ⟨ops, rfl⟩ := h
  obtain ⟨s', h1, h2⟩ := C32_refines_map E ops
  rw [represents_unique E hs h2]
  exact fitting_run h1 (by intro k v hv; simp [State.empty] at hv)

/-- What the local storage has after a bulk load whose insert is that of the storage. -/
theorem loadBulk_local {l r : DB} (hl : Reachable E l) (hr : Reachable E r) (eng eng' : Engine)
    (codes : List String) (size err : ℤ) :
    ∃ l', Reachable E l' ∧
      ((loadBulk (localStore E eng (insertBulkData E)) (some (remoteStore E eng')) codes size err).exec
        (l, r)).2 = (l', r) ∧
      (∀ c size', HasExact l size' c → HasExact l' size' c) ∧
      (∀ c ∈ codes, HasExact l size c ∨ (HasNear r size err c ↔
        ∃ size', size - err ≤ size' ∧ size' ≤ size + err ∧ HasExact r size' c ∧ HasExact l' size' c)) ∧
      (∀ c size', HasExact l' size' c → HasExact l size' c ∨
        (HasExact r size' c ∧ size - err ≤ size' ∧ size' ≤ size + err)) ∧
      ((∀ c ∈ codes, HasExact l size c) → l' = l) := by
  obtain ⟨ms, l', h1, ⟨s, hs, hb⟩, h3⟩ :=
    loadBulk_exec E hl hr eng eng' (insertBulkData E) codes size err
  obtain ⟨sl, hsl⟩ := hl.represents
  have hexact : ∀ {db : DB} {t : State N F}, Represents E db t → ∀ size' c,
      HasExact db size' c ↔ ∃ k : DKey N, k.code = c ∧ k.sampleSize = size' ∧ t k ≠ none := by
    intro db t ht size' c
    constructor
    · rintro ⟨x, hx, hxc, hxs⟩
      obtain ⟨k, v, hri⟩ := ht.rows x hx
      rw [hri.1] at hxc hxs
      exact ⟨k, hxc, hxs, (ht.ne_none k).2 ⟨x, hx, hri.1⟩⟩
    · rintro ⟨k, hkc, hks, hk⟩
      obtain ⟨x, hx, hxk⟩ := (ht.ne_none k).1 hk
      exact ⟨x, hx, by rw [hxk]; exact hkc, by rw [hxk]; exact hks⟩
  have hmfits : ∀ m ∈ ms, m.fits := fun m hm => hr.fitting E hs _ _ (hb.2.1 m hm).1
  rw [h1]
  rcases h3 with ⟨hm, rfl, rfl⟩ | ⟨hm, rfl⟩
  · have hall : ∀ c ∈ codes, HasExact l' size c := by
      intro c hc
      have := (List.filter_eq_nil_iff.1 hm) c hc
      simpa using this
    exact ⟨l', hl, rfl, fun c size' h => h, fun c hc => Or.inl (hall c hc),
      fun c size' h => Or.inl h, fun _ => rfl⟩
  · obtain ⟨s', hp, hs'⟩ := insertBulk_spec hsl ms
    unfold PutAllSpec at hp
    rw [if_pos hmfits] at hp
    have hdom : ∀ k, s' k ≠ none ↔ sl k ≠ none ∨ ∃ m ∈ ms, m.dkey = k := by
      intro k; rw [hp.2]; exact foldl_put_none _ _ _ _
    refine ⟨_, Reachable.exec hl (.insertBulk ms), rfl, ?_, ?_, ?_, ?_⟩
    · intro c size' h
      show HasExact ((insertBulkData E ms).exec l).2 size' c
      rw [hexact hs']
      obtain ⟨k, hkc, hks, hk⟩ := (hexact hsl size' c).1 h
      exact ⟨k, hkc, hks, (hdom k).2 (Or.inl hk)⟩
    · intro c hc
      by_cases hce : HasExact l size c
      · exact Or.inl hce
      · right
        constructor
        · rintro ⟨x, hx, hxc, ha, hb'⟩
          obtain ⟨k, v, hri⟩ := hs.rows x hx
          rw [hri.1] at hxc ha hb'
          obtain ⟨m, hm', hmc⟩ := hb.2.2 k
            (by rw [show k.code = c from hxc]; exact List.mem_filter.2 ⟨hc, by simpa using hce⟩)
            ⟨ha, hb'⟩ ((hs.ne_none k).2 ⟨x, hx, hri.1⟩)
          obtain ⟨h4, -, h6, -⟩ := hb.2.1 m hm'
          refine ⟨m.sampleSize, h6.1, h6.2, ?_, ?_⟩
          · rw [hexact hs]
            exact ⟨m.dkey, hmc.trans hxc, rfl, by rw [h4]; simp⟩
          · show HasExact ((insertBulkData E ms).exec l).2 _ c
            rw [hexact hs']
            exact ⟨m.dkey, hmc.trans hxc, rfl, (hdom _).2 (Or.inr ⟨m, hm', rfl⟩)⟩
        · rintro ⟨size', ha, hb', ⟨x, hx, hxc, hxs⟩, -⟩
          exact ⟨x, hx, hxc, by rw [hxs]; exact ha, by rw [hxs]; exact hb'⟩
    · intro c size' h
      have h' : HasExact ((insertBulkData E ms).exec l).2 size' c := h
      rw [hexact hs'] at h'
      obtain ⟨k, hkc, hks, hk⟩ := h'
      rcases (hdom k).1 hk with hk | ⟨m, hm', rfl⟩
      · left; rw [hexact hsl]; exact ⟨k, hkc, hks, hk⟩
      · right
        obtain ⟨h4, -, h6, -⟩ := hb.2.1 m hm'
        refine ⟨?_, ?_, ?_⟩
        · rw [hexact hs]; exact ⟨m.dkey, hkc, hks, by rw [h4]; simp⟩
        · rw [← hks]; exact h6.1
        · rw [← hks]; exact h6.2
    · intro hall
      exfalso
      apply hm
      rw [List.filter_eq_nil_iff]
      intro c hc
      simpa using hall c hc

/-- C45 with a working local insert: after `load_bulk` every requested code that is not reported
as not found has local data whose size is the requested one or within the tolerance; with
tolerance 0 the local lookup for the requested size returns it.  Missing from the full property:
a failing local insert, and readability at the requested size when the tolerance is positive
(both false, `C45_refuted_insert`, `C45_refuted_tolerance`). -/
theorem C45_available_partial {l r : DB} (hl : Reachable E l) (hr : Reachable E r)
    (eng eng' : Engine) (codes : List String) (size err : ℤ) (res : BulkLoadResult) (w : DB × DB)
    (hrun : (loadBulk (localStore E eng (insertBulkData E)) (some (remoteStore E eng')) codes size
      err).exec (l, r) = (.ok res, w)) (c : String) (hc : c ∈ codes) (hfound : c ∉ res.notFoundCodes) :
    (HasExact w.1 size c ∨ HasNear w.1 size err c) ∧
    (err = 0 → ∀ eng'', ∃ m, ((getDataForCv E eng'' ⟨c, size, 0⟩).exec w.1).1 = .ok (some m)) := by
  have hres := C44_accounting E hl hr eng eng' (insertBulkData E) codes size err
  rw [hrun] at hres
  obtain ⟨l', hreach, hw, hkeep, hnew, -, -⟩ := loadBulk_local E hl hr eng eng' codes size err
  rw [hrun] at hw
  simp only at hw hres
  subst hw
  simp only [Except.ok.injEq] at hres
  subst hres
  have hfound' : HasExact l size c ∨ HasNear r size err c := by
    by_contra hcon
    rw [not_or] at hcon
    exact hfound (List.mem_filter.2 ⟨hc, by simpa using hcon⟩)
  have key : HasExact l' size c ∨ HasNear l' size err c := by
    rcases hnew c hc with h | h
    · exact Or.inl (hkeep c size h)
    · rcases hfound' with h' | h'
      · exact Or.inl (hkeep c size h')
      · obtain ⟨size', ha, hb, -, x, hx, hxc, hxs⟩ := h.1 h'
        exact Or.inr ⟨x, hx, hxc, by rw [hxs]; exact ha, by rw [hxs]; exact hb⟩
  refine ⟨key, ?_⟩
  rintro rfl eng''
  have hex : HasExact l' size c := by
    rcases key with h | ⟨x, hx, hxc, ha, hb⟩
    · exact h
    · exact ⟨x, hx, hxc, by omega⟩
  obtain ⟨x, hx, hxc, hxs⟩ := hex
  exact C37_exact_size_partial E hreach eng'' ⟨c, size, 0⟩ x hx hxc hxs

/-- C45 is false of the code when the local insert fails: the error is swallowed, the code is
reported neither as not found nor otherwise, and the local storage has nothing. -/
theorem C45_refuted_insert {r : DB} (hr : Reachable E r) (eng eng' : Engine) (e : PyErr)
    (size err : ℤ) (c : String) (hnear : HasNear r size err c) :
    (loadBulk (localStore E eng (fun _ => throw e)) (some (remoteStore E eng')) [c] size err).exec ([], r) =
      (.ok ⟨1, 0, 1, []⟩, ([], r)) := by
  have hres := C44_accounting E .empty hr eng eng' (fun _ => throw e) [c] size err
  obtain ⟨ms, l', h1, -, h3⟩ := loadBulk_exec E .empty hr eng eng' (fun _ => throw e) [c] size err
  have hno : ¬ HasExact [] size c := by rintro ⟨x, hx, -⟩; simp at hx
  have hl' : l' = [] := by
    rcases h3 with ⟨-, -, h⟩ | ⟨-, h⟩
    · exact h
    · rw [h]; rfl
  refine Prod.ext ?_ ?_
  · rw [hres]
    have hf : [c].filter (fun c => ¬ HasExact [] size c ∧ HasNear r size err c) = [c] := by
      simp [hno, hnear]
    simp only [hf]
    simp [hno, hnear]
  · rw [h1, hl']

/-- C45 is false of the code when the tolerance is positive: data of a neighbouring size is
fetched and reported as found, but the local lookup for the requested size returns `None`. -/
theorem C45_refuted_tolerance (eng eng' : Engine) (m : Model N F) (h : m.results.length < 2 ^ 32) :
    ∃ l' r, r = ((insertData E m).exec []).2 ∧
      (loadBulk (localStore E eng (insertBulkData E)) (some (remoteStore E eng')) [m.code]
        (m.sampleSize + 1) 1).exec ([], r) = (.ok ⟨1, 0, 1, []⟩, (l', r)) ∧
      ((getDataForCv E eng ⟨m.code, m.sampleSize + 1, 1⟩).exec l').1 = .ok none := by
  classical
  have hr : Reachable E ((insertData E m).exec []).2 := Reachable.exec .empty (.insert m)
  have hs := insert_one E m h
  have hput : (State.put E.codec.fmt.round32 State.empty m) m.dkey ≠ none := by
    unfold State.put; rw [Function.update_self]; simp
  obtain ⟨x, hx, hxk⟩ := (hs.ne_none _).1 hput
  have hnear : HasNear ((insertData E m).exec []).2 (m.sampleSize + 1) 1 m.code := by
    refine ⟨x, hx, by rw [hxk]; rfl, ?_, ?_⟩
    · rw [hxk]; show _ ≤ m.sampleSize; omega
    · rw [hxk]; show m.sampleSize ≤ _; omega
  have hno : ¬ HasExact [] (m.sampleSize + 1) m.code := by rintro ⟨x, hx, -⟩; simp at hx
  have hnoR : ¬ HasExact ((insertData E m).exec []).2 (m.sampleSize + 1) m.code := by
    rintro ⟨y, hy, -, hys⟩
    obtain ⟨k, v, hri⟩ := hs.rows y hy
    have hk := (hs.ne_none k).2 ⟨y, hy, hri.1⟩
    unfold State.put at hk
    rw [Function.update_apply] at hk
    split at hk
    · rename_i hkk
      rw [hri.1, hkk] at hys
      have : m.sampleSize = m.sampleSize + 1 := hys
      omega
    · exact hk rfl
  obtain ⟨l', hreach, hw, -, -, hback, -⟩ :=
    loadBulk_local E .empty hr eng eng' [m.code] (m.sampleSize + 1) 1
  have hres := C44_accounting E .empty hr eng eng' (insertBulkData E) [m.code] (m.sampleSize + 1) 1
  refine ⟨l', _, rfl, Prod.ext ?_ hw, ?_⟩
  · rw [hres]
    have hf : [m.code].filter (fun c => ¬ HasExact [] (m.sampleSize + 1) c ∧
        HasNear ((insertData E m).exec []).2 (m.sampleSize + 1) 1 c) = [m.code] := by
      simp [hno, hnear]
    simp only [hf]
    simp [hno, hnear]
  · obtain ⟨o, ho, hs'⟩ := cv_isSome E hreach eng m.code (m.sampleSize + 1) 1
    rw [ho]
    have : ¬ HasExact l' (m.sampleSize + 1) m.code := by
      intro hc
      rcases hback _ _ hc with h' | ⟨h', -⟩
      · exact hno h'
      · exact hnoR h'
    simp only [this, decide_false] at hs'
    cases o
    · rfl
    · simp at hs'

/-- C46: with tolerance 0 and a working local insert, a second identical bulk load changes
nothing, reports as cached everything the first found in either storage, loads nothing, and
reports the same codes as not found. -/
theorem C46_idempotent {l r : DB} (hl : Reachable E l) (hr : Reachable E r)
    (eng eng' : Engine) (codes : List String) (size : ℤ) (res : BulkLoadResult) (w : DB × DB)
    (hrun : (loadBulk (localStore E eng (insertBulkData E)) (some (remoteStore E eng')) codes size
      0).exec (l, r) = (.ok res, w)) :
    (loadBulk (localStore E eng (insertBulkData E)) (some (remoteStore E eng')) codes size
      0).exec w = (.ok ⟨codes.length, codes.length - res.notFoundCodes.length, 0,
        res.notFoundCodes⟩, w) := by
  have hres := C44_accounting E hl hr eng eng' (insertBulkData E) codes size 0
  rw [hrun] at hres
  obtain ⟨l', hreach, hw, hkeep, hnew, hback, -⟩ := loadBulk_local E hl hr eng eng' codes size 0
  rw [hrun] at hw
  simp only at hw hres
  subst hw
  simp only [Except.ok.injEq] at hres
  subst hres
  have hnearexact : ∀ (db : DB) c, HasNear db size 0 c ↔ HasExact db size c := by
    intro db c
    constructor
    · rintro ⟨x, hx, hxc, ha, hb⟩; exact ⟨x, hx, hxc, by omega⟩
    · rintro ⟨x, hx, hxc, hxs⟩; exact ⟨x, hx, hxc, by omega, by omega⟩
  have hl' : ∀ c ∈ codes, HasExact l' size c ↔ HasExact l size c ∨ HasNear r size 0 c := by
    intro c hc
    constructor
    · intro h
      rcases hback c size h with h | ⟨h, -⟩
      · exact Or.inl h
      · exact Or.inr ((hnearexact r c).2 h)
    · rintro (h | h)
      · exact hkeep c size h
      · rcases hnew c hc with h' | h'
        · exact hkeep c size h'
        · obtain ⟨size', ha, hb, -, h''⟩ := h'.1 h
          have : size' = size := by omega
          rw [this] at h''; exact h''
  have hnf : codes.filter (fun c => ¬ HasExact l' size c ∧ ¬ HasNear r size 0 c) =
      codes.filter (fun c => ¬ HasExact l size c ∧ ¬ HasNear r size 0 c) := by
    apply List.filter_congr
    intro c hc
    rw [decide_eq_decide, hl' c hc]
    tauto
  have hnew0 : codes.filter (fun c => ¬ HasExact l' size c ∧ HasNear r size 0 c) = [] := by
    rw [List.filter_eq_nil_iff]
    intro c hc
    simp only [decide_eq_true_eq, hl' c hc]
    tauto
  have hcount : codes.countP (fun c => HasExact l' size c) =
      codes.length - (codes.filter (fun c => ¬ HasExact l size c ∧ ¬ HasNear r size 0 c)).length := by
    rw [← hnf, ← List.countP_eq_length_filter]
    have h1 := List.length_eq_countP_add_countP (fun c => decide (HasExact l' size c)) (l := codes)
    have h2 : codes.countP (fun c => decide (¬ HasExact l' size c ∧ ¬ HasNear r size 0 c)) =
        codes.countP (fun a => decide ¬ decide (HasExact l' size a) = true) := by
      apply List.countP_congr
      intro c hc
      simp only [decide_eq_true_eq, hl' c hc]
      tauto
    rw [h2]
    omega
  have hres2 := C44_accounting E hreach hr eng eng' (insertBulkData E) codes size 0
  rw [hcount, hnf, hnew0] at hres2
  obtain ⟨ms, l'', h1, -, h3⟩ := loadBulk_exec E hreach hr eng eng' (insertBulkData E) codes size 0
  have hms : ms = [] := by
    rw [h1] at hres2
    simp only [Except.ok.injEq, BulkLoadResult.mk.injEq] at hres2
    exact List.length_eq_zero_iff.1 hres2.2.2.1
  have hl'' : l'' = l' := by
    rcases h3 with ⟨-, -, h⟩ | ⟨-, h⟩
    · exact h
    · rw [h, hms]; rfl
  refine Prod.ext hres2 ?_
  rw [h1, hl'']

/-! ### C47 -/

/-- C47 with a reachable remote storage: a code reported as not found has no local data of the
requested size, and no remote data within the tolerance.  Missing from the full property: the
case without a remote storage. -/
theorem C47_not_found_partial {l r : DB} (hl : Reachable E l) (hr : Reachable E r)
    (eng eng' : Engine) (ins : List (Model N F) → Py DB Unit) (codes : List String) (size err : ℤ)
    (res : BulkLoadResult)
    (hrun : ((loadBulk (localStore E eng ins) (some (remoteStore E eng')) codes size err).exec
      (l, r)).1 = .ok res) (c : String) (hc : c ∈ res.notFoundCodes) :
    ¬ HasExact l size c ∧ ¬ HasNear r size err c := by
  rw [C44_accounting E hl hr] at hrun
  simp only [Except.ok.injEq] at hrun
  subst hrun
  simpa using (List.mem_filter.1 hc).2

/-- C47 is false of the code without a remote storage: every requested code is reported as not
found, whatever the local storage has. -/
theorem C47_refuted {l r : DB} (eng : Engine) (ins : List (Model N F) → Py DB Unit)
    (codes : List String) (size err : ℤ) :
    (loadBulk (localStore E eng ins) none codes size err).exec (l, r) =
      (.ok ⟨codes.length, 0, 0, codes⟩, (l, r)) := by
  unfold loadBulk
  split
  · rename_i h; subst h; rfl
  · rfl

/-! ### Concrete cases -/

section Examples

/-- A remote storage with two rows and an empty local one. -/
example : ∃ r, Reachable toyStore r ∧ HasNear r 10 1 "AD_GOODNESS_OF_FIT" ∧
    HasExact r 10 "KS_GOODNESS_OF_FIT" := by
  have hs := insert_two toyStore row1 row2 (by decide) (by decide)
  obtain ⟨s, hs, he⟩ := hs
  have hk : ∀ k, s k ≠ none ↔ State.empty (F := Fin (2 ^ 32)) k ≠ none ∨ ∃ m ∈ [row1, row2], m.dkey = k := by
    intro k
    rw [he]
    exact foldl_put_none toyStore.codec.fmt.round32 [row1, row2] State.empty k
  obtain ⟨x1, hx1, hk1⟩ := (hs.ne_none row1.dkey).1 ((hk _).2 (Or.inr ⟨row1, by simp, rfl⟩))
  obtain ⟨x2, hx2, hk2⟩ := (hs.ne_none row2.dkey).1 ((hk _).2 (Or.inr ⟨row2, by simp, rfl⟩))
  exact ⟨_, Reachable.exec (Reachable.exec .empty (.insert row1)) (.insert row2),
    ⟨x2, hx2, by rw [hk2]; rfl, by rw [hk2]; decide, by rw [hk2]; decide⟩,
    ⟨x1, hx1, by rw [hk1]; rfl, by rw [hk1]; rfl⟩⟩

example : ∃ l' r, r = ((insertData toyStore row1).exec []).2 ∧
      (loadBulk (localStore toyStore toyEngine (insertBulkData toyStore))
        (some (remoteStore toyStore toyEngine)) [row1.code] (row1.sampleSize + 1) 1).exec ([], r) =
        (.ok ⟨1, 0, 1, []⟩, (l', r)) ∧
      ((getDataForCv toyStore toyEngine ⟨row1.code, row1.sampleSize + 1, 1⟩).exec l').1 = .ok none :=
  C45_refuted_tolerance toyStore toyEngine toyEngine row1 (by decide)

end Examples

end Pysatl.Props
