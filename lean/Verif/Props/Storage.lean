import Verif.Lemmas.Storage
import Mathlib.Logic.Equiv.List
import Mathlib.Tactic.Linarith

/-! # Properties of the limit distribution storage -/

set_option linter.unusedSectionVars false

namespace Pysatl.Props

open Pysatl.Codec Pysatl.Storage Pysatl.Decision

variable {N F : Type} (E : Storage.Env N F)

/-- The contents a storage can have: those left by some history starting from an empty table. -/
def Reachable (db : DB) : Prop := ∃ ops : List (Op N F), (runHistory E ops []).2 = db

variable {E}

theorem Reachable.represents {db : DB} (h : Reachable E db) : ∃ s, Represents E db s := by
  obtain ⟨ops, rfl⟩ := h
  obtain ⟨s, -, hs⟩ := history_simulates (E := E) represents_empty ops
  exact ⟨s, hs⟩

theorem runHistory_append (ops ops' : List (Op N F)) (db : DB) :
    runHistory E (ops ++ ops') db = ((runHistory E ops db).1 ++
      (runHistory E ops' (runHistory E ops db).2).1, (runHistory E ops' (runHistory E ops db).2).2) := by
  induction ops generalizing db with
  | nil => rfl
  | cons op ops ih => simp only [List.cons_append, runHistory, ih]

theorem Reachable.exec {db : DB} (h : Reachable E db) (op : Op N F) :
    Reachable E (op.exec E db).2 := by
  obtain ⟨ops, rfl⟩ := h
  exact ⟨ops ++ [op], by rw [runHistory_append]; rfl⟩

theorem Reachable.empty : Reachable E ([] : DB) := ⟨[], rfl⟩

variable (E)

/-! ### C32 -/

/-- C32: whatever the history, with whatever row orders chosen by the engine, the outcomes are
those of a map from (experiment, code, parameters, size, count) to results, and the table holds
exactly that map, each key once. -/
theorem C32_refines_map (ops : List (Op N F)) :
    ∃ s, SpecRun E.codec.fmt.round32 State.empty ops (runHistory E ops []).1 s ∧
      Represents E (runHistory E ops []).2 s :=
  history_simulates represents_empty ops

/-- The operations whose outcome a map determines. -/
def Op.same : Op N F → Op N F → Prop
  | .insert m, .insert m' => m = m'
  | .insertBulk ms, .insertBulk ms' => ms = ms'
  | .delete _ q, .delete _ q' => q = q'
  | .get _ q, .get _ q' => q = q'
  | _, _ => False

theorem getSpec_unique {s : State N F} {q : Query N} {r r' : Except PyErr (Option (Model N F))}
    (h : GetSpec s q r) (h' : GetSpec s q r') : r = r' := by
  have key : ∀ {m : Model N F}, s m.dkey = some m.results → m.dkey = q.at m.experimentId →
      s (q.at m.experimentId) ≠ none := by
    intro m h1 h2; rw [← h2, h1]; simp
  rcases r with e | _ | m <;> rcases r' with e' | _ | m'
  · rw [h.1, h'.1]
  · obtain ⟨-, i, j, -, hi, -⟩ := h; exact absurd (h' i) hi
  · obtain ⟨-, i, j, hij, hi, hj⟩ := h; exact absurd ((h'.2.2 i hi).trans (h'.2.2 j hj).symm) hij
  · obtain ⟨-, i, j, -, hi, -⟩ := h'; exact absurd (h i) hi
  · rfl
  · exact absurd (h _) (key h'.1 h'.2.1)
  · obtain ⟨-, i, j, hij, hi, hj⟩ := h'; exact absurd ((h.2.2 i hi).trans (h.2.2 j hj).symm) hij
  · exact absurd (h' _) (key h.1 h.2.1)
  · have hid : m'.experimentId = m.experimentId := h.2.2 _ (key h'.1 h'.2.1)
    have hk : m.dkey = m'.dkey := by rw [h.2.1, h'.2.1, hid]
    have hv : m.results = m'.results := by
      have := h.1; rw [hk, h'.1] at this; simpa using this.symm
    simp only [Model.dkey, DKey.mk.injEq] at hk
    obtain ⟨h1, h2, h3, h4, h5⟩ := hk
    obtain ⟨a, b, c, d, e, f⟩ := m
    obtain ⟨a', b', c', d', e', f'⟩ := m'
    simp only at h1 h2 h3 h4 h5 hv
    subst h1 h2 h3 h4 h5 hv
    rfl

theorem deleteSpec_unique {s s1 s2 : State N F} {q : Query N} {r r' : Except PyErr Unit}
    (h : DeleteSpec s q r s1) (h' : DeleteSpec s q r' s2) : r = r' ∧ s1 = s2 := by
  rcases r with e | ⟨⟨⟩⟩ <;> rcases r' with e' | ⟨⟨⟩⟩
  · exact ⟨by rw [h.1, h'.1], by rw [h.2.1, h'.2.1]⟩
  · obtain ⟨-, -, i, j, hij, hi, hj⟩ := h
    rcases h' with ⟨hn, -⟩ | ⟨k, -, hu, -⟩
    · exact absurd (hn i) hi
    · exact absurd ((hu i hi).trans (hu j hj).symm) hij
  · obtain ⟨-, -, i, j, hij, hi, hj⟩ := h'
    rcases h with ⟨hn, -⟩ | ⟨k, -, hu, -⟩
    · exact absurd (hn i) hi
    · exact absurd ((hu i hi).trans (hu j hj).symm) hij
  · refine ⟨rfl, ?_⟩
    rcases h with ⟨hn, rfl⟩ | ⟨k, hk, hu, rfl⟩ <;> rcases h' with ⟨hn', rfl⟩ | ⟨k', hk', hu', rfl⟩
    · rfl
    · exact absurd (hn _) hk'
    · exact absurd (hn' _) hk
    · rw [hu _ hk']

theorem putAll_unique {round : F → F} {s s1 s2 : State N F} {ms : List (Model N F)}
    {r r' : Except PyErr Unit} (h : PutAllSpec round s ms r s1) (h' : PutAllSpec round s ms r' s2) :
    r = r' ∧ s1 = s2 := by
  unfold PutAllSpec at h h'
  split at h
  · rename_i hall
    rw [if_pos hall] at h'
    exact ⟨h.1.trans h'.1.symm, h.2.trans h'.2.symm⟩
  · rename_i hall
    rw [if_neg hall] at h'
    exact ⟨h.1.trans h'.1.symm, h.2.trans h'.2.symm⟩

theorem specStep_unique {round : F → F} {s s1 s2 : State N F} {op op' : Op N F} {o o' : Out N F}
    (hop : Op.same op op') (h : SpecStep round s op o s1) (h' : SpecStep round s op' o' s2) :
    o = o' ∧ s1 = s2 := by
  cases op <;> cases op' <;> simp only [Op.same] at hop <;> subst hop <;>
    cases o <;> cases o' <;> simp only [SpecStep] at h h' <;> try contradiction
  · obtain ⟨rfl, rfl⟩ := putAll_unique h h'; exact ⟨rfl, rfl⟩
  · obtain ⟨rfl, rfl⟩ := putAll_unique h h'; exact ⟨rfl, rfl⟩
  · obtain ⟨rfl, rfl⟩ := deleteSpec_unique h h'; exact ⟨rfl, rfl⟩
  · obtain ⟨h, rfl⟩ := h
    obtain ⟨h', rfl⟩ := h'
    rw [getSpec_unique h h']; exact ⟨rfl, rfl⟩

/-- C32: in a history of inserts, bulk inserts, deletions and reads the outcomes do not depend
on the order in which the engine returns rows: they are a function of the operations. -/
theorem C32_engine_independent (ops ops' : List (Op N F)) (h : List.Forall₂ Op.same ops ops') :
    (runHistory E ops []).1 = (runHistory E ops' []).1 := by
  have main : ∀ (db db' : DB) (s : State N F), Represents E db s → Represents E db' s →
      (runHistory E ops db).1 = (runHistory E ops' db').1 := by
    induction h with
    | nil => intros; rfl
    | cons hop _ ih =>
      rename_i op op' ops ops' _
      intro db db' s hs hs'
      obtain ⟨s1, h1, h2⟩ := step_simulates hs op
      obtain ⟨s2, h3, h4⟩ := step_simulates hs' op'
      obtain ⟨ho, rfl⟩ := specStep_unique hop h1 h3
      show (op.exec E db).1 :: (runHistory E ops (op.exec E db).2).1 =
        (op'.exec E db').1 :: (runHistory E ops' (op'.exec E db').2).1
      rw [ho, ih _ _ s1 h2 h4]
  exact main [] [] _ represents_empty represents_empty

/-! ### C33 -/

/-- C33: a model that fits the format and whose combination is stored by no other experiment is
read back, with its results rounded to single precision, after it was inserted; whatever was
stored before, whatever order the engine uses. -/
theorem C33_insert_get {db : DB} (hdb : Reachable E db) (eng eng' : Engine) (m : Model N F)
    (hfit : m.results.length < 2 ^ 32)
    (hother : ((getData E eng' m.query).exec db).1 = .ok none ∨
      ∃ m', ((getData E eng' m.query).exec db).1 = .ok (some m') ∧ m'.experimentId = m.experimentId) :
    ((insertData E m).exec db).1 = .ok () ∧
      ((getData E eng m.query).exec ((insertData E m).exec db).2).1 =
        .ok (some { m with results := m.results.map E.codec.fmt.round32 }) := by
  classical
  obtain ⟨s, hs⟩ := hdb.represents
  obtain ⟨s', hp, hs'⟩ := insert_spec hs m
  have hall : ∀ x ∈ [m], x.fits := by simpa using (show m.fits from hfit)
  unfold PutAllSpec at hp
  rw [if_pos hall] at hp
  refine ⟨hp.1, ?_⟩
  have hg := (get_spec hs' eng m.query).1
  refine getSpec_unique hg ?_
  have hs'' : s' = Function.update s m.dkey (some (m.results.map E.codec.fmt.round32)) := hp.2
  refine ⟨?_, rfl, ?_⟩
  · show s' m.dkey = _
    rw [hs'', Function.update_self]
  · intro id hid
    show id = m.experimentId
    by_contra hne
    have hk : m.query.at id ≠ m.dkey := by
      intro he
      exact hne (congrArg DKey.experimentId he)
    rw [hs'', Function.update_of_ne hk] at hid
    have hold := (get_spec hs eng' m.query).1
    rcases hother with ho | ⟨m', ho, hid'⟩
    · rw [ho] at hold; exact hid (hold id)
    · rw [ho] at hold; exact hne ((hold.2.2 id hid).trans hid')

/-! ### C34 -/

/-- C34: on every reachable content `get_data` returns a model or `None`, unless two different
experiments stored the combination (then it raises `MultipleResultsFound`).  Missing from the
full property: that case. -/
theorem C34_get_total_partial {db : DB} (hdb : Reachable E db) (eng : Engine) (q : Query N)
    (e : PyErr) (he : ((getData E eng q).exec db).1 = .error e) :
    e = .multipleResultsFound ∧ ∃ id id' : ℤ, id ≠ id' ∧
      (∃ r ∈ db, r.key = ⟨id, q.code, E.json.dumps q.parameters, q.sampleSize, q.count⟩) ∧
      (∃ r ∈ db, r.key = ⟨id', q.code, E.json.dumps q.parameters, q.sampleSize, q.count⟩) := by
  obtain ⟨s, hs⟩ := hdb.represents
  have := (get_spec hs eng q).1
  rw [he] at this
  obtain ⟨h1, id, id', h2, h3, h4⟩ := this
  exact ⟨h1, id, id', h2, (hs.ne_none _).1 h3, (hs.ne_none _).1 h4⟩

theorem insert_two (m m' : Model N F) (h : m.results.length < 2 ^ 32)
    (h' : m'.results.length < 2 ^ 32) :
    ∃ s, Represents E ((insertData E m').exec ((insertData E m).exec []).2).2 s ∧
      s = State.put E.codec.fmt.round32 (State.put E.codec.fmt.round32 State.empty m) m' := by
  obtain ⟨s1, hp1, hs1⟩ := insert_spec (E := E) represents_empty m
  obtain ⟨s2, hp2, hs2⟩ := insert_spec hs1 m'
  unfold PutAllSpec at hp1 hp2
  rw [if_pos (by simpa using (show m.fits from h))] at hp1
  rw [if_pos (by simpa using (show m'.fits from h'))] at hp2
  exact ⟨s2, hs2, by rw [hp2.2, hp1.2]; rfl⟩

/-- C34 is false of the code: once two experiments have stored the same combination (which the
primary key allows), reading it raises, whatever the environment, the engine and the data. -/
theorem C34_refuted (eng : Engine) (m : Model N F) (id : ℤ) (hid : id ≠ m.experimentId)
    (h : m.results.length < 2 ^ 32) :
    ((getData E eng m.query).exec
      ((insertData E { m with experimentId := id }).exec ((insertData E m).exec []).2).2).1 =
        .error .multipleResultsFound := by
  classical
  obtain ⟨s, hs, he⟩ := insert_two E m { m with experimentId := id } h h
  refine getSpec_unique (get_spec hs eng m.query).1 ⟨rfl, id, m.experimentId, hid, ?_, ?_⟩
  · have : s (m.query.at id) = some (m.results.map E.codec.fmt.round32) := by
      rw [he]; exact Function.update_self ..
    rw [this]; simp
  · have hne : m.query.at m.experimentId ≠ ({ m with experimentId := id } : Model N F).dkey := by
      intro h'; exact hid (congrArg DKey.experimentId h').symm
    have : s (m.query.at m.experimentId) = some (m.results.map E.codec.fmt.round32) := by
      rw [he]
      unfold State.put
      rw [Function.update_of_ne hne]
      exact Function.update_self ..
    rw [this]; simp

/-! ### C35 -/

/-- C35: after a deletion that did not raise the combination reads as `None`, and every other
combination reads as before; a deletion of an absent combination does not raise and leaves the
table as it was. -/
theorem C35_delete_get {db : DB} (hdb : Reachable E db) (eng : Engine) (q : Query N) :
    (((deleteData E eng q).exec db).1 = .ok () →
      (∀ eng', ((getData E eng' q).exec ((deleteData E eng q).exec db).2).1 = .ok none) ∧
      ∀ eng' eng'' q', q' ≠ q →
        ((getData E eng' q').exec ((deleteData E eng q).exec db).2).1 =
          ((getData E eng'' q').exec db).1) ∧
    (∀ eng', ((getData E eng' q).exec db).1 = .ok none →
      (deleteData E eng q).exec db = (.ok (), db)) := by
  classical
  obtain ⟨s, hs⟩ := hdb.represents
  refine ⟨fun hok => ?_, fun eng' hnone => ?_⟩
  · obtain ⟨s', hd, hs'⟩ := delete_spec hs eng q
    rw [hok] at hd
    refine ⟨fun eng' => getSpec_unique (get_spec hs' eng' q).1 ?_, fun eng' eng'' q' hq' => ?_⟩
    · intro id
      rcases hd with ⟨hn, rfl⟩ | ⟨i, hi, hu, rfl⟩
      · exact hn id
      · by_cases hid : id = i
        · rw [hid, Function.update_self]
        · have hne : q.at id ≠ q.at i := fun h' => hid (congrArg DKey.experimentId h')
          rw [Function.update_of_ne hne]
          by_contra hc
          exact hid (hu id hc)
    · have hsame : ∀ id, s' (q'.at id) = s (q'.at id) := by
        intro id
        rcases hd with ⟨hn, rfl⟩ | ⟨i, hi, hu, rfl⟩
        · rfl
        · have hne : q'.at id ≠ q.at i := by
            intro h'
            apply hq'
            simp only [Query.at, DKey.mk.injEq] at h'
            obtain ⟨-, h1, h2, h3, h4⟩ := h'
            obtain ⟨a, b, c, d⟩ := q
            obtain ⟨a', b', c', d'⟩ := q'
            simp only at h1 h2 h3 h4
            subst h1 h2 h3 h4
            rfl
          rw [Function.update_of_ne hne]
      have h1 := (get_spec hs' eng' q').1
      have h2 := (get_spec hs eng'' q').1
      refine getSpec_unique h1 ?_
      revert h2
      generalize ((getData E eng'' q').exec db).1 = r
      intro h2
      rcases r with e | _ | m
      · obtain ⟨h3, i, j, hij, hi, hj⟩ := h2
        exact ⟨h3, i, j, hij, by rw [hsame]; exact hi, by rw [hsame]; exact hj⟩
      · intro id; rw [hsame]; exact h2 id
      · refine ⟨?_, h2.2.1, fun id hid => h2.2.2 id (by rw [← hsame]; exact hid)⟩
        rw [h2.2.1, hsame, ← h2.2.1]; exact h2.1
  · have h2 := (get_spec hs eng' q).1
    rw [hnone] at h2
    rcases matched_cases hs eng q with ⟨hl, -⟩ | ⟨r, hr, hl, hq, hu⟩ | ⟨r, r', rest, hl, i, j, -, hi, -⟩
    · unfold deleteData
      rw [exec_ofRun, hl]
    · exact absurd (h2 _) ((hs.ne_none _).2 ⟨r, hr, (holds_iff q r).1 hq⟩)
    · exact absurd (h2 i) hi

/-! ### C36, C37 -/

/-- C36: the lookup for critical values never raises, changes nothing, returns `None` exactly
when no row has the code and the sample size, and otherwise a stored row of that code and size
than which no other has a larger simulation count. -/
theorem C36_best_for_cv {db : DB} (hdb : Reachable E db) (eng : Engine) (q : CvQuery) :
    ((getDataForCv E eng q).exec db).2 = db ∧
    ((((getDataForCv E eng q).exec db).1 = .ok none ∧
        ∀ r ∈ db, ¬ (r.key.code = q.code ∧ r.key.sampleSize = q.sampleSize)) ∨
      ∃ r ∈ db, ∃ m, ((getDataForCv E eng q).exec db).1 = .ok (some m) ∧ toModel E r = .ok m ∧
        r.key.code = q.code ∧ r.key.sampleSize = q.sampleSize ∧
        ∀ r' ∈ db, r'.key.code = q.code → r'.key.sampleSize = q.sampleSize →
          r'.key.count ≤ r.key.count) := by
  obtain ⟨s, hs⟩ := hdb.represents
  obtain ⟨h1, h2⟩ := cv_spec hs eng q
  refine ⟨h2, ?_⟩
  revert h1
  generalize ((getDataForCv E eng q).exec db).1 = out
  intro h1
  rcases out with e | _ | m
  · exact absurd h1 (by simp [CvSpec])
  · left
    refine ⟨rfl, fun r hr hc => ?_⟩
    obtain ⟨k, v, hri⟩ := hs.rows r hr
    have := h1 k (by rw [← hc.1, hri.1]; rfl) (by rw [← hc.2, hri.1]; rfl)
    exact absurd this ((hs.ne_none k).2 ⟨r, hr, hri.1⟩)
  · right
    obtain ⟨h3, h4, h5, h6⟩ := h1
    obtain ⟨r, hr, hri⟩ := (hs.iff _ _).1 h3
    refine ⟨r, hr, m, rfl, hri.toModel, by rw [hri.1]; exact h4, by rw [hri.1]; exact h5, ?_⟩
    intro r' hr' hc hsz
    obtain ⟨k, v, hri'⟩ := hs.rows r' hr'
    have := h6 k (by rw [← hc, hri'.1]; rfl) (by rw [← hsz, hri'.1]; rfl)
      ((hs.ne_none k).2 ⟨r', hr', hri'.1⟩)
    rw [hri'.1, hri.1]; exact this

theorem insert_one (m : Model N F) (h : m.results.length < 2 ^ 32) :
    Represents E ((insertData E m).exec []).2
      (State.put E.codec.fmt.round32 State.empty m) := by
  obtain ⟨s1, hp1, hs1⟩ := insert_spec (E := E) represents_empty m
  unfold PutAllSpec at hp1
  rw [if_pos (by simpa using (show m.fits from h))] at hp1
  have : s1 = State.put E.codec.fmt.round32 State.empty m := hp1.2
  rw [← this]; exact hs1

/-- C37 is false of the code: a stored row whose size differs from the requested one is not
found, however large the tolerance of the query. -/
theorem C37_refuted (eng : Engine) (m : Model N F) (h : m.results.length < 2 ^ 32) (size err : ℤ)
    (hne : size ≠ m.sampleSize) :
    ((getDataForCv E eng ⟨m.code, size, err⟩).exec ((insertData E m).exec []).2).1 = .ok none := by
  classical
  have hs := insert_one E m h
  have h1 := (cv_spec hs eng ⟨m.code, size, err⟩).1
  revert h1
  generalize ((getDataForCv E eng ⟨m.code, size, err⟩).exec ((insertData E m).exec []).2).1 = out
  intro h1
  rcases out with e | _ | m'
  · exact absurd h1 (by simp [CvSpec])
  · rfl
  · exfalso
    obtain ⟨h3, -, h5, -⟩ := h1
    unfold State.put at h3
    rw [Function.update_apply] at h3
    split at h3
    · rename_i hk
      exact hne (h5.symm.trans (congrArg DKey.sampleSize hk))
    · simp [State.empty] at h3

/-- C37 at tolerance 0: a row of the requested size is found.  Missing from the full property:
every positive tolerance. -/
theorem C37_exact_size_partial {db : DB} (hdb : Reachable E db) (eng : Engine) (q : CvQuery)
    (r : Row) (hr : r ∈ db) (hc : r.key.code = q.code) (hsz : r.key.sampleSize = q.sampleSize) :
    ∃ m, ((getDataForCv E eng q).exec db).1 = .ok (some m) := by
  rcases (C36_best_for_cv E hdb eng q).2 with ⟨-, hno⟩ | ⟨-, -, m, hm, -⟩
  · exact absurd ⟨hc, hsz⟩ (hno r hr)
  · exact ⟨m, hm⟩

/-! ### C38 -/

/-- C38: the bulk lookup never raises and changes nothing; it returns at most one model per
code; each is a stored row of a requested code with a size in the closed tolerance interval and
the largest simulation count of its code there; and each requested code with such a row has
one. -/
theorem C38_bulk_lookup {db : DB} (hdb : Reachable E db) (eng : Engine) (codes : List String)
    (size err : ℤ) :
    ∃ ms : List (Model N F), (getBulkData E eng codes size err).exec db = (.ok ms, db) ∧
      (ms.map (·.code)).Nodup ∧
      (∀ m ∈ ms, m.code ∈ codes ∧ size - err ≤ m.sampleSize ∧ m.sampleSize ≤ size + err ∧
        ∃ r ∈ db, toModel E r = .ok m ∧
          ∀ r' ∈ db, r'.key.code = m.code → size - err ≤ r'.key.sampleSize →
            r'.key.sampleSize ≤ size + err → r'.key.count ≤ m.count) ∧
      (∀ r ∈ db, r.key.code ∈ codes → size - err ≤ r.key.sampleSize →
        r.key.sampleSize ≤ size + err → ∃ m ∈ ms, m.code = r.key.code) := by
  obtain ⟨s, hs⟩ := hdb.represents
  obtain ⟨h1, h2⟩ := bulk_spec hs eng codes size err
  rcases hout : ((getBulkData E eng codes size err).exec db).1 with e | ms
  · rw [hout] at h1; exact absurd h1 (by simp [BulkSpec])
  · rw [hout] at h1
    refine ⟨ms, Prod.ext hout h2, h1.1, ?_, ?_⟩
    · intro m hm
      obtain ⟨h3, h4, h5, h6⟩ := h1.2.1 m hm
      obtain ⟨r, hr, hri⟩ := (hs.iff _ _).1 h3
      refine ⟨h4, h5.1, h5.2, r, hr, hri.toModel, ?_⟩
      intro r' hr' hc ha hb
      obtain ⟨k, v, hri'⟩ := hs.rows r' hr'
      rw [hri'.1] at hc ha hb ⊢
      exact h6 k hc ⟨ha, hb⟩ ((hs.ne_none k).2 ⟨r', hr', hri'.1⟩)
    · intro r hr hc ha hb
      obtain ⟨k, v, hri⟩ := hs.rows r hr
      rw [hri.1] at hc ha hb ⊢
      exact h1.2.2 k hc ⟨ha, hb⟩ ((hs.ne_none k).2 ⟨r, hr, hri.1⟩)

/-! ### C39 -/

theorem insert_exec (m : Model N F) (db : DB) :
    (insertData E m).exec db = match fromModel E m with
      | .ok r => (.ok (), mergeRow db r)
      | .error e => (.error e, db) := by
  unfold insertData insertSteps
  rw [exec_ofRun]
  simp only [runSteps, Step.run]
  cases fromModel E m <;> rfl

theorem runSteps_merge_foldl (ms : List (Model N F)) (durable pending : DB) (rest : List (Step N F))
    (h : ∀ m ∈ ms, ∃ r, fromModel E m = .ok r) :
    runSteps E (ms.map .merge ++ rest) ⟨durable, pending⟩ =
      runSteps E rest ⟨durable, ms.foldl (fun d m => ((insertData E m).exec d).2) pending⟩ := by
  induction ms generalizing pending with
  | nil => rfl
  | cons m ms ih =>
    obtain ⟨r, hr⟩ := h m (by simp)
    have : runSteps E ((m :: ms).map .merge ++ rest) ⟨durable, pending⟩ =
        runSteps E (ms.map .merge ++ rest) ⟨durable, mergeRow pending r⟩ := by
      simp only [List.map_cons, List.cons_append, runSteps, Step.run, hr]
      rfl
    rw [this, ih _ (fun x hx => h x (by simp [hx])), List.foldl_cons, insert_exec, hr]

theorem runSteps_no_commit (ms : List (Model N F)) (durable pending : DB) :
    (runSteps E (ms.map .merge) ⟨durable, pending⟩).2 = durable := by
  induction ms generalizing pending with
  | nil => rfl
  | cons m ms ih =>
    simp only [List.map_cons, runSteps, Step.run]
    cases fromModel E m with
    | error e => rfl
    | ok r => exact ih _

/-- C39: from any content, a bulk insert whose models all can be inserted ends as inserting them
one after the other; if one of them cannot be (its own insert raises), the bulk insert raises
and the table is as before; and at whatever statement the process dies the durable table is
either the old one or the one the complete call leaves. -/
theorem C39_bulk_atomic (db : DB) (ms : List (Model N F)) :
    ((∀ m ∈ ms, ((insertData E m).exec db).1 = .ok ()) →
      (insertBulkData E ms).exec db =
        (.ok (), ms.foldl (fun d m => ((insertData E m).exec d).2) db)) ∧
    ((∃ m ∈ ms, ((insertData E m).exec db).1 ≠ .ok ()) →
      (∃ e, ((insertBulkData E ms).exec db).1 = .error e) ∧
        ((insertBulkData E ms).exec db).2 = db) ∧
    (∀ k, (runSteps E ((insertBulkSteps ms).take k) ⟨db, db⟩).2 = db ∨
      (((insertBulkData E ms).exec db).1 = .ok () ∧
        (runSteps E ((insertBulkSteps ms).take k) ⟨db, db⟩).2 = ((insertBulkData E ms).exec db).2)) := by
  have hok : ∀ m : Model N F, ((insertData E m).exec db).1 = .ok () ↔ ∃ r, fromModel E m = .ok r := by
    intro m
    rw [insert_exec]
    cases fromModel E m <;> simp
  refine ⟨fun h => ?_, ?_, fun k => ?_⟩
  · unfold insertBulkData insertBulkSteps
    rw [exec_ofRun]
    rcases ms with _ | ⟨m, ms⟩
    · rfl
    · simp only [List.isEmpty_cons, Bool.false_eq_true, if_false]
      rw [runSteps_merge_foldl E _ _ _ _ (fun x hx => (hok x).1 (h x hx))]
      rfl
  · rintro ⟨m, hm, hbad⟩
    have hbad' : ¬ m.fits := by
      intro hf
      obtain ⟨r, hr, -⟩ := fromModel_ok (E := E) hf
      exact hbad ((hok m).2 ⟨r, hr⟩)
    unfold insertBulkData insertBulkSteps
    rw [exec_ofRun]
    rcases ms with _ | ⟨m', ms⟩
    · simp at hm
    · simp only [List.isEmpty_cons, Bool.false_eq_true, if_false]
      have hrun : ∀ (l : List (Model N F)) (pending : DB), (∃ m ∈ l, ¬ m.fits) →
          runSteps E (l.map .merge ++ [.commit]) ⟨db, pending⟩ = (.error .structError, db) := by
        intro l
        induction l with
        | nil => intro _ h; obtain ⟨x, hx, -⟩ := h; simp at hx
        | cons x l ih =>
          intro pending hx
          by_cases hfx : x.fits
          · obtain ⟨r, hr, -⟩ := fromModel_ok (E := E) hfx
            have hstep : runSteps E ((x :: l).map .merge ++ [.commit]) ⟨db, pending⟩ =
                runSteps E (l.map .merge ++ [.commit]) ⟨db, mergeRow pending r⟩ := by
              simp only [List.map_cons, List.cons_append, runSteps, Step.run, hr]
              rfl
            rw [hstep]
            apply ih
            obtain ⟨y, hy, hyf⟩ := hx
            rcases List.mem_cons.1 hy with rfl | hy
            · exact absurd hfx hyf
            · exact ⟨y, hy, hyf⟩
          · simp only [List.map_cons, List.cons_append, runSteps, Step.run, fromModel_error hfx]
            rfl
      rw [hrun (m' :: ms) db ⟨m, hm, hbad'⟩]
      exact ⟨⟨_, rfl⟩, rfl⟩
  · unfold insertBulkData insertBulkSteps
    rw [exec_ofRun]
    rcases ms with _ | ⟨m, ms⟩
    · left; simp [runSteps]
    · simp only [List.isEmpty_cons, Bool.false_eq_true, if_false]
      generalize m :: ms = l
      rcases Nat.lt_or_ge k (l.length + 1) with hk | hk
      · left
        have : (l.map (Step.merge (N := N) (F := F)) ++ [Step.commit]).take k = (l.take k).map .merge := by
          rw [List.take_append_of_le_length (by simp; omega), List.map_take]
        rw [this]
        exact runSteps_no_commit E _ _ _
      · rw [List.take_of_length_le (by simp; omega)]
        by_cases h : ∀ x ∈ l, ∃ r, fromModel E x = .ok r
        · right
          rw [runSteps_merge_foldl E _ _ _ _ h]
          exact ⟨rfl, rfl⟩
        · left
          have : ∀ (l : List (Model N F)) (pending : DB), (¬ ∀ x ∈ l, ∃ r, fromModel E x = .ok r) →
              (runSteps E (l.map .merge ++ [.commit]) ⟨db, pending⟩).2 = db := by
            intro l
            induction l with
            | nil => intro _ h; exact absurd (by simp) h
            | cons x l ih =>
              intro pending hx
              simp only [List.map_cons, List.cons_append, runSteps, Step.run]
              cases hfx : fromModel E x with
              | error e => rfl
              | ok r =>
                apply ih
                intro hall
                apply hx
                intro y hy
                rcases List.mem_cons.1 hy with rfl | hy
                · exact ⟨r, hfx⟩
                · exact hall y hy
          exact this l db h

/-! ### C31 -/

theorem storageResolve_exec (eng : Engine) (code : String) (ps : List N) (size : ℤ) (db : DB) :
    (storageResolve E eng code ps size).exec db =
      ((((getData E eng ⟨code, ps, size, 1⟩).exec db).1).map (fun o => o.map (·.results)),
        ((getData E eng ⟨code, ps, size, 1⟩).exec db).2) := by
  unfold storageResolve
  rw [exec_bind]
  cases h : ((getData E eng ⟨code, ps, size, 1⟩).exec db) with
  | mk r w => cases r <;> rfl

/-- C31 is false of the code: a limit distribution simulated with any number of runs other than
one is never found by the resolver. -/
theorem C31_refuted (eng : Engine) (m : Model N F) (h : m.results.length < 2 ^ 32)
    (hc : m.count ≠ 1) :
    ((storageResolve E eng m.code m.parameters m.sampleSize).exec ((insertData E m).exec []).2).1 =
      .ok none := by
  classical
  rw [storageResolve_exec]
  have hs := insert_one E m h
  have : ((getData E eng ⟨m.code, m.parameters, m.sampleSize, 1⟩).exec
      ((insertData E m).exec []).2).1 = .ok none := by
    refine getSpec_unique (get_spec hs eng _).1 ?_
    intro id
    unfold State.put
    rw [Function.update_apply, if_neg]
    · rfl
    · intro hk; exact hc (congrArg DKey.count hk).symm
  rw [this]; rfl

/-- C31 for distributions stored with simulation count 1 by a single experiment: the resolver
returns their results.  Missing from the full property: all other counts. -/
theorem C31_single_run_partial {db : DB} (hdb : Reachable E db) (eng : Engine) (m : Model N F)
    (hfit : m.results.length < 2 ^ 32) (hc : m.count = 1)
    (hother : ((getData E eng m.query).exec db).1 = .ok none) :
    ((storageResolve E eng m.code m.parameters m.sampleSize).exec ((insertData E m).exec db).2).1 =
      .ok (some (m.results.map E.codec.fmt.round32)) := by
  rw [storageResolve_exec]
  have := (C33_insert_get E hdb eng eng m hfit (Or.inl hother)).2
  have hq : m.query = ⟨m.code, m.parameters, m.sampleSize, 1⟩ := by rw [← hc]; rfl
  rw [hq] at this
  rw [this]; rfl

/-! ### C42 -/

/-- A query whose parameter list differs from that of the only stored row finds nothing. -/
theorem get_other_parameters (eng : Engine) (m : Model N F) (h : m.results.length < 2 ^ 32)
    (ps : List N) (hne : ps ≠ m.parameters) :
    ((getData E eng ⟨m.code, ps, m.sampleSize, m.count⟩).exec ((insertData E m).exec []).2).1 =
      .ok none := by
  classical
  refine getSpec_unique (get_spec (insert_one E m h) eng _).1 ?_
  intro id
  unfold State.put
  rw [Function.update_apply, if_neg]
  · rfl
  · intro hk; exact hne (congrArg DKey.parameters hk)

/-- C42 is false of the code: a row stored with the integer `1` is not found by a query with
the float `1.0`, although the values are equal.  (JSON writes `[1]` and `[1.0]`; the only law of
JSON used is that loading inverts dumping.) -/
theorem C42_refuted (E : Storage.Env PyNum F) (eng : Engine) (code : String) (size count : ℤ)
    (results : List F) (h : results.length < 2 ^ 32) :
    PyNum.value (.int 1) = PyNum.value (.float 1) ∧
    ((getData E eng ⟨code, [.float 1], size, count⟩).exec
      ((insertData E ⟨7, code, [.int 1], size, count, results⟩).exec []).2).1 = .ok none :=
  ⟨by simp [PyNum.value], get_other_parameters E eng ⟨7, code, [.int 1], size, count, results⟩ h
    [.float 1] (by simp)⟩

/-- C42 for parameters equal as Python objects of the same types: the row is found.  Missing
from the full property: equal numbers of different types. -/
theorem C42_same_type_partial (E : Storage.Env PyNum F) (eng : Engine) (m : Model PyNum F)
    (h : m.results.length < 2 ^ 32) (ps : List PyNum)
    (hty : List.Forall₂ (fun a b => (∃ x, a = .int x ∧ ∃ y, b = .int y ∧ a.value = b.value) ∨
      (∃ x, a = .float x ∧ ∃ y, b = .float y ∧ a.value = b.value)) ps m.parameters) :
    ((getData E eng ⟨m.code, ps, m.sampleSize, m.count⟩).exec ((insertData E m).exec []).2).1 =
      .ok (some { m with results := m.results.map E.codec.fmt.round32 }) := by
  have hps : ps = m.parameters := by
    generalize m.parameters = qs at hty
    induction hty with
    | nil => rfl
    | cons hab _ ih =>
      rw [ih]
      congr 1
      rcases hab with ⟨x, rfl, y, rfl, hv⟩ | ⟨x, rfl, y, rfl, hv⟩
      · simp only [PyNum.value] at hv
        have : x = y := by exact_mod_cast hv
        rw [this]
      · simp only [PyNum.value] at hv
        rw [hv]
  rw [hps]
  have hnone : ((getData E eng m.query).exec []).1 = .ok none :=
    getSpec_unique (get_spec represents_empty eng m.query).1 (fun _ => rfl)
  exact (C33_insert_get E .empty eng eng m h (Or.inl hnone)).2

/-! ### Concrete cases -/

section Examples

/-- A toy JSON: any injective coding of lists of numbers by strings. -/
def toyJson : Json ℕ where
  dumps l := String.ofList (List.replicate (Encodable.encode l) 'x')
  loads s := (Encodable.decode (α := List ℕ) s.length).getD []
  loads_dumps l := by simp [String.length_ofList, Encodable.encodek]

/-- A toy environment meeting all the laws. -/
def toyStore : Storage.Env ℕ (Fin (2 ^ 32)) := ⟨toyEnv, toyJson⟩

def toyEngine : Engine := ⟨List.reverse, fun l => List.reverse_perm l⟩

def row1 : Model ℕ (Fin (2 ^ 32)) := ⟨7, "KS_GOODNESS_OF_FIT", [0, 1], 10, 1000, [3, 16777217]⟩

def row2 : Model ℕ (Fin (2 ^ 32)) := ⟨8, "AD_GOODNESS_OF_FIT", [0, 1], 11, 1, [5]⟩

/-- A non-trivial history and its reachable content. -/
example : Reachable toyStore (runHistory toyStore
    [.insert row1, .insertBulk [row2, row1], .delete toyEngine row1.query,
      .get toyEngine row2.query] []).2 := ⟨_, rfl⟩

example : ((insertData toyStore row2).exec ((insertData toyStore row1).exec []).2).1 = .ok () ∧
    ((getData toyStore toyEngine row2.query).exec
      ((insertData toyStore row2).exec ((insertData toyStore row1).exec []).2).2).1 =
      .ok (some { row2 with results := row2.results.map toyFmt.round32 }) :=
  C33_insert_get toyStore (Reachable.exec .empty (.insert row1)) toyEngine toyEngine row2 (by decide)
    (Or.inl (by
      refine getSpec_unique (get_spec (insert_one toyStore row1 (by decide)) toyEngine _).1 ?_
      intro id
      unfold State.put
      refine (@Function.update_of_ne _ _ (_) _ _ ?_ _ _).trans rfl
      · intro hk
        have : ("AD_GOODNESS_OF_FIT" : String) = "KS_GOODNESS_OF_FIT" := congrArg DKey.code hk
        revert this
        decide))

example : ((getData toyStore toyEngine row1.query).exec
      ((insertData toyStore { row1 with experimentId := 9 }).exec
        ((insertData toyStore row1).exec []).2).2).1 = .error .multipleResultsFound :=
  C34_refuted toyStore toyEngine row1 9 (by decide) (by decide)

example : ((getDataForCv toyStore toyEngine ⟨"KS_GOODNESS_OF_FIT", 11, 5⟩).exec
    ((insertData toyStore row1).exec []).2).1 = .ok none :=
  C37_refuted toyStore toyEngine row1 (by decide) 11 5 (by decide)

example : ((storageResolve toyStore toyEngine row1.code row1.parameters row1.sampleSize).exec
    ((insertData toyStore row1).exec []).2).1 = .ok none :=
  C31_refuted toyStore toyEngine row1 (by decide) (by decide)

example : List.Forall₂ Op.same
    ([.insert row1, .delete toyEngine row1.query, .get toyEngine row2.query] : List (Op _ _))
    [.insert row1, .delete ⟨id, fun _ => .refl _⟩ row1.query, .get ⟨id, fun _ => .refl _⟩ row2.query] := by
  refine .cons rfl (.cons rfl (.cons rfl .nil))

end Examples

end Pysatl.Props
