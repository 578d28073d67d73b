import Verif.Model.Concurrent
import Verif.Props.Storage

/-! # Several processes on one database (C141) -/

set_option linter.unusedSectionVars false

namespace Pysatl.Props

open Pysatl.Codec Pysatl.Storage Pysatl.Decision Pysatl.Concurrent

variable {N F : Type} {E : Storage.Env N F} {C : Compare F}

/-- The completed calls that did not run into another process, with their outcomes. -/
def calls (ds : List (Done N F)) : List (Op N F × Out N F) :=
  ds.filterMap fun d => match d.2.2 with
    | .out o => some (d.2.1.toOp, o)
    | .integrityError => none
    | .staleDataError => none

/-- A call failed: the process sees an exception. -/
def RespFailed : Resp N F → Prop
  | .out (.done (.error _)) => True
  | .out (.one (.error _)) => True
  | .out (.many (.error _)) => True
  | .out _ => False
  | .integrityError => True
  | .staleDataError => True

/-! ### The halves of a call against the abstract map -/

open Classical in
theorem represents_erase {db : DB} {s : State N F} (h : Represents E db s) (k : DKey N) :
    Represents E (db.filter (fun x => x.key ≠ k.key E)) (Function.update s k none) := by
  refine ⟨(List.filter_sublist.map _).nodup h.nodup, (fun x hx => h.rows x (List.mem_filter.1 hx).1), ?_⟩
  intro k' v
  rw [Function.update_apply]
  split
  · rename_i hkk
    subst hkk
    refine ⟨(fun h' => by cases h'), ?_⟩
    rintro ⟨x, hx, hxi⟩
    have := (List.mem_filter.1 hx).2
    simp only [ne_eq, decide_not, Bool.not_eq_eq_eq_not, Bool.not_true, decide_eq_false_iff_not] at this
    exact absurd hxi.1 this
  · rename_i hkk
    rw [h.iff]
    constructor
    · rintro ⟨x, hx, hxi⟩
      refine ⟨x, List.mem_filter.2 ⟨hx, ?_⟩, hxi⟩
      simp only [ne_eq, decide_not, Bool.not_eq_eq_eq_not, Bool.not_true, decide_eq_false_iff_not]
      intro he
      exact hkk (key_injective (hxi.1.symm.trans he))
    · rintro ⟨x, hx, hxi⟩
      exact ⟨x, (List.mem_filter.1 hx).1, hxi⟩

theorem any_key {db : DB} {s : State N F} (h : Represents E db s) {r : Row} {k : DKey N}
    (hr : r.key = k.key E) : db.any (fun x => x.key = r.key) = true ↔ s k ≠ none := by
  rw [h.ne_none, List.any_eq_true]
  simp only [decide_eq_true_eq, hr]

open Classical in
theorem flush_insertRow {db : DB} {s : State N F} (h : Represents E db s) (m : Model N F) :
    (m.fits ∧ s m.dkey = none ∧ (flushRow E db true m).1 = .out (.done (.ok ())) ∧
      Represents E (flushRow E db true m).2 (s.put E.codec.fmt.round32 m)) ∨
    (m.fits ∧ s m.dkey ≠ none ∧ flushRow E db true m = (.integrityError, db)) ∨
    (¬ m.fits ∧ flushRow E db true m = (.out (.done (.error .structError)), db)) := by
  by_cases hf : m.fits
  · obtain ⟨r, hr, hri⟩ := fromModel_ok (E := E) hf
    have hk := any_key h hri.1
    by_cases hs : s m.dkey = none
    · left
      have hany : db.any (fun x => x.key = r.key) = false := by
        rw [Bool.eq_false_iff]; exact fun hh => hk.1 hh hs
      have hm : mergeRow db r = db ++ [r] := by unfold mergeRow; rw [if_neg (by rw [hany]; simp)]
      have := represents_merge h hri
      rw [hm] at this
      refine ⟨hf, hs, ?_, ?_⟩
      · simp only [flushRow, hr, hany]
      · simp only [flushRow, hr, hany]; exact this
    · right; left
      refine ⟨hf, hs, ?_⟩
      simp only [flushRow, hr, hk.2 hs]
  · right; right
    exact ⟨hf, by simp only [flushRow, fromModel_error hf]⟩

open Classical in
theorem flush_updateRow {db : DB} {s : State N F} (h : Represents E db s) (m : Model N F) :
    (m.fits ∧ s m.dkey ≠ none ∧ (flushRow E db false m).1 = .out (.done (.ok ())) ∧
      Represents E (flushRow E db false m).2 (s.put E.codec.fmt.round32 m)) ∨
    (m.fits ∧ s m.dkey = none ∧ flushRow E db false m = (.staleDataError, db)) ∨
    (¬ m.fits ∧ flushRow E db false m = (.out (.done (.error .structError)), db)) := by
  by_cases hf : m.fits
  · obtain ⟨r, hr, hri⟩ := fromModel_ok (E := E) hf
    have hk := any_key h hri.1
    by_cases hs : s m.dkey = none
    · right; left
      have hany : db.any (fun x => x.key = r.key) = false := by
        rw [Bool.eq_false_iff]; exact fun hh => hk.1 hh hs
      refine ⟨hf, hs, ?_⟩
      simp only [flushRow, hr, hany]
    · left
      have hany := hk.2 hs
      have hm : mergeRow db r = db.map (fun x => if x.key = r.key then r else x) := by
        unfold mergeRow; rw [if_pos hany]
      have := represents_merge h hri
      rw [hm] at this
      refine ⟨hf, hs, ?_, ?_⟩
      · simp only [flushRow, hr, hany]
      · simp only [flushRow, hr, hany]; exact this
  · right; right
    exact ⟨hf, by simp only [flushRow, fromModel_error hf]⟩

/-- The statement for one model meets what it expects, or another process was faster, or the
results do not fit. -/
theorem flush_row {db : DB} {s : State N F} (h : Represents E db s) (fresh : Bool) (m : Model N F) :
    (m.fits ∧ (fresh = true ↔ s m.dkey = none) ∧ (flushRow E db fresh m).1 = .out (.done (.ok ())) ∧
      Represents E (flushRow E db fresh m).2 (s.put E.codec.fmt.round32 m)) ∨
    (m.fits ∧ ¬ (fresh = true ↔ s m.dkey = none) ∧
      (flushRow E db fresh m = (.integrityError, db) ∨ flushRow E db fresh m = (.staleDataError, db))) ∨
    (¬ m.fits ∧ flushRow E db fresh m = (.out (.done (.error .structError)), db)) := by
  cases fresh with
  | true =>
    rcases flush_insertRow h m with ⟨h1, h2, h3⟩ | ⟨h1, h2, h3⟩ | h1
    · exact Or.inl ⟨h1, by simp [h2], h3⟩
    · exact Or.inr (Or.inl ⟨h1, by simp [h2], Or.inl h3⟩)
    · exact Or.inr (Or.inr h1)
  | false =>
    rcases flush_updateRow h m with ⟨h1, h2, h3⟩ | ⟨h1, h2, h3⟩ | h1
    · exact Or.inl ⟨h1, by simp [h2], h3⟩
    · exact Or.inr (Or.inl ⟨h1, by simp [h2], Or.inr h3⟩)
    · exact Or.inr (Or.inr h1)

theorem select_cases {db : DB} {s : State N F} (h : Represents E db s) (m : Model N F) :
    (s m.dkey = none ∧ select E C db m = .ok (some true)) ∨
    (s m.dkey = some m.results ∧ select E C db m = .ok none) ∨
    (s m.dkey ≠ none ∧ select E C db m = .ok (some false)) := by
  rcases hfind : db.find? (fun r => r.key = m.dkey.key E) with _ | r
  · left
    refine ⟨?_, by simp only [select, hfind]⟩
    by_contra hne
    obtain ⟨r, hr, hk⟩ := (h.ne_none _).1 hne
    have := List.find?_eq_none.1 hfind r hr
    simp [hk] at this
  · right
    have hr := List.mem_of_find?_eq_some hfind
    have hk : r.key = m.dkey.key E := by simpa using List.find?_some hfind
    obtain ⟨k, v, hri⟩ := h.rows r hr
    have hkk : k = m.dkey := key_injective (hri.1.symm.trans hk)
    subst hkk
    have hs : s m.dkey = some v := (h.iff _ _).2 ⟨r, hr, hri⟩
    by_cases hc : C.same v m.results = true
    · left
      have := C.eq_of_same _ _ hc
      refine ⟨by rw [hs, this], ?_⟩
      simp only [select, hfind, hri.2, Option.getD_some, hc, if_true]
    · right
      refine ⟨by rw [hs]; simp, ?_⟩
      simp only [select, hfind, hri.2, Option.getD_some, hc]
      rfl

theorem begin_insert {db : DB} {s : State N F} (h : Represents E db s) (m : Model N F) :
    (s m.dkey = none ∧ begin E C db (.insert m) = .inr (.insertRow m)) ∨
    (s m.dkey = some m.results ∧ begin E C db (.insert m) = .inl (.out (.done (.ok ())))) ∨
    (s m.dkey ≠ none ∧ begin E C db (.insert m) = .inr (.updateRow m)) := by
  rcases select_cases (C := C) h m with ⟨h1, h2⟩ | ⟨h1, h2⟩ | ⟨h1, h2⟩
  · exact Or.inl ⟨h1, by simp only [begin, h2]⟩
  · exact Or.inr (Or.inl ⟨h1, by simp only [begin, h2]⟩)
  · exact Or.inr (Or.inr ⟨h1, by simp only [begin, h2]⟩)

theorem begin_delete {db : DB} {s : State N F} (h : Represents E db s) (eng : Engine) (q : Query N) :
    (begin E C db (.delete eng q) = .inl (.out (.done (.ok ()))) ∧ ∀ id, s (q.at id) = none) ∨
    (∃ id, begin E C db (.delete eng q) = .inr (.deleteRow eng q ((q.at id).key E)) ∧
      s (q.at id) ≠ none) ∨
    (begin E C db (.delete eng q) = .inl (.out (.done (.error .multipleResultsFound))) ∧
      ∃ id id', id ≠ id' ∧ s (q.at id) ≠ none ∧ s (q.at id') ≠ none) := by
  rcases matched_cases h eng q with ⟨hl, hn⟩ | ⟨r, hr, hl, hq, hu⟩ | ⟨r, r', rest, hl, hids⟩
  · left; exact ⟨by simp only [begin, hl], hn⟩
  · right; left
    have hk := (holds_iff q r).1 hq
    exact ⟨r.key.experimentId, by simp only [begin, hl]; rw [← hk], (h.ne_none _).2 ⟨r, hr, hk⟩⟩
  · right; right
    exact ⟨by simp only [begin, hl], hids⟩

/-- What a batch does next while nothing is pending: the batch is over, the statement for the
next model is pending, or the next model is stored already. -/
theorem bulkNext_cases {db : DB} {s : State N F} (h : Represents E db s) (all rest : List (Model N F)) :
    (rest = [] ∧ bulkNext E C db all rest = .inl (.out (.done (.ok ())))) ∨
    (∃ fresh m rest', rest = m :: rest' ∧ (fresh = true ↔ s m.dkey = none) ∧
      bulkNext E C db all rest = .inr (.bulkRow all fresh m rest')) ∨
    (∃ m, rest = [m] ∧ s m.dkey = some m.results ∧
      bulkNext E C db all rest = .inl (.out (.done (.ok ())))) ∨
    (∃ m rest', rest = m :: rest' ∧ rest' ≠ [] ∧ s m.dkey = some m.results ∧
      bulkNext E C db all rest = .inr (.bulkSelect all rest')) := by
  cases rest with
  | nil => exact Or.inl ⟨rfl, rfl⟩
  | cons m rest =>
    right
    rcases select_cases (C := C) h m with ⟨h1, h2⟩ | ⟨h1, h2⟩ | ⟨h1, h2⟩
    · exact Or.inl ⟨true, m, rest, rfl, by simp [h1], by simp only [bulkNext, h2]⟩
    · right
      cases rest with
      | nil => exact Or.inl ⟨m, rfl, h1, by simp [bulkNext, h2]⟩
      | cons m' rest => exact Or.inr ⟨m, m' :: rest, rfl, by simp, h1, by simp [bulkNext, h2]⟩
    · exact Or.inl ⟨false, m, rest, rfl, by simp [h1], by simp only [bulkNext, h2]⟩

/-- Stored results fit and are rounded. -/
def Good (E : Storage.Env N F) (s : State N F) : Prop :=
  ∀ k v, s k = some v → v.length < 2 ^ 32 ∧ v.map E.codec.fmt.round32 = v

open Classical in
theorem good_put {s : State N F} (h : Good E s) (m : Model N F) (hm : m.fits) :
    Good E (s.put E.codec.fmt.round32 m) := by
  intro k v hv
  simp only [State.put, Function.update_apply] at hv
  split at hv
  · cases hv
    refine ⟨by rw [List.length_map]; exact hm, ?_⟩
    rw [List.map_map]
    apply List.map_congr_left
    intro x _
    exact E.codec.fmt.round32_round32 x
  · exact h k v hv

open Classical in
theorem good_erase {s : State N F} (h : Good E s) (k : DKey N) : Good E (Function.update s k none) := by
  intro k' v hv
  rw [Function.update_apply] at hv
  split at hv
  · cases hv
  · exact h k' v hv

theorem good_putAll {s : State N F} (h : Good E s) (ms : List (Model N F)) (hm : ∀ m ∈ ms, m.fits) :
    Good E (ms.foldl (State.put E.codec.fmt.round32) s) := by
  induction ms generalizing s with
  | nil => exact h
  | cons m ms ih =>
    exact ih (good_put h m (hm m (by simp))) (fun m' hm' => hm m' (by simp [hm']))

open Classical in
theorem put_same {round : F → F} {s : State N F} {m : Model N F} (hs : s m.dkey = some m.results)
    (hr : m.results.map round = m.results) : s.put round m = s := by
  unfold State.put
  rw [hr, ← hs, Function.update_eq_self]

theorem putAll_same {s : State N F} (h : Good E s) (pre : List (Model N F))
    (hs : ∀ m ∈ pre, s m.dkey = some m.results) : pre.foldl (State.put E.codec.fmt.round32) s = s := by
  induction pre with
  | nil => rfl
  | cons m pre ih =>
    rw [List.foldl_cons, put_same (hs m (by simp)) (h _ _ (hs m (by simp))).2]
    exact ih (fun m' hm' => hs m' (by simp [hm']))

/-- The statements of a batch inside its transaction: everything is written, or some results do
not fit. -/
theorem bulkRest_spec {db : DB} {s : State N F} (h : Represents E db s) (hg : Good E s)
    (ms : List (Model N F)) :
    ((∀ m ∈ ms, m.fits) ∧ (bulkRest E C db ms).1 = .out (.done (.ok ())) ∧
      Represents E (bulkRest E C db ms).2 (ms.foldl (State.put E.codec.fmt.round32) s)) ∨
    ((¬ ∀ m ∈ ms, m.fits) ∧ (bulkRest E C db ms).1 = .out (.done (.error .structError))) := by
  induction ms generalizing db s with
  | nil => exact Or.inl ⟨by simp, rfl, h⟩
  | cons m ms ih =>
    have row : ∀ fresh, (fresh = true ↔ s m.dkey = none) → select E C db m = .ok (some fresh) →
        ((∀ m' ∈ m :: ms, m'.fits) ∧ (bulkRest E C db (m :: ms)).1 = .out (.done (.ok ())) ∧
          Represents E (bulkRest E C db (m :: ms)).2
            ((m :: ms).foldl (State.put E.codec.fmt.round32) s)) ∨
        ((¬ ∀ m' ∈ m :: ms, m'.fits) ∧
          (bulkRest E C db (m :: ms)).1 = .out (.done (.error .structError))) := by
      intro fresh hfr hsel
      rcases flush_row h fresh m with ⟨hf, -, hr, hrep⟩ | ⟨-, hne, -⟩ | ⟨hf, hr⟩
      · rcases hfl : flushRow E db fresh m with ⟨r1, db1⟩
        rw [hfl] at hr hrep
        simp only at hr hrep
        subst hr
        have he : bulkRest E C db (m :: ms) = bulkRest E C db1 ms := by
          simp only [bulkRest, hsel, hfl]
        rw [he]
        rcases ih hrep (good_put hg m hf) with ⟨h1, h2, h3⟩ | ⟨h1, h2⟩
        · exact Or.inl ⟨by simpa using ⟨hf, h1⟩, h2, h3⟩
        · exact Or.inr ⟨fun hh => h1 (fun m' hm' => hh m' (by simp [hm'])), h2⟩
      · exact absurd hfr hne
      · right
        exact ⟨fun hh => hf (hh m (by simp)), by simp only [bulkRest, hsel, hr]⟩
    rcases select_cases (C := C) h m with ⟨h1, h2⟩ | ⟨h1, h2⟩ | ⟨h1, h2⟩
    · exact row true (by simp [h1]) h2
    · have he : bulkRest E C db (m :: ms) = bulkRest E C db ms := by
        simp only [bulkRest, h2]
      have hm := hg _ _ h1
      rw [he, List.foldl_cons, put_same h1 hm.2]
      rcases ih h hg with ⟨h3, h4⟩ | ⟨h3, h4⟩
      · exact Or.inl ⟨by simpa using ⟨hm.1, h3⟩, h4⟩
      · exact Or.inr ⟨fun hh => h3 (fun m' hm' => hh m' (by simp [hm'])), h4⟩
    · exact row false (by simp [h1]) h2

/-- The transaction of a batch: everything is written; or another process was faster with the
first model; or some results do not fit.  In the last two cases nothing is written. -/
theorem bulkCommit_spec {db : DB} {s : State N F} (h : Represents E db s) (hg : Good E s) (fresh : Bool)
    (m : Model N F) (rest : List (Model N F)) :
    ((∀ m' ∈ m :: rest, m'.fits) ∧ (fresh = true ↔ s m.dkey = none) ∧
      (bulkCommit E C db fresh m rest).1 = .out (.done (.ok ())) ∧
      Represents E (bulkCommit E C db fresh m rest).2
        ((m :: rest).foldl (State.put E.codec.fmt.round32) s)) ∨
    (¬ (fresh = true ↔ s m.dkey = none) ∧ (bulkCommit E C db fresh m rest = (.integrityError, db) ∨
      bulkCommit E C db fresh m rest = (.staleDataError, db))) ∨
    ((¬ ∀ m' ∈ m :: rest, m'.fits) ∧
      bulkCommit E C db fresh m rest = (.out (.done (.error .structError)), db)) := by
  rcases flush_row h fresh m with ⟨hf, hfr, hr, hrep⟩ | ⟨-, hne, hr⟩ | ⟨hf, hr⟩
  · rcases hfl : flushRow E db fresh m with ⟨r1, db1⟩
    rw [hfl] at hr hrep
    simp only at hr hrep
    subst hr
    rcases hbr : bulkRest E C db1 rest with ⟨r2, db2⟩
    rcases bulkRest_spec (C := C) hrep (good_put hg m hf) rest with ⟨h1, h2, h3⟩ | ⟨h1, h2⟩
    · rw [hbr] at h2 h3
      simp only at h2 h3
      subst h2
      left
      refine ⟨by simpa using ⟨hf, h1⟩, hfr, ?_, ?_⟩
      · simp only [bulkCommit, hfl, hbr]
      · simp only [bulkCommit, hfl, hbr]; exact h3
    · rw [hbr] at h2
      simp only at h2
      subst h2
      right; right
      exact ⟨fun hh => h1 (fun m' hm' => hh m' (by simp [hm'])), by simp only [bulkCommit, hfl, hbr]⟩
  · right; left
    refine ⟨hne, ?_⟩
    rcases hr with hr | hr
    · left; simp only [bulkCommit, hr]
    · right; simp only [bulkCommit, hr]
  · right; right
    exact ⟨fun hh => hf (hh m (by simp)), by simp only [bulkCommit, hr]⟩

/-! ### Every schedule -/

/-- Plans that delete address a key. -/
def PlanOk (E : Storage.Env N F) (plan : Plan N F) : Prop :=
  ∀ eng q k, plan = .deleteRow eng q k → ∃ id, k = (Query.at q id).key E

theorem bulkNext_ok {db : DB} {s : State N F} (h : Represents E db s) {all rest : List (Model N F)}
    {plan : Plan N F} (hb : bulkNext E C db all rest = .inr plan) : PlanOk E plan := by
  rcases bulkNext_cases (C := C) h all rest with ⟨-, h'⟩ | ⟨_, _, _, -, -, h'⟩ | ⟨_, -, -, h'⟩ |
    ⟨_, _, -, -, -, h'⟩ <;>
  · rw [h'] at hb
    cases hb
    try (intro eng q k hk; cases hk)

theorem proceed_represents {db : DB} {s : State N F} (h : Represents E db s) (hg : Good E s)
    {plan : Plan N F} (hp : PlanOk E plan) :
    (∃ r s', proceed E C db plan = .inl r ∧ Represents E r.2 s' ∧ Good E s') ∨
      ∃ plan', proceed E C db plan = .inr plan' ∧ PlanOk E plan' := by
  cases plan with
  | insertRow m =>
    left
    rcases flush_insertRow h m with ⟨hf, -, -, h'⟩ | ⟨-, -, h'⟩ | ⟨-, h'⟩
    · exact ⟨_, _, rfl, h', good_put hg m hf⟩
    · exact ⟨_, s, rfl, by rw [h']; exact h, hg⟩
    · exact ⟨_, s, rfl, by rw [h']; exact h, hg⟩
  | updateRow m =>
    left
    rcases flush_updateRow h m with ⟨hf, -, -, h'⟩ | ⟨-, -, h'⟩ | ⟨-, h'⟩
    · exact ⟨_, _, rfl, h', good_put hg m hf⟩
    · exact ⟨_, s, rfl, by rw [h']; exact h, hg⟩
    · exact ⟨_, s, rfl, by rw [h']; exact h, hg⟩
  | deleteRow eng q k =>
    obtain ⟨id, rfl⟩ := hp eng q k rfl
    exact Or.inl ⟨_, _, rfl, represents_erase h (q.at id), good_erase hg _⟩
  | bulkSelect all rest =>
    rcases hb : bulkNext E C db all rest with r | plan
    · exact Or.inl ⟨_, s, by simp only [proceed, hb]; rfl, h, hg⟩
    · exact Or.inr ⟨plan, by simp only [proceed, hb], bulkNext_ok h hb⟩
  | bulkRow all fresh m rest =>
    left
    rcases bulkCommit_spec (C := C) h hg fresh m rest with ⟨hf, -, -, h'⟩ | ⟨-, h' | h'⟩ | ⟨-, h'⟩
    · exact ⟨_, _, rfl, h', good_putAll hg _ hf⟩
    · exact ⟨_, s, rfl, by rw [h']; exact h, hg⟩
    · exact ⟨_, s, rfl, by rw [h']; exact h, hg⟩
    · exact ⟨_, s, rfl, by rw [h']; exact h, hg⟩

theorem run_represents (es : List (Event N F)) (w : World N F) (s : State N F)
    (h : Represents E w.db s) (hg : Good E s) (hp : ∀ p plan, w.phase p = some plan → PlanOk E plan) :
    ∃ s', Represents E (run E C es w).2.db s' := by
  induction es generalizing w s with
  | nil => exact ⟨s, h⟩
  | cons e es ih =>
    have key : ∃ s', Represents E (step E C w e).2.db s' ∧ Good E s' ∧
        ∀ p plan, (step E C w e).2.phase p = some plan → PlanOk E plan := by
      cases e with
      | start p op =>
        rcases hph : w.phase p with _ | plan
        · rcases hb : begin E C w.db op with r | plan
          · simp only [step, hph, hb]; exact ⟨s, h, hg, hp⟩
          · simp only [step, hph, hb]
            refine ⟨s, h, hg, fun p' plan' hp' => ?_⟩
            rw [Function.update_apply] at hp'
            split at hp'
            · cases hp'
              cases op with
              | insertBulk ms => exact bulkNext_ok h hb
              | delete eng' q' =>
                intro eng q k hk
                subst hk
                rcases begin_delete (C := C) h eng' q' with ⟨h', -⟩ | ⟨id, h', -⟩ | ⟨h', -⟩
                · rw [h'] at hb; cases hb
                · rw [h'] at hb; cases hb; exact ⟨id, rfl⟩
                · rw [h'] at hb; cases hb
              | insert m =>
                intro eng q k hk
                subst hk
                rcases begin_insert (C := C) h m with ⟨-, h'⟩ | ⟨-, h'⟩ | ⟨-, h'⟩ <;>
                  · rw [h'] at hb; cases hb
              | get => cases hb
              | getForCv => cases hb
              | getBulk => cases hb
            · exact hp _ _ hp'
        · simp only [step, hph]; exact ⟨s, h, hg, hp⟩
      | finish p =>
        rcases hph : w.phase p with _ | plan
        · simp only [step, hph]; exact ⟨s, h, hg, hp⟩
        · rcases proceed_represents (C := C) h hg (hp p plan hph) with
            ⟨r, s', hr, hs', hg'⟩ | ⟨plan', hr, hok⟩
          · simp only [step, hph, hr]
            refine ⟨s', hs', hg', fun p' plan' hp' => ?_⟩
            rw [Function.update_apply] at hp'
            split at hp'
            · cases hp'
            · exact hp _ _ hp'
          · simp only [step, hph, hr]
            refine ⟨s, h, hg, fun p' plan'' hp' => ?_⟩
            rw [Function.update_apply] at hp'
            split at hp'
            · cases hp'; exact hok
            · exact hp _ _ hp'
    obtain ⟨s', h', hg', hp'⟩ := key
    exact ih _ s' h' hg' hp'

theorem good_empty : Good E (State.empty : State N F) := fun k v hv => by cases hv

variable (E C)

/-- C141, the table: under every schedule of every number of processes, crashes included, no
key occurs twice and every row can be read. -/
theorem C141_table (es : List (Event N F)) :
    ((run E C es World.init).2.db.map (·.key)).Nodup ∧
      ∀ r ∈ (run E C es World.init).2.db, ∃ m, toModel E r = .ok m := by
  obtain ⟨s, hs⟩ := run_represents (C := C) es World.init State.empty (represents_empty (E := E))
    good_empty (fun p plan h => by cases h)
  exact ⟨hs.nodup, fun r hr => by
    obtain ⟨k, v, hri⟩ := hs.rows r hr
    exact ⟨_, hri.toModel⟩⟩

variable {E C}

theorem flushRow_failed {db : DB} {fresh : Bool} {m : Model N F}
    (hf : (flushRow E db fresh m).1 ≠ .out (.done (.ok ()))) : (flushRow E db fresh m).2 = db := by
  revert hf
  unfold flushRow
  split
  · intro _; rfl
  · split <;> intro hf
    · rfl
    · exact absurd rfl hf
    · exact absurd rfl hf
    · rfl

theorem bulkCommit_failed {db : DB} {fresh : Bool} {m : Model N F} {rest : List (Model N F)}
    (hf : (bulkCommit E C db fresh m rest).1 ≠ .out (.done (.ok ()))) :
    (bulkCommit E C db fresh m rest).2 = db := by
  revert hf
  unfold bulkCommit
  split
  · split
    · intro hf; exact absurd rfl hf
    · intro _; rfl
  · intro _; rfl

variable (E C)

/-- C141, failures: a call that fails, for whatever reason, leaves the table as it was. -/
theorem C141_failed_unchanged (w : World N F) (e : Event N F) (d : Done N F)
    (hd : d ∈ (step E C w e).1) (hf : RespFailed d.2.2) : (step E C w e).2.db = w.db := by
  have ne : ∀ {r : Resp N F}, RespFailed r → r ≠ .out (.done (.ok ())) := by
    rintro r hr rfl
    exact hr
  cases e with
  | start p op =>
    simp only [step] at hd ⊢
    split
    · rfl
    · split <;> rfl
  | finish p =>
    rcases hph : w.phase p with _ | plan
    · simp only [step, hph]
    · rcases hpr : proceed E C w.db plan with r | plan'
      · simp only [step, hph, hpr] at hd ⊢
        rw [List.mem_singleton] at hd
        subst hd
        have hf' := ne hf
        cases plan with
        | insertRow m => cases hpr; exact flushRow_failed hf'
        | updateRow m => cases hpr; exact flushRow_failed hf'
        | deleteRow eng q k => cases hpr; exact absurd rfl hf'
        | bulkSelect all rest =>
          simp only [proceed] at hpr
          split at hpr
          · cases hpr; rfl
          · cases hpr
        | bulkRow all fresh m rest => cases hpr; exact bulkCommit_failed hf'
      · simp only [step, hph, hpr]

/-- C141, crashes: until a call is over nothing of it is in the table, whatever the call and
wherever its process stops. -/
theorem C141_unfinished_unchanged (w : World N F) (e : Event N F) (h : (step E C w e).1 = []) :
    (step E C w e).2.db = w.db := by
  cases e with
  | start p op =>
    simp only [step]
    split
    · rfl
    · split <;> rfl
  | finish p =>
    rcases hph : w.phase p with _ | plan
    · simp only [step, hph]
    · rcases hpr : proceed E C w.db plan with r | plan'
      · simp only [step, hph, hpr] at h
        cases h
      · simp only [step, hph, hpr]

variable {E C}

/-! ### Serial order -/

theorem specRun_append {round : F → F} {s s' s'' : State N F} {ops ops' : List (Op N F)}
    {outs outs' : List (Out N F)} (h : SpecRun round s ops outs s')
    (h' : SpecRun round s' ops' outs' s'') : SpecRun round s (ops ++ ops') (outs ++ outs') s'' := by
  induction h with
  | nil => exact h'
  | cons hst _ ih => exact .cons hst (ih h')

/-- The schedule has process `p` insert `m`, alone or in a batch. -/
def Inserts (es : List (Event N F)) (p : ℕ) (m : Model N F) : Prop :=
  Event.start p (.insert m) ∈ es ∨ ∃ ms, Event.start p (.insertBulk ms) ∈ es ∧ m ∈ ms

/-- The schedule has process `p` delete what `q` addresses. -/
def Deletes (es : List (Event N F)) (p : ℕ) (q : Query N) : Prop :=
  ∃ eng, Event.start p (.delete eng q) ∈ es

/-- The plan of process `p` in a schedule whose insertions are `ins`, whose batches are `bulk`
and whose deletions are `del`: the models a batch has found stored are still stored. -/
def PlanInv (E : Storage.Env N F) (ins : ℕ → Model N F → Prop) (bulk : ℕ → List (Model N F) → Prop)
    (del : ℕ → Query N → Prop) (s : State N F) (p : ℕ) : Plan N F → Prop
  | .insertRow m => ins p m
  | .updateRow m => ins p m
  | .deleteRow _ q k => del p q ∧ ∃ p' m, ins p' m ∧ m.query = q ∧ k = m.dkey.key E
  | .bulkSelect all rest => bulk p all ∧ rest ≠ [] ∧
      ∃ pre, all = pre ++ rest ∧ ∀ m ∈ pre, s m.dkey = some m.results
  | .bulkRow all _ m rest => bulk p all ∧
      ∃ pre, all = pre ++ m :: rest ∧ ∀ m ∈ pre, s m.dkey = some m.results

/-- What holds between the steps of such a schedule. -/
structure Inv (E : Storage.Env N F) (ins : ℕ → Model N F → Prop) (bulk : ℕ → List (Model N F) → Prop)
    (del : ℕ → Query N → Prop) (w : World N F) (s : State N F) : Prop where
  rep : Represents E w.db s
  good : Good E s
  ids : ∀ k, s k ≠ none → ∃ p m, ins p m ∧ m.dkey = k
  plan : ∀ p plan, w.phase p = some plan → PlanInv E ins bulk del s p plan

theorem at_query (m : Model N F) : (m.query).at m.experimentId = m.dkey := rfl

theorem query_of_dkey {m : Model N F} {q : Query N} {id : ℤ} (h : m.dkey = q.at id) :
    m.query = q ∧ m.experimentId = id := by
  obtain ⟨c, ps, n, b⟩ := q
  simp only [Model.dkey, Query.at, DKey.mk.injEq] at h
  obtain ⟨h1, h2, h3, h4, h5⟩ := h
  exact ⟨by simp only [Model.query, h2, h3, h4, h5], h1⟩

open Classical in
theorem ids_put {s : State N F} {ins : ℕ → Model N F → Prop} {round : F → F}
    (h : ∀ k, s k ≠ none → ∃ p m, ins p m ∧ m.dkey = k) (p : ℕ) (m : Model N F) (hm : ins p m) :
    ∀ k, (s.put round m) k ≠ none → ∃ p m, ins p m ∧ m.dkey = k := by
  intro k hk
  simp only [State.put, Function.update_apply] at hk
  split at hk
  · rename_i hkk; exact ⟨p, m, hm, hkk.symm⟩
  · exact h k hk

theorem ids_putAll {s : State N F} {ins : ℕ → Model N F → Prop} {round : F → F}
    (h : ∀ k, s k ≠ none → ∃ p m, ins p m ∧ m.dkey = k) (p : ℕ) (ms : List (Model N F))
    (hm : ∀ m ∈ ms, ins p m) :
    ∀ k, (ms.foldl (State.put round) s) k ≠ none → ∃ p m, ins p m ∧ m.dkey = k := by
  induction ms generalizing s with
  | nil => exact h
  | cons m ms ih =>
    exact ih (ids_put h p m (hm m (by simp))) (fun m' hm' => hm m' (by simp [hm']))

open Classical in
theorem put_other {round : F → F} {s : State N F} {m : Model N F} {k : DKey N} (h : m.dkey ≠ k) :
    (s.put round m) k = s k := by
  simp only [State.put, Function.update_apply]
  exact if_neg (fun he => h he.symm)

theorem putAll_other {round : F → F} {s : State N F} {k : DKey N} (ms : List (Model N F))
    (h : ∀ m ∈ ms, m.dkey ≠ k) : (ms.foldl (State.put round) s) k = s k := by
  induction ms generalizing s with
  | nil => rfl
  | cons m ms ih =>
    rw [List.foldl_cons, ih (fun m' hm' => h m' (by simp [hm'])), put_other (h m (by simp))]

open Classical in
theorem putAll_one {round : F → F} {s : State N F} {m : Model N F} (h : m.fits) :
    PutAllSpec round s [m] (.ok ()) (s.put round m) := by
  unfold PutAllSpec
  rw [if_pos (by simpa using h)]
  exact ⟨rfl, rfl⟩

open Classical in
theorem putAll_one_error {round : F → F} {s : State N F} {m : Model N F} (h : ¬ m.fits) :
    PutAllSpec round s [m] (.error .structError) s := by
  unfold PutAllSpec
  rw [if_neg (by simpa using h)]
  exact ⟨rfl, rfl⟩

/-- A batch whose first models are stored already. -/
theorem putAll_ok {s s' : State N F} (hg : Good E s) {pre rest : List (Model N F)}
    (hpre : ∀ m ∈ pre, s m.dkey = some m.results) (hf : ∀ m ∈ rest, m.fits)
    (hs : s' = rest.foldl (State.put E.codec.fmt.round32) s) :
    PutAllSpec E.codec.fmt.round32 s (pre ++ rest) (.ok ()) s' := by
  unfold PutAllSpec
  rw [if_pos]
  · exact ⟨rfl, by rw [List.foldl_append, putAll_same hg pre hpre, hs]⟩
  · intro m hm
    rcases List.mem_append.1 hm with h | h
    · exact (hg _ _ (hpre m h)).1
    · exact hf m h

theorem putAll_error {round : F → F} {s : State N F} {pre rest : List (Model N F)}
    (hf : ¬ ∀ m ∈ rest, m.fits) : PutAllSpec round s (pre ++ rest) (.error .structError) s := by
  unfold PutAllSpec
  rw [if_neg (fun hh => hf (fun m hm => hh m (by simp [hm])))]
  exact ⟨rfl, rfl⟩

/-- Process `p` may change what key `k` holds. -/
def Touch (ins : ℕ → Model N F → Prop) (del : ℕ → Query N → Prop) (p : ℕ) (k : DKey N) : Prop :=
  (∃ m, ins p m ∧ m.dkey = k) ∨ ∃ q id, del p q ∧ q.at id = k

/-- The keys of a batch, but for the last one, belong to the process that runs it. -/
def BatchOwned (ins : ℕ → Model N F → Prop) (bulk : ℕ → List (Model N F) → Prop)
    (del : ℕ → Query N → Prop) : Prop :=
  ∀ p ms m p', bulk p ms → m ∈ ms.dropLast → Touch ins del p' m.dkey → p' = p

section

variable {ins : ℕ → Model N F → Prop} {bulk : ℕ → List (Model N F) → Prop} {del : ℕ → Query N → Prop}

theorem mem_dropLast_of_prefix {pre rest : List (Model N F)} (h : rest ≠ []) {m : Model N F} (hm : m ∈ pre) :
    m ∈ (pre ++ rest).dropLast := by
  rw [List.dropLast_append_of_ne_nil h]
  exact List.mem_append_left _ hm

/-- A plan survives what other processes do. -/
theorem planInv_other (ho : BatchOwned ins bulk del) {s s' : State N F} {p p' : ℕ} (hne : p' ≠ p)
    (hs : ∀ k, s' k = s k ∨ Touch ins del p k) {plan : Plan N F} (h : PlanInv E ins bulk del s p' plan) :
    PlanInv E ins bulk del s' p' plan := by
  have keep : ∀ {all : List (Model N F)} {m : Model N F}, bulk p' all → m ∈ all.dropLast →
      s m.dkey = some m.results → s' m.dkey = some m.results := by
    intro all m hb hm hk
    rcases hs m.dkey with he | ht
    · rw [he, hk]
    · exact absurd (ho p' all m p hb hm ht).symm hne
  cases plan with
  | insertRow m => exact h
  | updateRow m => exact h
  | deleteRow eng q k => exact h
  | bulkSelect all rest =>
    obtain ⟨hb, hr, pre, he, hpre⟩ := h
    exact ⟨hb, hr, pre, he, fun m hm => keep hb (he ▸ mem_dropLast_of_prefix hr hm) (hpre m hm)⟩
  | bulkRow all fresh m rest =>
    obtain ⟨hb, pre, he, hpre⟩ := h
    exact ⟨hb, pre, he, fun m' hm => keep hb (he ▸ mem_dropLast_of_prefix (by simp) hm) (hpre m' hm)⟩

theorem inv_phase_none (ho : BatchOwned ins bulk del) {w : World N F}
    {s s' : State N F} {db' : DB} (h : Inv E ins bulk del w s) (p : ℕ) (hrep : Represents E db' s')
    (hgood : Good E s') (hids : ∀ k, s' k ≠ none → ∃ p m, ins p m ∧ m.dkey = k)
    (hs : ∀ k, s' k = s k ∨ Touch ins del p k) :
    Inv E ins bulk del ⟨db', Function.update w.phase p none⟩ s' := by
  refine ⟨hrep, hgood, hids, fun p' plan hp => ?_⟩
  simp only [Function.update_apply] at hp
  split at hp
  · cases hp
  · rename_i hne
    exact planInv_other ho hne hs (h.plan p' plan hp)

theorem inv_phase_some {w : World N F}
    {s : State N F} (h : Inv E ins bulk del w s) (p : ℕ) (plan : Plan N F)
    (hplan : PlanInv E ins bulk del s p plan) :
    Inv E ins bulk del { w with phase := Function.update w.phase p (some plan) } s := by
  refine ⟨h.rep, h.good, h.ids, fun p' plan' hp => ?_⟩
  simp only [Function.update_apply] at hp
  split at hp
  · rename_i he; cases hp; subst he; exact hplan
  · exact h.plan p' plan' hp

theorem inv_bulkNext {w : World N F} {s : State N F} (h : Inv E ins bulk del w s) (p : ℕ)
    {pre rest : List (Model N F)} (hb : bulk p (pre ++ rest)) (hpre : ∀ m ∈ pre, s m.dkey = some m.results) :
    (bulkNext E C w.db (pre ++ rest) rest = .inl (.out (.done (.ok ()))) ∧
      PutAllSpec E.codec.fmt.round32 s (pre ++ rest) (.ok ()) s) ∨
    ∃ plan, bulkNext E C w.db (pre ++ rest) rest = .inr plan ∧ PlanInv E ins bulk del s p plan := by
  rcases bulkNext_cases (C := C) h.rep (pre ++ rest) rest with ⟨rfl, h'⟩ | ⟨fresh, m, rest', rfl, -, h'⟩ |
    ⟨m, rfl, hm, h'⟩ | ⟨m, rest', rfl, hr, hm, h'⟩
  · exact Or.inl ⟨h', putAll_ok h.good hpre (by simp) rfl⟩
  · exact Or.inr ⟨_, h', hb, pre, rfl, hpre⟩
  · refine Or.inl ⟨h', putAll_ok h.good hpre ?_ ?_⟩
    · simpa [Model.fits] using (h.good _ _ hm).1
    · rw [List.foldl_cons, List.foldl_nil, put_same hm (h.good _ _ hm).2]
  · refine Or.inr ⟨_, h', hb, hr, pre ++ [m], by simp, fun m' hm' => ?_⟩
    rcases List.mem_append.1 hm' with hh | hh
    · exact hpre m' hh
    · rw [List.mem_singleton] at hh; rw [hh]; exact hm

open Classical in
theorem inv_step (hbi : ∀ p ms m, bulk p ms → m ∈ ms → ins p m) (ho : BatchOwned ins bulk del)
    (experiment : Query N → ℤ)
    (hid : ∀ q p p' m, del p q → ins p' m → m.query = q → m.experimentId = experiment q)
    {w : World N F} {s : State N F} (h : Inv E ins bulk del w s) (e : Event N F)
    (hi : ∀ p m, e = .start p (.insert m) → ins p m)
    (hb : ∀ p ms, e = .start p (.insertBulk ms) → bulk p ms)
    (hd : ∀ p eng q, e = .start p (.delete eng q) → del p q) :
    ∃ s', Inv E ins bulk del (step E C w e).2 s' ∧
      SpecRun E.codec.fmt.round32 s ((calls (step E C w e).1).map Prod.fst)
        ((calls (step E C w e).1).map Prod.snd) s' := by
  have one : ∀ {op : Op N F} {o : Out N F} {s' : State N F}, SpecStep E.codec.fmt.round32 s op o s' →
      SpecRun E.codec.fmt.round32 s [op] [o] s' := fun hst => .cons hst (.nil _)
  cases e with
  | start p op =>
    rcases hph : w.phase p with _ | plan
    · cases op with
      | insert m =>
        have him := hi p m rfl
        rcases begin_insert (C := C) h.rep m with ⟨hs, hb⟩ | ⟨hs, hb⟩ | ⟨hs, hb⟩
        · simp only [step, hph, hb]
          exact ⟨s, inv_phase_some h p _ him, .nil _⟩
        · simp only [step, hph, hb]
          refine ⟨s, h, one (op := .insert m) (o := .done (.ok ())) ?_⟩
          have hg := h.good _ _ hs
          have := putAll_one (round := E.codec.fmt.round32) (s := s) (m := m) hg.1
          rw [put_same hs hg.2] at this
          exact this
        · simp only [step, hph, hb]
          exact ⟨s, inv_phase_some h p _ him, .nil _⟩
      | insertBulk ms =>
        rcases inv_bulkNext (C := C) h p (pre := []) (rest := ms) (hb p ms rfl) (by simp) with
          ⟨h1, h2⟩ | ⟨plan, h1, h2⟩
        · simp only [List.nil_append] at h1 h2
          simp only [step, hph, begin, h1]
          exact ⟨s, h, one (op := .insertBulk ms) (o := .done (.ok ())) h2⟩
        · simp only [List.nil_append] at h1
          simp only [step, hph, begin, h1]
          exact ⟨s, inv_phase_some h p _ h2, .nil _⟩
      | delete eng q =>
        have hdq := hd p eng q rfl
        rcases begin_delete (C := C) h.rep eng q with ⟨hb, hn⟩ | ⟨id, hb, hn⟩ | ⟨hb, hids⟩
        · simp only [step, hph, hb]
          exact ⟨s, h, one (op := .delete eng q) (o := .done (.ok ())) (Or.inl ⟨hn, rfl⟩)⟩
        · simp only [step, hph, hb]
          refine ⟨s, inv_phase_some h p _ ?_, .nil _⟩
          obtain ⟨p', m, hm, hmk⟩ := h.ids _ hn
          exact ⟨hdq, p', m, hm, (query_of_dkey hmk).1, by rw [hmk]⟩
        · simp only [step, hph, hb]
          exact ⟨s, h, one (op := .delete eng q) (o := .done (.error .multipleResultsFound))
            ⟨rfl, rfl, hids⟩⟩
      | get eng q =>
        simp only [step, hph, begin]
        exact ⟨s, h, one (op := .get eng q) (o := .one _) ⟨(get_spec h.rep eng q).1, rfl⟩⟩
      | getForCv eng q =>
        simp only [step, hph, begin]
        exact ⟨s, h, one (op := .getForCv eng q) (o := .one _) ⟨(cv_spec h.rep eng q).1, rfl⟩⟩
      | getBulk eng codes size err =>
        simp only [step, hph, begin]
        exact ⟨s, h, one (op := .getBulk eng codes size err) (o := .many _)
          ⟨(bulk_spec h.rep eng codes size err).1, rfl⟩⟩
    · simp only [step, hph]
      exact ⟨s, h, .nil _⟩
  | finish p =>
    rcases hph : w.phase p with _ | plan
    · simp only [step, hph]
      exact ⟨s, h, .nil _⟩
    · have same : Inv E ins bulk del ⟨w.db, Function.update w.phase p none⟩ s :=
        inv_phase_none ho h p h.rep h.good h.ids (fun _ => Or.inl rfl)
      have row : ∀ m, ins p m → ∀ k, (s.put E.codec.fmt.round32 m) k = s k ∨ Touch ins del p k := by
        intro m him k
        by_cases hk : m.dkey = k
        · exact Or.inr (Or.inl ⟨m, him, hk⟩)
        · exact Or.inl (put_other hk)
      have hplan := h.plan p plan hph
      cases plan with
      | insertRow m =>
        have him : ins p m := hplan
        simp only [step, hph, proceed]
        rcases flush_insertRow h.rep m with ⟨hf, -, hr, hrep⟩ | ⟨-, -, hr⟩ | ⟨hf, hr⟩
        · rw [hr]
          exact ⟨_, inv_phase_none ho h p hrep (good_put h.good m hf) (ids_put h.ids p m him) (row m him),
            one (op := .insert m) (o := .done (.ok ())) (putAll_one hf)⟩
        · rw [hr]
          exact ⟨s, same, .nil _⟩
        · rw [hr]
          exact ⟨s, same, one (op := .insert m) (o := .done (.error .structError)) (putAll_one_error hf)⟩
      | updateRow m =>
        have him : ins p m := hplan
        simp only [step, hph, proceed]
        rcases flush_updateRow h.rep m with ⟨hf, -, hr, hrep⟩ | ⟨-, -, hr⟩ | ⟨hf, hr⟩
        · rw [hr]
          exact ⟨_, inv_phase_none ho h p hrep (good_put h.good m hf) (ids_put h.ids p m him) (row m him),
            one (op := .insert m) (o := .done (.ok ())) (putAll_one hf)⟩
        · rw [hr]
          exact ⟨s, same, .nil _⟩
        · rw [hr]
          exact ⟨s, same, one (op := .insert m) (o := .done (.error .structError)) (putAll_one_error hf)⟩
      | deleteRow eng q k =>
        obtain ⟨hq, p', m, him, hmq, rfl⟩ := hplan
        simp only [step, hph, proceed]
        have hrep := represents_erase h.rep m.dkey
        refine ⟨Function.update s m.dkey none, inv_phase_none ho h p hrep (good_erase h.good _) ?_ ?_,
          one (op := .delete eng q) (o := .done (.ok ())) ?_⟩
        · intro k hk
          rw [Function.update_apply] at hk
          split at hk
          · exact absurd rfl hk
          · exact h.ids k hk
        · intro k
          rw [Function.update_apply]
          split
          · rename_i hk
            refine Or.inr (Or.inr ⟨q, m.experimentId, hq, ?_⟩)
            rw [hk, ← hmq]; rfl
          · exact Or.inl rfl
        · have huniq : ∀ id, s (q.at id) ≠ none → id = m.experimentId := by
            intro id hne
            obtain ⟨p'', m', him', hmk'⟩ := h.ids _ hne
            obtain ⟨hq', hid'⟩ := query_of_dkey hmk'
            rw [← hid', hid q p p'' m' hq him' hq', hid q p p' m hq him hmq]
          have hat : q.at m.experimentId = m.dkey := by rw [← hmq]; rfl
          by_cases hs : s m.dkey = none
          · refine Or.inl ⟨fun id => ?_, ?_⟩
            · by_contra hne
              rw [huniq id hne, hat] at hne
              exact hne hs
            · rw [← hs, Function.update_eq_self]
          · exact Or.inr ⟨m.experimentId, by rw [hat]; exact hs, huniq, by rw [hat]⟩
      | bulkSelect all rest =>
        obtain ⟨hbk, -, pre, rfl, hpre⟩ := hplan
        rcases inv_bulkNext (C := C) h p hbk hpre with ⟨h1, h2⟩ | ⟨plan, h1, h2⟩
        · simp only [step, hph, proceed, h1]
          exact ⟨s, same, one (op := .insertBulk _) (o := .done (.ok ())) h2⟩
        · simp only [step, hph, proceed, h1]
          exact ⟨s, inv_phase_some h p _ h2, .nil _⟩
      | bulkRow all fresh m rest =>
        obtain ⟨hbk, pre, rfl, hpre⟩ := hplan
        have hins : ∀ m' ∈ m :: rest, ins p m' := fun m' hm' =>
          hbi p _ m' hbk (List.mem_append_right _ hm')
        simp only [step, hph, proceed]
        rcases bulkCommit_spec (C := C) h.rep h.good fresh m rest with
          ⟨hf, -, hr, hrep⟩ | ⟨-, hr | hr⟩ | ⟨hf, hr⟩
        · rw [hr]
          refine ⟨_, inv_phase_none ho h p hrep (good_putAll h.good _ hf)
            (ids_putAll h.ids p _ hins) (fun k => ?_),
            one (op := .insertBulk _) (o := .done (.ok ())) (putAll_ok h.good hpre hf rfl)⟩
          by_cases hk : ∃ m' ∈ m :: rest, m'.dkey = k
          · obtain ⟨m', hm', hk⟩ := hk
            exact Or.inr (Or.inl ⟨m', hins m' hm', hk⟩)
          · exact Or.inl (putAll_other _ (fun m' hm' he => hk ⟨m', hm', he⟩))
        · rw [hr]
          exact ⟨s, same, .nil _⟩
        · rw [hr]
          exact ⟨s, same, .nil _⟩
        · rw [hr]
          exact ⟨s, same, one (op := .insertBulk _) (o := .done (.error .structError)) (putAll_error hf)⟩

theorem inv_run (hbi : ∀ p ms m, bulk p ms → m ∈ ms → ins p m) (ho : BatchOwned ins bulk del)
    (experiment : Query N → ℤ)
    (hid : ∀ q p p' m, del p q → ins p' m → m.query = q → m.experimentId = experiment q)
    (es : List (Event N F)) {w : World N F} {s : State N F} (h : Inv E ins bulk del w s)
    (hi : ∀ p m, Event.start p (.insert m) ∈ es → ins p m)
    (hb : ∀ p ms, Event.start p (.insertBulk ms) ∈ es → bulk p ms)
    (hd : ∀ p eng q, Event.start p (.delete eng q) ∈ es → del p q) :
    ∃ s', Inv E ins bulk del (run E C es w).2 s' ∧
      SpecRun E.codec.fmt.round32 s ((calls (run E C es w).1).map Prod.fst)
        ((calls (run E C es w).1).map Prod.snd) s' := by
  induction es generalizing w s with
  | nil => exact ⟨s, h, .nil _⟩
  | cons e es ih =>
    obtain ⟨s1, h1, hr1⟩ := inv_step (C := C) hbi ho experiment hid h e
      (fun p m he => hi p m (by simp [he])) (fun p ms he => hb p ms (by simp [he]))
      (fun p eng q he => hd p eng q (by simp [he]))
    obtain ⟨s2, h2, hr2⟩ := ih h1 (fun p m he => hi p m (by simp [he]))
      (fun p ms he => hb p ms (by simp [he])) (fun p eng q he => hd p eng q (by simp [he]))
    refine ⟨s2, h2, ?_⟩
    have : calls (run E C (e :: es) w).1 =
        calls (step E C w e).1 ++ calls (run E C es (step E C w e).2).1 := by
      simp only [run, calls, List.filterMap_append]
    rw [this, List.map_append, List.map_append]
    exact specRun_append hr1 hr2

end

variable (E C)

/-- C141, serial order: whatever the schedule, the calls that did not run into another process,
taken one after the other in the order in which they completed, give the same outcomes on a map,
and the table holds that map; calls that ran into another process or were cut short left no
trace.  A batch counts as one call: nobody sees a part of it.  Missing: calls do run into each
other (`C141_refuted_insert`, `C141_refuted_update`), the distributions addressed by a deletion
must belong to one experiment (`C141_refuted_serial`), and the keys of a batch, but for the last
one, must not be written or deleted by other processes (`C141_refuted_batch`). -/
theorem C141_serial_partial (es : List (Event N F)) (experiment : Query N → ℤ)
    (h : ∀ p p' q m, Deletes es p q → Inserts es p' m → m.query = q → m.experimentId = experiment q)
    (hb : ∀ p ms m p', Event.start p (.insertBulk ms) ∈ es → m ∈ ms.dropLast →
      (∃ m', Inserts es p' m' ∧ m'.dkey = m.dkey) ∨ (∃ q id, Deletes es p' q ∧ q.at id = m.dkey) →
      p' = p) :
    ∃ s, SpecRun E.codec.fmt.round32 State.empty
        ((calls (run E C es World.init).1).map Prod.fst)
        ((calls (run E C es World.init).1).map Prod.snd) s ∧
      Represents E (run E C es World.init).2.db s := by
  obtain ⟨s, hs, hr⟩ := inv_run (E := E) (C := C) (ins := Inserts es)
    (bulk := fun p ms => Event.start p (.insertBulk ms) ∈ es) (del := Deletes es)
    (fun p ms m h1 h2 => Or.inr ⟨ms, h1, h2⟩) hb experiment
    (fun q p p' m h1 h2 h3 => h p p' q m h1 h2 h3) es
    (w := World.init) (s := State.empty)
    ⟨represents_empty, good_empty, (fun k hk => absurd rfl hk), (fun p plan hp => by cases hp)⟩
    (fun p m hp => Or.inl hp) (fun p ms hp => hp) (fun p eng q hp => ⟨eng, hp⟩)
  exact ⟨s, hr, hs.rep⟩

/-- The plan of a process when every key has an owner. -/
def PlanOwn (E : Storage.Env N F) (owner : DKey N → ℕ) (s : State N F) (p : ℕ) : Plan N F → Prop
  | .insertRow m => owner m.dkey = p ∧ s m.dkey = none
  | .updateRow m => owner m.dkey = p ∧ s m.dkey ≠ none
  | .deleteRow _ q k => ∃ id, owner (q.at id) = p ∧ k = (q.at id).key E
  | .bulkSelect _ rest => ∀ m ∈ rest, owner m.dkey = p
  | .bulkRow _ fresh m rest => (∀ m' ∈ m :: rest, owner m'.dkey = p) ∧ (fresh = true ↔ s m.dkey = none)

/-- What holds between the steps when every key has an owner. -/
structure Own (E : Storage.Env N F) (owner : DKey N → ℕ) (w : World N F) (s : State N F) : Prop where
  rep : Represents E w.db s
  good : Good E s
  plan : ∀ p plan, w.phase p = some plan → PlanOwn E owner s p plan

/-- The call did not run into another process. -/
def Clean (ds : List (Done N F)) : Prop := ∀ d ∈ ds, ∃ o, d.2.2 = .out o

variable {E C}

theorem planOwn_other {owner : DKey N → ℕ} {s s' : State N F} {p : ℕ} {plan : Plan N F}
    (h : PlanOwn E owner s p plan) (hs : ∀ k, owner k = p → s' k = s k) : PlanOwn E owner s' p plan := by
  cases plan with
  | insertRow m => exact ⟨h.1, by rw [hs _ h.1]; exact h.2⟩
  | updateRow m => exact ⟨h.1, by rw [hs _ h.1]; exact h.2⟩
  | deleteRow eng q k => exact h
  | bulkSelect all rest => exact h
  | bulkRow all fresh m rest => exact ⟨h.1, by rw [hs _ (h.1 m (by simp))]; exact h.2⟩

theorem own_none {owner : DKey N → ℕ} {w : World N F} {s s' : State N F} {db' : DB}
    (h : Own E owner w s) (p : ℕ) (hrep : Represents E db' s') (hg : Good E s')
    (hs : ∀ k, owner k ≠ p → s' k = s k) : Own E owner ⟨db', Function.update w.phase p none⟩ s' := by
  refine ⟨hrep, hg, fun p' plan hp => ?_⟩
  simp only [Function.update_apply] at hp
  split at hp
  · cases hp
  · rename_i hne
    exact planOwn_other (h.plan p' plan hp) (fun k hk => hs k (by rw [hk]; exact hne))

theorem own_some {owner : DKey N → ℕ} {w : World N F} {s : State N F} (h : Own E owner w s) (p : ℕ)
    (plan : Plan N F) (hplan : PlanOwn E owner s p plan) :
    Own E owner { w with phase := Function.update w.phase p (some plan) } s := by
  refine ⟨h.rep, h.good, fun p' plan' hp => ?_⟩
  simp only [Function.update_apply] at hp
  split at hp
  · rename_i he; cases hp; subst he; exact hplan
  · exact h.plan p' plan' hp

theorem own_bulkNext {owner : DKey N → ℕ} {w : World N F} {s : State N F} (h : Own E owner w s) (p : ℕ)
    {all rest : List (Model N F)} (ho : ∀ m ∈ rest, owner m.dkey = p) :
    bulkNext E C w.db all rest = .inl (.out (.done (.ok ()))) ∨
    ∃ plan, bulkNext E C w.db all rest = .inr plan ∧ PlanOwn E owner s p plan := by
  rcases bulkNext_cases (C := C) h.rep all rest with ⟨rfl, h'⟩ | ⟨fresh, m, rest', rfl, hf, h'⟩ |
    ⟨m, rfl, hm, h'⟩ | ⟨m, rest', rfl, hr, hm, h'⟩
  · exact Or.inl h'
  · exact Or.inr ⟨_, h', ho, hf⟩
  · exact Or.inl h'
  · exact Or.inr ⟨_, h', fun m' hm' => ho m' (by simp [hm'])⟩

open Classical in
theorem own_step {owner : DKey N → ℕ} {w : World N F} {s : State N F} (h : Own E owner w s)
    (e : Event N F) (hi : ∀ p m, e = .start p (.insert m) → owner m.dkey = p)
    (hb : ∀ p ms, e = .start p (.insertBulk ms) → ∀ m ∈ ms, owner m.dkey = p)
    (hd : ∀ p eng q, e = .start p (.delete eng q) → ∀ id, owner (q.at id) = p) :
    ∃ s', Own E owner (step E C w e).2 s' ∧ Clean (step E C w e).1 := by
  have nil : Clean ([] : List (Done N F)) := fun d hd => by cases hd
  have one : ∀ (p : ℕ) (op : COp N F) (o : Out N F), Clean [(p, op, .out o)] := by
    intro p op o d hd
    rw [List.mem_singleton] at hd
    exact ⟨o, by rw [hd]⟩
  cases e with
  | start p op =>
    rcases hph : w.phase p with _ | plan
    · cases op with
      | insert m =>
        have him := hi p m rfl
        rcases begin_insert (C := C) h.rep m with ⟨hs, hb⟩ | ⟨hs, hb⟩ | ⟨hs, hb⟩
        · simp only [step, hph, hb]
          exact ⟨s, own_some h p _ ⟨him, hs⟩, nil⟩
        · simp only [step, hph, hb]
          exact ⟨s, h, one _ _ _⟩
        · simp only [step, hph, hb]
          exact ⟨s, own_some h p _ ⟨him, hs⟩, nil⟩
      | insertBulk ms =>
        rcases own_bulkNext (C := C) h p (all := ms) (hb p ms rfl) with h1 | ⟨plan, h1, h2⟩
        · simp only [step, hph, begin, h1]
          exact ⟨s, h, one _ _ _⟩
        · simp only [step, hph, begin, h1]
          exact ⟨s, own_some h p _ h2, nil⟩
      | delete eng q =>
        rcases begin_delete (C := C) h.rep eng q with ⟨hb, hn⟩ | ⟨id, hb, hn⟩ | ⟨hb, hids⟩
        · simp only [step, hph, hb]
          exact ⟨s, h, one _ _ _⟩
        · simp only [step, hph, hb]
          exact ⟨s, own_some h p _ ⟨id, hd p eng q rfl id, rfl⟩, nil⟩
        · simp only [step, hph, hb]
          exact ⟨s, h, one _ _ _⟩
      | get eng q => simp only [step, hph, begin]; exact ⟨s, h, one _ _ _⟩
      | getForCv eng q => simp only [step, hph, begin]; exact ⟨s, h, one _ _ _⟩
      | getBulk eng codes size err => simp only [step, hph, begin]; exact ⟨s, h, one _ _ _⟩
    · simp only [step, hph]
      exact ⟨s, h, nil⟩
  | finish p =>
    rcases hph : w.phase p with _ | plan
    · simp only [step, hph]
      exact ⟨s, h, nil⟩
    · have same : Own E owner ⟨w.db, Function.update w.phase p none⟩ s :=
        own_none h p h.rep h.good (fun _ _ => rfl)
      have row : ∀ m, owner m.dkey = p → ∀ k, owner k ≠ p → (s.put E.codec.fmt.round32 m) k = s k :=
        fun m him k hk => put_other (fun he => hk (by rw [← he]; exact him))
      have hplan := h.plan p plan hph
      cases plan with
      | insertRow m =>
        obtain ⟨him, hs⟩ := hplan
        simp only [step, hph, proceed]
        rcases flush_insertRow h.rep m with ⟨hf, -, hr, hrep⟩ | ⟨-, hne, hr⟩ | ⟨hf, hr⟩
        · rw [hr]
          exact ⟨_, own_none h p hrep (good_put h.good m hf) (row m him), one _ _ _⟩
        · exact absurd hs hne
        · rw [hr]
          exact ⟨s, same, one _ _ _⟩
      | updateRow m =>
        obtain ⟨him, hs⟩ := hplan
        simp only [step, hph, proceed]
        rcases flush_updateRow h.rep m with ⟨hf, -, hr, hrep⟩ | ⟨-, hne, hr⟩ | ⟨hf, hr⟩
        · rw [hr]
          exact ⟨_, own_none h p hrep (good_put h.good m hf) (row m him), one _ _ _⟩
        · exact absurd hne hs
        · rw [hr]
          exact ⟨s, same, one _ _ _⟩
      | deleteRow eng q k =>
        obtain ⟨id, hown, rfl⟩ := hplan
        simp only [step, hph, proceed]
        refine ⟨_, own_none h p (represents_erase h.rep (q.at id)) (good_erase h.good _) (fun k hk => ?_),
          one _ _ _⟩
        rw [Function.update_apply]
        exact if_neg (fun he => hk (by rw [he]; exact hown))
      | bulkSelect all rest =>
        rcases own_bulkNext (C := C) h p (all := all) hplan with h1 | ⟨plan, h1, h2⟩
        · simp only [step, hph, proceed, h1]
          exact ⟨s, same, one _ _ _⟩
        · simp only [step, hph, proceed, h1]
          exact ⟨s, own_some h p _ h2, nil⟩
      | bulkRow all fresh m rest =>
        obtain ⟨hown, hfr⟩ := hplan
        simp only [step, hph, proceed]
        rcases bulkCommit_spec (C := C) h.rep h.good fresh m rest with ⟨hf, -, hr, hrep⟩ | ⟨hne, -⟩ | ⟨hf, hr⟩
        · rw [hr]
          refine ⟨_, own_none h p hrep (good_putAll h.good _ hf) (fun k hk => ?_), one _ _ _⟩
          exact putAll_other _ (fun m' hm' he => hk (by rw [← he]; exact hown m' hm'))
        · exact absurd hfr hne
        · rw [hr]
          exact ⟨s, same, one _ _ _⟩

variable (E C)

/-- C141, no interference: if every key is written and deleted by one process only (deletions
count for every experiment they may address), no call of any schedule fails because of another
process.  Missing: processes that write the same key (`C141_refuted_insert`,
`C141_refuted_update`). -/
theorem C141_owned_partial (es : List (Event N F)) (owner : DKey N → ℕ)
    (hi : ∀ p m, Inserts es p m → owner m.dkey = p)
    (hd : ∀ p q, Deletes es p q → ∀ id, owner (q.at id) = p) :
    ∀ d ∈ (run E C es World.init).1, ∃ o, d.2.2 = .out o := by
  have key : ∀ (es : List (Event N F)) (w : World N F) (s : State N F), Own E owner w s →
      (∀ p m, Inserts es p m → owner m.dkey = p) →
      (∀ p q, Deletes es p q → ∀ id, owner (q.at id) = p) →
      Clean (run E C es w).1 := by
    intro es
    induction es with
    | nil => intro w s _ _ _ d hd; cases hd
    | cons e es ih =>
      intro w s h hi hd d hmem
      obtain ⟨s', h', hc⟩ := own_step (C := C) h e (fun p m he => hi p m (Or.inl (by simp [he])))
        (fun p ms he m hm => hi p m (Or.inr ⟨ms, by simp [he], hm⟩))
        (fun p eng q he => hd p q ⟨eng, by simp [he]⟩)
      rcases List.mem_append.1 hmem with hm | hm
      · exact hc d hm
      · refine ih _ s' h' (fun p m he => hi p m ?_) (fun p q he => hd p q ?_) d hm
        · rcases he with he | ⟨ms, he, hm⟩
          · exact Or.inl (by simp [he])
          · exact Or.inr ⟨ms, by simp [he], hm⟩
        · obtain ⟨eng, he⟩ := he
          exact ⟨eng, by simp [he]⟩
  exact key es _ State.empty ⟨represents_empty, good_empty, (fun p plan hp => by cases hp)⟩ hi hd

/-! ### Interference -/

theorem order_one (eng : Engine) (r : Row) : eng.order [r] = [r] :=
  List.perm_singleton.1 (eng.perm [r])

theorem holds_query {m : Model N F} {r : Row} (h : r.key = m.dkey.key E) :
    m.query.holds E r = true := (holds_of_key (q := m.query) (id := m.experimentId) h).1

/-- C141, refuted: two processes that insert the same new key at the same time, even with the
same results, do not both succeed: one fails with an integrity error, although `insert_data`
promises to update what exists. -/
theorem C141_refuted_insert (m m' : Model N F) (h : m.fits) (h' : m'.fits) (hk : m'.dkey = m.dkey) :
    (run E C [.start 0 (.insert m), .start 1 (.insert m'), .finish 0, .finish 1] World.init).1 =
      [(0, .insert m, .out (.done (.ok ()))), (1, .insert m', .integrityError)] := by
  obtain ⟨r, hr, hri⟩ := fromModel_ok (E := E) h
  obtain ⟨r', hr', hri'⟩ := fromModel_ok (E := E) h'
  have hkey : r.key = r'.key := by rw [hri.1, hri'.1, hk]
  simp [run, step, begin, select, proceed, flushRow, World.init, hr, hr', Plan.op, hkey]

/-- C141, refuted: a process that inserts new results for a stored key while another process
deletes it fails with a stale data error, and its results are lost. -/
theorem C141_refuted_update (eng : Engine) (m m' : Model N F) (h : m.fits) (h' : m'.fits)
    (hk : m'.dkey = m.dkey) (hne : m'.results ≠ m.results.map E.codec.fmt.round32) :
    run E C [.start 0 (.insert m), .finish 0, .start 0 (.insert m'), .start 1 (.delete eng m.query),
        .finish 1, .finish 0] World.init =
      ([(0, .insert m, .out (.done (.ok ()))), (1, .delete eng m.query, .out (.done (.ok ()))),
        (0, .insert m', .staleDataError)], World.init) := by
  obtain ⟨r, hr, hri⟩ := fromModel_ok (E := E) h
  obtain ⟨r', hr', hri'⟩ := fromModel_ok (E := E) h'
  have hsame : C.same (m.results.map E.codec.fmt.round32) m'.results = false := by
    by_contra hc
    exact hne (C.eq_of_same _ _ (by simpa using hc)).symm
  have hq := holds_query E hri.1
  have hk1 : r.key = m'.dkey.key E := by rw [hri.1, hk]
  have hk2 : r.key = m.dkey.key E := hri.1
  have hk3 : r'.key = m'.dkey.key E := hri'.1
  simp [run, step, begin, select, proceed, flushRow, World.init, hr, hr', Plan.op, hk1, hk3, hri.2, hsame, hq, order_one,
    Function.update_apply]
  funext p
  simp only [Function.update_apply]
  split_ifs <;> rfl

theorem specRun_keeps {round : F → F} {s s' : State N F} {ops : List (Op N F)} {outs : List (Out N F)}
    (h : SpecRun round s ops outs s') (hops : ∀ op ∈ ops, (∃ m, op = .insert m) ∨ ∃ eng q, op = .get eng q)
    (k : DKey N) (hk : s k ≠ none) : s' k ≠ none := by
  classical
  induction h with
  | nil => exact hk
  | @cons s op out s1 ops outs s2 hst _ ih =>
    apply ih (fun op hop => hops op (by simp [hop]))
    rcases hops op (by simp) with ⟨m, rfl⟩ | ⟨eng, q, rfl⟩
    · cases out with
      | done r =>
        have hst' : PutAllSpec round s [m] r s1 := hst
        unfold PutAllSpec at hst'
        split at hst'
        · rw [hst'.2]
          simp only [List.foldl_cons, List.foldl_nil, State.put, Function.update_apply]
          split
          · simp
          · exact hk
        · rw [hst'.2]; exact hk
      | one r => exact hst.elim
      | many r => exact hst.elim
    · cases out with
      | one r => rw [hst.2]; exact hk
      | done r => exact hst.elim
      | many r => exact hst.elim

theorem specRun_split {round : F → F} {s s' : State N F} {l1 l2 : List (Op N F × Out N F)}
    {x : Op N F × Out N F}
    (h : SpecRun round s ((l1 ++ x :: l2).map Prod.fst) ((l1 ++ x :: l2).map Prod.snd) s') :
    ∃ a b, SpecRun round s (l1.map Prod.fst) (l1.map Prod.snd) a ∧ SpecStep round a x.1 x.2 b ∧
      SpecRun round b (l2.map Prod.fst) (l2.map Prod.snd) s' := by
  induction l1 generalizing s with
  | nil =>
    cases h with
    | cons hst hr => exact ⟨s, _, .nil _, hst, hr⟩
  | cons y l1 ih =>
    cases h with
    | cons hst hr =>
      obtain ⟨a, b, h1, h2, h3⟩ := ih hr
      exact ⟨a, b, .cons hst h1, h2, h3⟩

/-- The schedule of `C141_refuted_serial`: process 0 stores the distribution of one experiment;
process 1 begins to delete it; process 0 stores the distribution of another experiment; process
2 looks up; process 1 completes the deletion. -/
def crossing (eng : Engine) (m m' : Model N F) : List (Event N F) :=
  [.start 0 (.insert m), .finish 0, .start 1 (.delete eng m.query), .start 0 (.insert m'),
    .finish 0, .start 2 (.get eng m.query), .finish 1]

/-- C141, refuted: with two experiments, the successful calls of a schedule are those of no
serial order at all: the lookup finds both distributions, and yet the deletion neither fails nor
came first. -/
theorem C141_refuted_serial (eng : Engine) (m m' : Model N F) (h : m.fits) (h' : m'.fits)
    (hq : m'.query = m.query) (hne : m'.experimentId ≠ m.experimentId) :
    (∀ d ∈ (run E C (crossing eng m m') World.init).1, ∃ o, d.2.2 = .out o) ∧
    ∀ l : List (Op N F × Out N F), l.Perm (calls (run E C (crossing eng m m') World.init).1) →
      ¬ ∃ s, SpecRun E.codec.fmt.round32 State.empty (l.map Prod.fst) (l.map Prod.snd) s ∧
        Represents E (run E C (crossing eng m m') World.init).2.db s := by
  obtain ⟨r, hr, hri⟩ := fromModel_ok (E := E) h
  obtain ⟨r', hr', hri'⟩ := fromModel_ok (E := E) h'
  have hkne : r.key ≠ r'.key := by
    rw [hri.1, hri'.1]
    intro he
    have := congrArg Key.experimentId he
    exact hne this.symm
  have hq1 := holds_query E hri.1
  have hq2 : m.query.holds E r' = true := by rw [← hq]; exact holds_query E hri'.1
  have hk' : ¬ r.key = m'.dkey.key E := by rw [← hri'.1]; exact hkne
  have hget : ((getData E eng m.query).exec [r, r']).1 = .error .multipleResultsFound := by
    unfold getData
    rw [exec_ofRun]
    dsimp only
    have hl : [r, r'].filter (m.query.holds E) = [r, r'] := by simp [hq1, hq2]
    rw [hl]
    have hperm := eng.perm [r, r']
    have hlen := hperm.length_eq
    have hmem := fun x => (hperm.mem_iff (a := x)).1
    generalize eng.order [r, r'] = o at hlen hmem
    have hm : ∀ x ∈ o, ∃ mx, toModel E x = .ok mx := by
      intro x hx
      have := hmem x hx
      simp only [List.mem_cons, List.not_mem_nil, or_false] at this
      rcases this with rfl | rfl
      · exact ⟨_, hri.toModel⟩
      · exact ⟨_, hri'.toModel⟩
    rcases o with _ | ⟨x, _ | ⟨y, _ | ⟨z, rest⟩⟩⟩
    · simp at hlen
    · simp at hlen
    · obtain ⟨mx, hx⟩ := hm x (by simp)
      obtain ⟨my, hy⟩ := hm y (by simp)
      simp only [List.mapM_cons, List.mapM_nil, hx, hy]
      rfl
    · simp at hlen
  have hrun : run E C (crossing eng m m') World.init =
      ([(0, .insert m, .out (.done (.ok ()))), (0, .insert m', .out (.done (.ok ()))),
        (2, .get eng m.query, .out (.one (.error .multipleResultsFound))),
        (1, .delete eng m.query, .out (.done (.ok ())))], ⟨[r'], fun _ => none⟩) := by
    simp [crossing, run, step, begin, select, proceed, flushRow, World.init, hr, hr', Plan.op, hq1, order_one,
      hk', hkne, hkne.symm, hget]
    funext p
    simp only [Function.update_apply]
    split_ifs <;> rfl
  rw [hrun]
  refine ⟨by simp, ?_⟩
  intro l hl
  rintro ⟨s, hs, hrep⟩
  have hcalls : calls [((0 : ℕ), COp.insert m, Resp.out (Out.done (.ok ()))),
      (0, .insert m', .out (.done (.ok ()))),
      (2, .get eng m.query, .out (.one (.error .multipleResultsFound))),
      (1, .delete eng m.query, .out (.done (.ok ())))] =
      [((.insert m : Op N F), (Out.done (.ok ()) : Out N F)), (.insert m', .done (.ok ())),
        (.get eng m.query, .one (.error .multipleResultsFound)),
        (.delete eng m.query, .done (.ok ()))] := rfl
  rw [hcalls] at hl
  have hmem : (((Op.get eng m.query : Op N F), Out.one (.error .multipleResultsFound)) :
      Op N F × Out N F) ∈ l := hl.mem_iff.2 (by simp)
  obtain ⟨l1, l2, rfl⟩ := List.append_of_mem hmem
  obtain ⟨a, b, -, hst, hrest⟩ := specRun_split hs
  obtain ⟨⟨-, id, id', hii, hid, hid'⟩, rfl⟩ := hst
  have hperm : (l1 ++ l2).Perm [((.insert m : Op N F), (Out.done (.ok ()) : Out N F)), (.insert m', .done (.ok ())),
      (.delete eng m.query, .done (.ok ()))] := by
    have h1 := (List.perm_middle (a := ((Op.get eng m.query : Op N F), Out.one (.error .multipleResultsFound)))
      (l₁ := l1) (l₂ := l2)).symm.trans hl
    have h2 : [((.insert m : Op N F), (Out.done (.ok ()) : Out N F)), (.insert m', .done (.ok ())),
        (.get eng m.query, .one (.error .multipleResultsFound)),
        (.delete eng m.query, .done (.ok ()))].Perm
        ((.get eng m.query, .one (.error .multipleResultsFound)) ::
          [((.insert m : Op N F), (Out.done (.ok ()) : Out N F)), (.insert m', .done (.ok ())),
            (.delete eng m.query, .done (.ok ()))]) :=
      List.perm_middle (l₁ := [((.insert m : Op N F), (Out.done (.ok ()) : Out N F)), (.insert m', .done (.ok ()))])
        (l₂ := [((.delete eng m.query : Op N F), (Out.done (.ok ()) : Out N F))])
    exact List.Perm.cons_inv (h1.trans h2)
  by_cases hdel : (((Op.delete eng m.query : Op N F), (Out.done (.ok ()) : Out N F)) : Op N F × Out N F) ∈ l2
  · obtain ⟨l3, l4, rfl⟩ := List.append_of_mem hdel
    obtain ⟨c, d, h1, hst, -⟩ := specRun_split hrest
    have hperm3 : (l1 ++ (l3 ++ l4)).Perm
        [((.insert m : Op N F), (Out.done (.ok ()) : Out N F)), (.insert m', .done (.ok ()))] := by
      have h1 := (List.perm_middle (a := ((Op.delete eng m.query : Op N F), (Out.done (.ok ()) : Out N F)))
        (l₁ := l1 ++ l3) (l₂ := l4)).symm.trans (by simpa using hperm)
      have h2 : [((.insert m : Op N F), (Out.done (.ok ()) : Out N F)), (.insert m', .done (.ok ())),
          (.delete eng m.query, .done (.ok ()))].Perm
          ((.delete eng m.query, .done (.ok ())) ::
            [((.insert m : Op N F), (Out.done (.ok ()) : Out N F)), (.insert m', .done (.ok ()))]) :=
        List.perm_append_comm (l₁ := [((.insert m : Op N F), (Out.done (.ok ()) : Out N F)), (.insert m', .done (.ok ()))])
          (l₂ := [((.delete eng m.query : Op N F), (Out.done (.ok ()) : Out N F))])
      simpa using List.Perm.cons_inv (h1.trans h2)
    have hins : ∀ op ∈ l3.map Prod.fst, (∃ m, op = .insert m) ∨ ∃ eng q, op = .get eng q := by
      intro op hop
      obtain ⟨x, hx, rfl⟩ := List.mem_map.1 hop
      have := hperm3.mem_iff.1 (show x ∈ l1 ++ (l3 ++ l4) by simp [hx])
      simp only [List.mem_cons, List.not_mem_nil, or_false] at this
      rcases this with rfl | rfl
      · exact Or.inl ⟨m, rfl⟩
      · exact Or.inl ⟨m', rfl⟩
    have k1 := specRun_keeps h1 hins _ hid
    have k2 := specRun_keeps h1 hins _ hid'
    rcases hst with ⟨hn, -⟩ | ⟨j, -, hu, -⟩
    · exact k1 (hn id)
    · exact hii ((hu id k1).trans (hu id' k2).symm)
  · have hins : ∀ op ∈ l2.map Prod.fst, (∃ m, op = .insert m) ∨ ∃ eng q, op = .get eng q := by
      intro op hop
      obtain ⟨x, hx, rfl⟩ := List.mem_map.1 hop
      have := hperm.mem_iff.1 (show x ∈ l1 ++ l2 by simp [hx])
      simp only [List.mem_cons, List.not_mem_nil, or_false] at this
      rcases this with rfl | rfl | rfl
      · exact Or.inl ⟨m, rfl⟩
      · exact Or.inl ⟨m', rfl⟩
      · exact absurd hx hdel
    have one : ∀ j, s (m.query.at j) ≠ none → j = r'.key.experimentId := by
      intro j hj
      obtain ⟨x, hx, hxk⟩ := (hrep.ne_none _).1 hj
      rw [List.mem_singleton] at hx
      subst hx
      exact (holds_of_key hxk).2.symm
    exact hii ((one id (specRun_keeps hrest hins _ hid)).trans
      (one id' (specRun_keeps hrest hins _ hid')).symm)

/-- The schedule of `C141_refuted_batch`: process 0 stores `m`; process 1 begins to insert the
batch `m`, `n` and finds `m` stored; process 0 replaces the results of `m` by those of `m'`;
process 2 looks up; process 1 completes the batch. -/
def overtaken (eng : Engine) (size err : ℤ) (m m' n : Model N F) : List (Event N F) :=
  [.start 0 (.insert m), .finish 0, .start 1 (.insertBulk [m, n]), .start 0 (.insert m'), .finish 0,
    .start 2 (.getBulk eng [m.code, n.code] size err), .finish 1, .finish 1]

/-- One of the insertions of the schedule. -/
def BatchOp (m m' n : Model N F) (op : Op N F) : Prop :=
  op = .insert m ∨ op = .insert m' ∨ op = .insertBulk [m, n]

open Classical in
theorem specStep_put {round : F → F} {s s' : State N F} {op : Op N F} {out : Out N F} {m m' n : Model N F}
    (hf : m.fits) (hf' : m'.fits) (hfn : n.fits) (h : BatchOp m m' n op) (hst : SpecStep round s op out s') :
    (op = .insert m → s' = s.put round m) ∧ (op = .insert m' → s' = s.put round m') ∧
      (op = .insertBulk [m, n] → s' = (s.put round m).put round n) := by
  have aux : ∀ (ms : List (Model N F)) r, PutAllSpec round s ms r s' → (∀ x ∈ ms, x.fits) →
      s' = ms.foldl (State.put round) s := by
    intro ms r h hx
    unfold PutAllSpec at h
    rw [if_pos hx] at h
    exact h.2
  refine ⟨?_, ?_, ?_⟩
  · rintro rfl
    cases out with
    | done r => exact aux [m] r hst (by simpa using hf)
    | one r => exact hst.elim
    | many r => exact hst.elim
  · rintro rfl
    cases out with
    | done r => exact aux [m'] r hst (by simpa using hf')
    | one r => exact hst.elim
    | many r => exact hst.elim
  · rintro rfl
    cases out with
    | done r => exact aux [m, n] r hst (by simpa using ⟨hf, hfn⟩)
    | one r => exact hst.elim
    | many r => exact hst.elim

open Classical in
theorem put_self {round : F → F} {s : State N F} {m : Model N F} :
    (s.put round m) m.dkey = some (m.results.map round) := by
  simp [State.put]

/-- What a key holds is kept by every insertion that keeps it. -/
theorem specRun_invariant {round : F → F} {m m' n : Model N F} (hf : m.fits) (hf' : m'.fits) (hfn : n.fits)
    (P : State N F → Prop) (ok : Op N F → Prop) (hok : ∀ op, ok op → BatchOp m m' n op)
    (h1 : ok (.insert m) → ∀ s, P s → P (s.put round m)) (h2 : ok (.insert m') → ∀ s, P s → P (s.put round m'))
    (h3 : ok (.insertBulk [m, n]) → ∀ s, P s → P ((s.put round m).put round n))
    {s s' : State N F} {ops : List (Op N F)} {outs : List (Out N F)} (h : SpecRun round s ops outs s')
    (hops : ∀ op ∈ ops, ok op) (hs : P s) : P s' := by
  induction h with
  | nil => exact hs
  | @cons s op out s1 ops outs s2 hst _ ih =>
    refine ih (fun op hop => hops op (by simp [hop])) ?_
    have ho := hops op (by simp)
    obtain ⟨a1, a2, a3⟩ := specStep_put hf hf' hfn (hok op ho) hst
    rcases hok op ho with rfl | rfl | rfl
    · rw [a1 rfl]; exact h1 ho s hs
    · rw [a2 rfl]; exact h2 ho s hs
    · rw [a3 rfl]; exact h3 ho s hs

/-- C141, refuted: a batch whose first distribution is stored already sends no statement for it,
so that another process can replace it before the batch writes the rest.  The successful calls of
such a schedule are those of no serial order at all: the lookup sees the replacement and not yet
the rest of the batch, and afterwards the replacement is still there. -/
theorem C141_refuted_batch (eng : Engine) (size err : ℤ) (m m' n : Model N F) (h : m.fits) (h' : m'.fits)
    (hn : n.fits) (hk : m'.dkey = m.dkey) (hcode : n.code ≠ m.code)
    (hne : m'.results.map E.codec.fmt.round32 ≠ m.results.map E.codec.fmt.round32)
    (hsame : C.same (m.results.map E.codec.fmt.round32) m.results = true)
    (hr1 : InRange size err m.dkey) (hr2 : InRange size err n.dkey) :
    (∀ d ∈ (run E C (overtaken eng size err m m' n) World.init).1, ∃ o, d.2.2 = .out o) ∧
    ∀ l : List (Op N F × Out N F),
      l.Perm (calls (run E C (overtaken eng size err m m' n) World.init).1) →
      ¬ ∃ s, SpecRun E.codec.fmt.round32 State.empty (l.map Prod.fst) (l.map Prod.snd) s ∧
        Represents E (run E C (overtaken eng size err m m' n) World.init).2.db s := by
  obtain ⟨r, hr, hri⟩ := fromModel_ok (E := E) h
  obtain ⟨r', hr', hri'⟩ := fromModel_ok (E := E) h'
  obtain ⟨t, ht, hti⟩ := fromModel_ok (E := E) hn
  have hkn : n.dkey ≠ m.dkey := fun he => hcode (congrArg DKey.code he)
  have hk1 : r.key = m.dkey.key E := hri.1
  have hk2 : r'.key = m.dkey.key E := by rw [hri'.1, hk]
  have hk3 : t.key ≠ m.dkey.key E := by
    rw [hti.1]
    intro he
    exact hkn (key_injective he)
  have hk4 : t.key = n.dkey.key E := hti.1
  have hdiff : C.same (m.results.map E.codec.fmt.round32) m'.results = false := by
    by_contra hc
    have := C.eq_of_same _ _ (by simpa using hc)
    apply hne
    rw [← this, List.map_map]
    apply List.map_congr_left
    intro x _
    exact E.codec.fmt.round32_round32 x
  have hget : ((getBulkData E eng [m.code, n.code] size err).exec [r']).1 =
      .ok [{ m' with results := m'.results.map E.codec.fmt.round32 }] := by
    unfold getBulkData
    rw [exec_ofRun]
    dsimp only
    have hl : [r'].filter (fun x => decide (x.key.code ∈ [m.code, n.code] ∧ size - err ≤ x.key.sampleSize ∧
        x.key.sampleSize ≤ size + err)) = [r'] := by
      have h1 : r'.key.code = m.code := by rw [hk2]; rfl
      have h2 : r'.key.sampleSize = m.sampleSize := by rw [hk2]; rfl
      simp only [List.filter_cons, List.filter_nil, h1, h2]
      rw [if_pos]
      exact decide_eq_true ⟨by simp, hr1.1, hr1.2⟩
    rw [hl, order_one]
    simp only [List.mapM_cons, List.mapM_nil, hri'.toModel]
    rfl
  have hrun : run E C (overtaken eng size err m m' n) World.init =
      ([(0, .insert m, .out (.done (.ok ()))), (0, .insert m', .out (.done (.ok ()))),
        (2, .getBulk eng [m.code, n.code] size err,
          .out (.many (.ok [{ m' with results := m'.results.map E.codec.fmt.round32 }]))),
        (1, .insertBulk [m, n], .out (.done (.ok ())))], ⟨[r', t], fun _ => none⟩) := by
    have hk5 : ¬ m.dkey.key E = n.dkey.key E := by rw [← hk4]; exact fun he => hk3 he.symm
    simp [overtaken, run, step, begin, bulkNext, select, proceed, bulkCommit, bulkRest, flushRow, World.init,
      hr, hr', ht, Plan.op, hk, hk1, hk2, hk4, hk5, hri.2, hsame, hdiff, hget, Function.update_apply]
    funext p
    simp only [Function.update_apply]
    split_ifs <;> rfl
  rw [hrun]
  refine ⟨by simp, ?_⟩
  intro l hl
  rintro ⟨s, hs, hrep⟩
  set mr : Model N F := { m' with results := m'.results.map E.codec.fmt.round32 } with hmr
  have hfin : s m.dkey = some (m'.results.map E.codec.fmt.round32) :=
    (hrep.iff _ _).2 ⟨r', by simp, hk2, hri'.2⟩
  set A : Op N F × Out N F := (.insert m, .done (.ok ())) with hA
  set B : Op N F × Out N F := (.insert m', .done (.ok ())) with hB
  set G : Op N F × Out N F := (.getBulk eng [m.code, n.code] size err, .many (.ok [mr])) with hG
  set D : Op N F × Out N F := (.insertBulk [m, n], .done (.ok ())) with hD
  have hcalls : calls [((0 : ℕ), COp.insert m, Resp.out (Out.done (.ok ()))),
      (0, .insert m', .out (.done (.ok ()))),
      (2, .getBulk eng [m.code, n.code] size err, .out (.many (.ok [mr]))),
      (1, .insertBulk [m, n], .out (.done (.ok ())))] = [A, B, G, D] := rfl
  rw [hcalls] at hl
  have hAB : m ≠ m' := fun he => hne (by rw [he])
  have hnodup : [A, B, G, D].Nodup := by
    simp [hA, hB, hG, hD, hAB]
  have hnl : l.Nodup := hl.nodup_iff.2 hnodup
  have hmem : ∀ x, x ∈ l ↔ x = A ∨ x = B ∨ x = G ∨ x = D := by
    intro x
    rw [hl.mem_iff]
    simp only [List.mem_cons, List.not_mem_nil, or_false]
  obtain ⟨l1, l2, rfl⟩ := List.append_of_mem ((hmem G).2 (by simp))
  obtain ⟨a, b, hpre, hst, hpost⟩ := specRun_split hs
  have hGnot : G ∉ l1 ∧ G ∉ l2 ∧ List.Disjoint l1 l2 := by
    rw [List.nodup_append] at hnl
    obtain ⟨h1, h2, h3⟩ := hnl
    refine ⟨fun hx => h3 G hx G (by simp) rfl, (List.nodup_cons.1 h2).1, fun x hx hx' => ?_⟩
    exact h3 x hx x (by simp [hx']) rfl
  have hops : ∀ x, x ∈ l1 ∨ x ∈ l2 → x = A ∨ x = B ∨ x = D := by
    intro x hx
    have hxl : x ∈ l1 ++ G :: l2 := by
      rcases hx with hx | hx <;> simp [hx]
    rcases (hmem x).1 hxl with h1 | h1 | h1 | h1
    · exact Or.inl h1
    · exact Or.inr (Or.inl h1)
    · subst h1
      rcases hx with hx | hx
      · exact absurd hx hGnot.1
      · exact absurd hx hGnot.2.1
    · exact Or.inr (Or.inr h1)
  obtain ⟨⟨-, hall, hcov⟩, hab⟩ := hst
  have hak : a m.dkey = some (m'.results.map E.codec.fmt.round32) := by
    have := (hall mr (by simp)).1
    rw [← hk]
    exact this
  have han : a n.dkey = none := by
    by_contra hc
    obtain ⟨x, hx, hxc⟩ := hcov n.dkey (by simp [Model.dkey]) hr2 hc
    rw [List.mem_singleton] at hx
    subst hx
    have : m'.code = m.code := congrArg DKey.code hk
    exact hcode (hxc.symm.trans this)
  have hDpost : D ∈ l2 := by
    have hD' : D ∈ l1 ++ G :: l2 := (hmem D).2 (by simp)
    rcases List.mem_append.1 hD' with hx | hx
    · exfalso
      obtain ⟨l3, l4, rfl⟩ := List.append_of_mem hx
      obtain ⟨c, d, -, hst', hrest⟩ := specRun_split hpre
      have hd := (specStep_put h h' hn (m' := m') (Or.inr (Or.inr rfl)) hst').2.2 rfl
      have := specRun_invariant h h' hn (fun s => s n.dkey ≠ none) (BatchOp m m' n) (fun _ hx => hx)
        (fun _ s hs => by rw [put_other (fun he => hkn he.symm)]; exact hs)
        (fun _ s hs => by rw [put_other (fun he => hkn (by rw [← he, hk]))]; exact hs)
        (fun _ s hs => by rw [put_self]; simp) hrest
        (by
          intro op hop
          obtain ⟨x, hx, rfl⟩ := List.mem_map.1 hop
          rcases hops x (Or.inl (by simp [hx])) with rfl | rfl | rfl
          · exact Or.inl rfl
          · exact Or.inr (Or.inl rfl)
          · exact Or.inr (Or.inr rfl))
        (by rw [hd, put_self]; simp)
      exact this han
    · rcases List.mem_cons.1 hx with hx | hx
      · rw [hD, hG] at hx; cases hx
      · exact hx
  have hBpre : B ∈ l1 := by
    by_contra hB'
    have := specRun_invariant h h' hn (fun s => s m.dkey ≠ some (m'.results.map E.codec.fmt.round32))
      (fun op => op = .insert m ∨ op = .insertBulk [m, n])
      (fun op ho => by
        rcases ho with ho | ho
        · exact Or.inl ho
        · exact Or.inr (Or.inr ho))
      (fun _ s hs => by rw [put_self]; exact fun he => hne (Option.some.inj he).symm)
      (fun ho => by
        rcases ho with ho | ho
        · exact absurd (Op.insert.inj ho).symm hAB
        · cases ho)
      (fun _ s hs => by rw [put_other hkn, put_self]; exact fun he => hne (Option.some.inj he).symm) hpre
      (by
        intro op hop
        obtain ⟨x, hx, rfl⟩ := List.mem_map.1 hop
        rcases hops x (Or.inl hx) with rfl | rfl | rfl
        · exact Or.inl rfl
        · exact absurd hx hB'
        · exact Or.inr rfl)
      (by simp [State.empty])
    exact this hak
  obtain ⟨l3, l4, rfl⟩ := List.append_of_mem hDpost
  obtain ⟨c, d, -, hst', hrest⟩ := specRun_split hpost
  have hd := (specStep_put h h' hn (m' := m') (Or.inr (Or.inr rfl)) hst').2.2 rfl
  have := specRun_invariant h h' hn (fun s => s m.dkey = some (m.results.map E.codec.fmt.round32))
    (fun op => op = .insert m ∨ op = .insertBulk [m, n])
    (fun op ho => by
      rcases ho with ho | ho
      · exact Or.inl ho
      · exact Or.inr (Or.inr ho))
    (fun _ s hs => put_self)
    (fun ho => by
      rcases ho with ho | ho
      · exact absurd (Op.insert.inj ho).symm hAB
      · cases ho)
    (fun _ s hs => by rw [put_other hkn, put_self]) hrest
    (by
      intro op hop
      obtain ⟨x, hx, rfl⟩ := List.mem_map.1 hop
      have hx' : x ∈ l3 ++ D :: l4 := by simp [hx]
      rcases hops x (Or.inr hx') with rfl | rfl | rfl
      · exact Or.inl rfl
      · exact absurd hx' (hGnot.2.2 hBpre)
      · exact Or.inr rfl)
    (by rw [hd, put_other hkn, put_self])
  rw [hfin] at this
  exact hne (Option.some.inj this)

/-! ### Concrete cases -/

section Examples

/-- Comparison of lists of machine words. -/
def toyCompare : Compare (Fin (2 ^ 32)) := ⟨fun a b => a = b, fun _ _ h => by simpa using h⟩

/-- A second distribution of the criterion of `row2`. -/
def row3 : Model ℕ (Fin (2 ^ 32)) := { row2 with sampleSize := 12 }

/-- Two processes whose calls overlap: one stores, deletes and stores again, the other inserts a
batch, twice. -/
def toySchedule : List (Event ℕ (Fin (2 ^ 32))) :=
  [.start 0 (.insert row1), .start 1 (.insertBulk [row2, row3]), .finish 1,
    .start 1 (.get toyEngine row1.query), .finish 0, .start 0 (.delete toyEngine row1.query),
    .start 1 (.getForCv toyEngine ⟨row1.code, 10, 0⟩), .start 1 (.insertBulk [row2, row3]), .finish 0,
    .start 0 (.insert row1), .finish 1, .finish 0]

theorem toy_inserts {p : ℕ} {m : Model ℕ (Fin (2 ^ 32))} (h : Inserts toySchedule p m) :
    (p = 0 ∧ m = row1) ∨ (p = 1 ∧ (m = row2 ∨ m = row3)) := by
  rcases h with h | ⟨ms, h, hm⟩
  · simp only [toySchedule, List.mem_cons, List.not_mem_nil, or_false, Event.start.injEq,
      COp.insert.injEq, reduceCtorEq, and_false, false_or] at h
    rcases h with ⟨rfl, rfl⟩ | ⟨rfl, rfl⟩ <;> exact Or.inl ⟨rfl, rfl⟩
  · simp only [toySchedule, List.mem_cons, List.not_mem_nil, or_false, Event.start.injEq,
      COp.insertBulk.injEq, reduceCtorEq, and_false, false_or] at h
    rcases h with ⟨rfl, rfl⟩ | ⟨rfl, rfl⟩ <;> exact Or.inr ⟨rfl, by simpa using hm⟩

theorem toy_deletes {p : ℕ} {q : Query ℕ} (h : Deletes toySchedule p q) : p = 0 ∧ q = row1.query := by
  obtain ⟨eng, h⟩ := h
  simp only [toySchedule, List.mem_cons, List.not_mem_nil, or_false, Event.start.injEq,
    COp.delete.injEq, reduceCtorEq, and_false, false_or] at h
  exact ⟨h.1, h.2.2⟩

example : ∃ s, SpecRun toyStore.codec.fmt.round32 State.empty
        ((calls (run toyStore toyCompare toySchedule World.init).1).map Prod.fst)
        ((calls (run toyStore toyCompare toySchedule World.init).1).map Prod.snd) s ∧
      Represents toyStore (run toyStore toyCompare toySchedule World.init).2.db s :=
  C141_serial_partial toyStore toyCompare toySchedule (fun _ => 7)
    (by
      intro p p' q m h1 h2 h3
      obtain ⟨-, rfl⟩ := toy_deletes h1
      rcases toy_inserts h2 with ⟨-, rfl⟩ | ⟨-, rfl | rfl⟩
      · rfl
      · exact absurd (congrArg Query.code h3) (by decide)
      · exact absurd (congrArg Query.code h3) (by decide))
    (by
      intro p ms m p' h1 h2 h3
      have h1' : p = 1 ∧ ms = [row2, row3] := by
        simp only [toySchedule, List.mem_cons, List.not_mem_nil, or_false, Event.start.injEq,
          COp.insertBulk.injEq, reduceCtorEq, and_false, false_or] at h1
        rcases h1 with h1 | h1 <;> exact h1
      obtain ⟨rfl, rfl⟩ := h1'
      have h2' : m = row2 := by simpa using h2
      subst h2'
      rcases h3 with ⟨m', hi, hk⟩ | ⟨q, id, hd, hk⟩
      · rcases toy_inserts hi with ⟨-, rfl⟩ | ⟨rfl, -⟩
        · exact absurd (congrArg DKey.code hk) (by decide)
        · rfl
      · obtain ⟨-, rfl⟩ := toy_deletes hd
        exact absurd (congrArg DKey.code hk) (by change ¬ row1.code = row2.code; decide))

example : ∀ d ∈ (run toyStore toyCompare toySchedule World.init).1, ∃ o, d.2.2 = .out o :=
  C141_owned_partial toyStore toyCompare toySchedule
    (fun k => if k.code = "KS_GOODNESS_OF_FIT" then 0 else 1)
    (by
      intro p m h
      rcases toy_inserts h with ⟨rfl, rfl⟩ | ⟨rfl, rfl | rfl⟩ <;> decide)
    (by
      intro p q h id
      obtain ⟨rfl, rfl⟩ := toy_deletes h
      exact if_pos rfl)

/-- All seven calls are completed. -/
example : (run toyStore toyCompare toySchedule World.init).1.map (fun d => d.1) = [1, 1, 0, 1, 0, 1, 0] := by
  rfl

example : (run toyStore toyCompare
    [.start 0 (.insert row1), .start 1 (.insert row1), .finish 0, .finish 1] World.init).1 =
      [(0, .insert row1, .out (.done (.ok ()))), (1, .insert row1, .integrityError)] :=
  C141_refuted_insert toyStore toyCompare row1 row1 (by unfold Model.fits; decide)
    (by unfold Model.fits; decide) rfl

example : (run toyStore toyCompare [.start 0 (.insert row1), .finish 0,
      .start 0 (.insert { row1 with results := [4] }), .start 1 (.delete toyEngine row1.query),
      .finish 1, .finish 0] World.init).2 = World.init :=
  congrArg Prod.snd (C141_refuted_update toyStore toyCompare toyEngine row1
    { row1 with results := [4] } (by unfold Model.fits; decide) (by unfold Model.fits; decide) rfl
    (by decide))

example : ¬ ∃ s, SpecRun toyStore.codec.fmt.round32 State.empty
      ((calls (run toyStore toyCompare
        (crossing toyEngine row1 { row1 with experimentId := 9 }) World.init).1).map Prod.fst)
      ((calls (run toyStore toyCompare
        (crossing toyEngine row1 { row1 with experimentId := 9 }) World.init).1).map Prod.snd) s ∧
      Represents toyStore (run toyStore toyCompare
        (crossing toyEngine row1 { row1 with experimentId := 9 }) World.init).2.db s :=
  (C141_refuted_serial toyStore toyCompare toyEngine row1 { row1 with experimentId := 9 }
    (by unfold Model.fits; decide) (by unfold Model.fits; decide) rfl (by decide)).2 _ (.refl _)

example : ¬ ∃ s, SpecRun toyStore.codec.fmt.round32 State.empty
      ((calls (run toyStore toyCompare (overtaken toyEngine 10 2 { row1 with results := [3] }
        { row1 with results := [4] } row2) World.init).1).map Prod.fst)
      ((calls (run toyStore toyCompare (overtaken toyEngine 10 2 { row1 with results := [3] }
        { row1 with results := [4] } row2) World.init).1).map Prod.snd) s ∧
      Represents toyStore (run toyStore toyCompare (overtaken toyEngine 10 2 { row1 with results := [3] }
        { row1 with results := [4] } row2) World.init).2.db s :=
  (C141_refuted_batch toyStore toyCompare toyEngine 10 2 { row1 with results := [3] }
    { row1 with results := [4] } row2 (by unfold Model.fits; decide) (by unfold Model.fits; decide)
    (by unfold Model.fits; decide) rfl (by decide) (by decide) (by decide)
    (by unfold InRange; decide) (by unfold InRange; decide)).2 _ (.refl _)

end Examples

end Pysatl.Props
