import Verif.Spec.Storage
import Verif.Props.Codec
import Verif.Lemmas.Decision
import Mathlib.Data.List.Sort
import Mathlib.Data.List.Nodup
import Mathlib.Data.List.Perm.Basic

/-! # The storage refines the abstract map -/

set_option linter.unusedSectionVars false

namespace Pysatl.Storage

open Pysatl.Codec Pysatl.Decision

variable {N F : Type} (E : Env N F)

@[simp] theorem exec_ofRun {α : Type} (f : DB → Except PyErr α × DB) (db : DB) :
    (ofRun f).exec db = f db := rfl

variable {E}

theorem dumps_injective : Function.Injective E.json.dumps := fun a b h => by
  rw [← E.json.loads_dumps a, h, E.json.loads_dumps]

theorem key_injective {k k' : DKey N} (h : k.key E = k'.key E) : k = k' := by
  simp only [DKey.key, Key.mk.injEq] at h
  obtain ⟨h1, h2, h3, h4, h5⟩ := h
  exact DKey.ext h1 h2 (dumps_injective h3) h4 h5

theorem RowIs.inj {r : Row} {k k' : DKey N} {v v' : List F} (h : RowIs E r k v)
    (h' : RowIs E r k' v') : k = k' ∧ v = v' :=
  ⟨key_injective (h.1.symm.trans h'.1), by
    have := h.2.symm.trans h'.2; simpa using this⟩

/-- The model a row reads as. -/
def modelOf (k : DKey N) (v : List F) : Model N F :=
  ⟨k.experimentId, k.code, k.parameters, k.sampleSize, k.count, v⟩

@[simp] theorem modelOf_dkey (k : DKey N) (v : List F) : (modelOf k v).dkey = k := rfl

theorem RowIs.toModel {r : Row} {k : DKey N} {v : List F} (h : RowIs E r k v) :
    toModel E r = .ok (modelOf k v) := by
  unfold Storage.toModel
  rw [h.2, h.1]
  simp only [DKey.key, E.json.loads_dumps]
  rfl

theorem fromModel_ok {m : Model N F} (h : m.fits) :
    ∃ r, fromModel E m = .ok r ∧ RowIs E r m.dkey (m.results.map E.codec.fmt.round32) := by
  obtain ⟨b, hb, hr⟩ := Props.bindFloats_ok E.codec true h
  have hp : processBindParam E.codec true (.floats m.results) = .ok (.blob b) := by
    simp only [processBindParam, hb]; rfl
  exact ⟨⟨m.dkey.key E, .blob b⟩, by unfold fromModel; rw [hp]; rfl, rfl, hr⟩

theorem fromModel_error {m : Model N F} (h : ¬ m.fits) : fromModel E m = .error .structError := by
  have : ¬ m.results.length < 2 ^ 32 := h
  simp only [fromModel, processBindParam, bindFloats, packU32, if_neg this]
  rfl

theorem Represents.row_key {db : DB} {s : State N F} (h : Represents E db s) {r r' : Row}
    (hr : r ∈ db) (hr' : r' ∈ db) (hk : r.key = r'.key) : r = r' :=
  List.inj_on_of_nodup_map h.nodup hr hr' hk

theorem Represents.ne_none {db : DB} {s : State N F} (h : Represents E db s) (k : DKey N) :
    s k ≠ none ↔ ∃ r ∈ db, r.key = k.key E := by
  constructor
  · intro hk
    obtain ⟨v, hv⟩ := Option.ne_none_iff_exists'.1 hk
    obtain ⟨r, hr, hri⟩ := (h.iff k v).1 hv
    exact ⟨r, hr, hri.1⟩
  · rintro ⟨r, hr, hk⟩
    obtain ⟨k', v, hri⟩ := h.rows r hr
    have : k' = k := key_injective (hri.1.symm.trans hk)
    subst this
    rw [(h.iff k' v).2 ⟨r, hr, hri⟩]
    simp

theorem represents_empty : Represents E [] (State.empty : State N F) :=
  ⟨by simp, by simp, by simp [State.empty]⟩

open Classical in
theorem represents_merge {db : DB} {s : State N F} (h : Represents E db s) {r : Row} {k : DKey N}
    {v : List F} (hr : RowIs E r k v) :
    Represents E (mergeRow db r) (Function.update s k (some v)) := by
  unfold mergeRow
  split
  · rename_i hany
    have hkeys : (db.map (fun x => if x.key = r.key then r else x)).map (·.key) = db.map (·.key) := by
      rw [List.map_map]
      apply List.map_congr_left
      intro x _
      simp only [Function.comp]
      split
      · rename_i hx; exact hx.symm
      · rfl
    refine ⟨by rw [hkeys]; exact h.nodup, ?_, ?_⟩
    · intro x hx
      obtain ⟨y, hy, rfl⟩ := List.mem_map.1 hx
      split
      · exact ⟨k, v, hr⟩
      · exact h.rows y hy
    · intro k' v'
      rw [Function.update_apply]
      split
      · rename_i hkk
        subst hkk
        rw [Option.some.injEq]
        constructor
        · rintro rfl
          obtain ⟨x, hx, hxk⟩ := List.any_eq_true.1 hany
          have hxk' : x.key = r.key := by simpa using hxk
          exact ⟨r, List.mem_map.2 ⟨x, hx, by rw [if_pos hxk']⟩, hr⟩
        · rintro ⟨x, hx, hxi⟩
          obtain ⟨y, hy, rfl⟩ := List.mem_map.1 hx
          split at hxi
          · exact (hr.inj hxi).2
          · rename_i hne
            exact absurd (hxi.1.trans hr.1.symm) hne
      · rename_i hkk
        rw [h.iff]
        constructor
        · rintro ⟨x, hx, hxi⟩
          have hne : x.key ≠ r.key := fun he => hkk (key_injective (hxi.1.symm.trans (he.trans hr.1)))
          exact ⟨x, List.mem_map.2 ⟨x, hx, by rw [if_neg hne]⟩, hxi⟩
        · rintro ⟨x, hx, hxi⟩
          obtain ⟨y, hy, rfl⟩ := List.mem_map.1 hx
          split at hxi
          · exact absurd (hr.inj hxi).1.symm hkk
          · exact ⟨y, hy, hxi⟩
  · rename_i hany
    have hnew : ∀ x ∈ db, x.key ≠ r.key := by
      intro x hx he
      apply hany
      rw [List.any_eq_true]
      exact ⟨x, hx, by simpa using he⟩
    refine ⟨?_, ?_, ?_⟩
    · rw [List.map_append, List.nodup_append]
      refine ⟨h.nodup, by simp, ?_⟩
      intro a ha b hb
      obtain ⟨x, hx, rfl⟩ := List.mem_map.1 ha
      simp only [List.map_cons, List.map_nil, List.mem_singleton] at hb
      subst hb
      exact hnew x hx
    · intro x hx
      rcases List.mem_append.1 hx with hx | hx
      · exact h.rows x hx
      · rw [List.mem_singleton] at hx; subst hx; exact ⟨k, v, hr⟩
    · intro k' v'
      rw [Function.update_apply]
      split
      · rename_i hkk
        subst hkk
        rw [Option.some.injEq]
        constructor
        · rintro rfl
          exact ⟨r, by simp, hr⟩
        · rintro ⟨x, hx, hxi⟩
          rcases List.mem_append.1 hx with hx | hx
          · exact absurd (hxi.1.trans hr.1.symm) (hnew x hx)
          · rw [List.mem_singleton] at hx; subst hx; exact (hr.inj hxi).2
      · rename_i hkk
        rw [h.iff]
        constructor
        · rintro ⟨x, hx, hxi⟩
          exact ⟨x, List.mem_append_left _ hx, hxi⟩
        · rintro ⟨x, hx, hxi⟩
          rcases List.mem_append.1 hx with hx | hx
          · exact ⟨x, hx, hxi⟩
          · rw [List.mem_singleton] at hx; subst hx; exact absurd (hr.inj hxi).1.symm hkk

/-! ### Writing -/

theorem runSteps_merges (ms : List (Model N F)) (durable pending : DB) (s : State N F)
    (h : Represents E pending s) (rest : List (Step N F)) :
    ((∀ m ∈ ms, m.fits) → ∃ pending', Represents E pending' (ms.foldl (State.put E.codec.fmt.round32) s) ∧
      runSteps E (ms.map .merge ++ rest) ⟨durable, pending⟩ = runSteps E rest ⟨durable, pending'⟩) ∧
    (¬ (∀ m ∈ ms, m.fits) →
      runSteps E (ms.map .merge ++ rest) ⟨durable, pending⟩ = (.error .structError, durable)) := by
  induction ms generalizing pending s with
  | nil => exact ⟨fun _ => ⟨pending, h, rfl⟩, fun hn => absurd (by simp) hn⟩
  | cons m ms ih =>
    by_cases hm : m.fits
    · obtain ⟨r, hr, hri⟩ := fromModel_ok (E := E) hm
      have hstep : runSteps E ((m :: ms).map .merge ++ rest) ⟨durable, pending⟩ =
          runSteps E (ms.map .merge ++ rest) ⟨durable, mergeRow pending r⟩ := by
        simp only [List.map_cons, List.cons_append, runSteps, Step.run, hr]
        rfl
      have := ih (mergeRow pending r) _ (represents_merge h hri)
      rw [hstep]
      refine ⟨fun hall => ?_, fun hn => ?_⟩
      · obtain ⟨p, hp, he⟩ := this.1 (fun x hx => hall x (by simp [hx]))
        exact ⟨p, hp, he⟩
      · apply this.2
        intro hall
        apply hn
        intro x hx
        rcases List.mem_cons.1 hx with rfl | hx
        · exact hm
        · exact hall x hx
    · refine ⟨fun hall => absurd (hall m (by simp)) hm, fun _ => ?_⟩
      simp only [List.map_cons, List.cons_append, runSteps, Step.run, fromModel_error hm]
      rfl

theorem insertBulk_spec {db : DB} {s : State N F} (h : Represents E db s) (ms : List (Model N F)) :
    ∃ s', PutAllSpec E.codec.fmt.round32 s ms ((insertBulkData E ms).exec db).1 s' ∧
      Represents E ((insertBulkData E ms).exec db).2 s' := by
  unfold insertBulkData insertBulkSteps PutAllSpec
  rw [exec_ofRun]
  rcases ms with _ | ⟨m, ms⟩
  · exact ⟨s, by simp [runSteps], by simpa [runSteps] using h⟩
  · simp only [List.isEmpty_cons, Bool.false_eq_true, if_false]
    have := runSteps_merges (m :: ms) db db s h [.commit]
    by_cases hall : ∀ x ∈ m :: ms, x.fits
    · obtain ⟨p, hp, he⟩ := this.1 hall
      rw [he]
      exact ⟨_, by rw [if_pos hall]; exact ⟨rfl, rfl⟩, hp⟩
    · rw [this.2 hall]
      exact ⟨s, by rw [if_neg hall]; exact ⟨rfl, rfl⟩, h⟩

theorem insert_spec {db : DB} {s : State N F} (h : Represents E db s) (m : Model N F) :
    ∃ s', PutAllSpec E.codec.fmt.round32 s [m] ((insertData E m).exec db).1 s' ∧
      Represents E ((insertData E m).exec db).2 s' :=
  insertBulk_spec h [m]

/-! ### Reading -/

theorem mapM_toModel {db : DB} {s : State N F} (h : Represents E db s) :
    ∃ g : Row → Model N F,
      (∀ r ∈ db, ∃ k v, RowIs E r k v ∧ g r = modelOf k v) ∧
      (∀ r ∈ db, toModel E r = .ok (g r)) ∧
      ∀ l : List Row, (∀ r ∈ l, r ∈ db) → l.mapM (toModel E) = .ok (l.map g) := by
  classical
  let g : Row → Model N F := fun r => match toModel E r with
    | .ok m => m
    | .error _ => ⟨0, "", [], 0, 0, []⟩
  have hg : ∀ r ∈ db, toModel E r = .ok (g r) := by
    intro r hr
    obtain ⟨k, v, hri⟩ := h.rows r hr
    simp only [g, hri.toModel]
  refine ⟨g, ?_, hg, ?_⟩
  · intro r hr
    obtain ⟨k, v, hri⟩ := h.rows r hr
    exact ⟨k, v, hri, by simp only [g, hri.toModel]⟩
  · intro l hl
    induction l with
    | nil => rfl
    | cons r l ih =>
      rw [List.mapM_cons, hg r (hl r (by simp)), ih (fun x hx => hl x (by simp [hx]))]
      rfl

theorem holds_iff (q : Query N) (r : Row) :
    q.holds E r = true ↔ r.key = (q.at r.key.experimentId).key E := by
  unfold Query.holds Query.at DKey.key
  obtain ⟨⟨i, c, p, n, b⟩, res⟩ := r
  simp

theorem holds_of_key {q : Query N} {r : Row} {id : ℤ} (h : r.key = (q.at id).key E) :
    q.holds E r = true ∧ r.key.experimentId = id := by
  have : r.key.experimentId = id := by rw [h]; rfl
  exact ⟨(holds_iff q r).2 (by rw [this]; exact h), this⟩

/-- The rows matched by a query, in the engine's order. -/
theorem matched_cases {db : DB} {s : State N F} (h : Represents E db s) (eng : Engine) (q : Query N) :
    (eng.order (db.filter (q.holds E)) = [] ∧ ∀ id, s (q.at id) = none) ∨
    (∃ r ∈ db, eng.order (db.filter (q.holds E)) = [r] ∧ q.holds E r = true ∧
      ∀ id, s (q.at id) ≠ none → id = r.key.experimentId) ∨
    (∃ r r' rest, eng.order (db.filter (q.holds E)) = r :: r' :: rest ∧
      ∃ id id', id ≠ id' ∧ s (q.at id) ≠ none ∧ s (q.at id') ≠ none) := by
  have hperm := eng.perm (db.filter (q.holds E))
  have hmem : ∀ r, r ∈ eng.order (db.filter (q.holds E)) ↔ r ∈ db ∧ q.holds E r = true := by
    intro r; rw [hperm.mem_iff, List.mem_filter]
  have hnd : (eng.order (db.filter (q.holds E))).Nodup :=
    hperm.nodup_iff.2 (List.Nodup.filter _ (List.Nodup.of_map _ h.nodup))
  generalize hl : eng.order (db.filter (q.holds E)) = l at hmem hnd
  rcases l with _ | ⟨r, _ | ⟨r', rest⟩⟩
  · left
    refine ⟨rfl, fun id => ?_⟩
    by_contra hne
    obtain ⟨r, hr, hk⟩ := (h.ne_none _).1 hne
    have := (hmem r).2 ⟨hr, (holds_of_key hk).1⟩
    simp at this
  · right; left
    have hr := (hmem r).1 (by simp)
    refine ⟨r, hr.1, rfl, hr.2, fun id hid => ?_⟩
    obtain ⟨x, hx, hk⟩ := (h.ne_none _).1 hid
    have hx' := (hmem x).2 ⟨hx, (holds_of_key hk).1⟩
    rw [List.mem_singleton] at hx'
    subst hx'
    exact (holds_of_key hk).2.symm
  · right; right
    have hr := (hmem r).1 (by simp)
    have hr' := (hmem r').1 (by simp)
    have hne : r ≠ r' := by
      intro he
      subst he
      simp at hnd
    refine ⟨r, r', rest, rfl, r.key.experimentId, r'.key.experimentId, ?_, ?_, ?_⟩
    · intro he
      apply hne
      apply h.row_key hr.1 hr'.1
      rw [(holds_iff q r).1 hr.2, (holds_iff q r').1 hr'.2, he]
    · exact (h.ne_none _).2 ⟨r, hr.1, (holds_iff q r).1 hr.2⟩
    · exact (h.ne_none _).2 ⟨r', hr'.1, (holds_iff q r').1 hr'.2⟩

theorem get_spec {db : DB} {s : State N F} (h : Represents E db s) (eng : Engine) (q : Query N) :
    GetSpec s q ((getData E eng q).exec db).1 ∧ ((getData E eng q).exec db).2 = db := by
  unfold getData
  rw [exec_ofRun]
  refine ⟨?_, rfl⟩
  obtain ⟨g, hg, -, hmap⟩ := mapM_toModel h
  have hsub : ∀ r ∈ eng.order (db.filter (q.holds E)), r ∈ db := by
    intro r hr
    exact (List.mem_filter.1 ((eng.perm _).mem_iff.1 hr)).1
  dsimp only
  rw [hmap _ hsub]
  rcases matched_cases h eng q with ⟨hl, hn⟩ | ⟨r, hr, hl, hq, hu⟩ | ⟨r, r', rest, hl, hids⟩
  · rw [hl]; exact hn
  · rw [hl]
    obtain ⟨k, v, hri, hgr⟩ := hg r hr
    have hk : k = q.at r.key.experimentId := key_injective (hri.1.symm.trans ((holds_iff q r).1 hq))
    simp only [List.map_cons, List.map_nil, hgr]
    have hkid : r.key.experimentId = k.experimentId := by rw [hri.1]; rfl
    refine ⟨(h.iff _ _).2 ⟨r, hr, hri⟩, ?_, fun id hid => (hu id hid).trans hkid⟩
    show k = q.at k.experimentId
    rw [← hkid]; exact hk
  · rw [hl]
    exact ⟨rfl, hids⟩

open Classical in
theorem delete_spec {db : DB} {s : State N F} (h : Represents E db s) (eng : Engine) (q : Query N) :
    ∃ s', DeleteSpec s q ((deleteData E eng q).exec db).1 s' ∧
      Represents E ((deleteData E eng q).exec db).2 s' := by
  unfold deleteData
  rw [exec_ofRun]
  rcases matched_cases h eng q with ⟨hl, hn⟩ | ⟨r, hr, hl, hq, hu⟩ | ⟨r, r', rest, hl, hids⟩
  · rw [hl]; exact ⟨s, Or.inl ⟨hn, rfl⟩, h⟩
  · rw [hl]
    have hk := (holds_iff q r).1 hq
    refine ⟨Function.update s (q.at r.key.experimentId) none,
      Or.inr ⟨r.key.experimentId, (h.ne_none _).2 ⟨r, hr, hk⟩, hu, rfl⟩, ?_, ?_, ?_⟩
    · exact (List.filter_sublist.map _).nodup h.nodup
    · intro x hx
      exact h.rows x (List.mem_filter.1 hx).1
    · intro k v
      rw [Function.update_apply]
      split
      · rename_i hkk
        subst hkk
        constructor
        · intro h'; cases h'
        · rintro ⟨x, hx, hxi⟩
          have := (List.mem_filter.1 hx).2
          simp only [ne_eq, decide_not, Bool.not_eq_eq_eq_not, Bool.not_true, decide_eq_false_iff_not] at this
          exact absurd (hxi.1.trans hk.symm) this
      · rename_i hkk
        rw [h.iff]
        constructor
        · rintro ⟨x, hx, hxi⟩
          refine ⟨x, List.mem_filter.2 ⟨hx, ?_⟩, hxi⟩
          simp only [ne_eq, decide_not, Bool.not_eq_eq_eq_not, Bool.not_true, decide_eq_false_iff_not]
          intro he
          exact hkk (key_injective (hxi.1.symm.trans (he.trans hk)))
        · rintro ⟨x, hx, hxi⟩
          exact ⟨x, (List.mem_filter.1 hx).1, hxi⟩
  · rw [hl]
    exact ⟨s, ⟨rfl, rfl, hids⟩, h⟩

theorem cv_spec {db : DB} {s : State N F} (h : Represents E db s) (eng : Engine) (q : CvQuery) :
    CvSpec s q ((getDataForCv E eng q).exec db).1 ∧ ((getDataForCv E eng q).exec db).2 = db := by
  unfold getDataForCv
  rw [exec_ofRun]
  refine ⟨?_, rfl⟩
  dsimp only
  set P : Row → Bool := fun r => decide (r.key.code = q.code ∧ r.key.sampleSize = q.sampleSize) with hP
  set le : Row → Row → Prop := fun a b => b.key.count ≤ a.key.count with hle
  haveI : Std.Total le := ⟨fun a b => (le_total b.key.count a.key.count)⟩
  haveI : IsTrans Row le := ⟨fun a b c h1 h2 => le_trans h2 h1⟩
  have hsorted := List.pairwise_insertionSort le (eng.order (db.filter P))
  have hmem : ∀ r, r ∈ (eng.order (db.filter P)).insertionSort le ↔ r ∈ db ∧ P r = true := by
    intro r
    rw [(List.perm_insertionSort le _).mem_iff, (eng.perm _).mem_iff, List.mem_filter]
  have hkey : ∀ k : DKey N, k.code = q.code → k.sampleSize = q.sampleSize → s k ≠ none →
      ∃ r ∈ (eng.order (db.filter P)).insertionSort le, r.key.count = k.count := by
    intro k h1 h2 hk
    obtain ⟨r, hr, hrk⟩ := (h.ne_none _).1 hk
    exact ⟨r, (hmem r).2 ⟨hr, by simp [hP, hrk, DKey.key, h1, h2]⟩, by rw [hrk]; rfl⟩
  generalize (eng.order (db.filter P)).insertionSort le = l at hsorted hmem hkey
  rcases l with _ | ⟨r, rest⟩
  · intro k h1 h2
    by_contra hk
    obtain ⟨r, hr, -⟩ := hkey k h1 h2 hk
    simp at hr
  · have hr := (hmem r).1 (by simp)
    obtain ⟨k, v, hri⟩ := h.rows r hr.1
    simp only [List.head?_cons, hri.toModel]
    have hPr := hr.2
    simp only [hP, decide_eq_true_eq, hri.1] at hPr
    refine ⟨(h.iff _ _).2 ⟨r, hr.1, hri⟩, hPr.1, hPr.2, ?_⟩
    intro k' h1 h2 hk'
    obtain ⟨r', hr', hc⟩ := hkey k' h1 h2 hk'
    rw [← hc]
    have hrc : r.key.count = k.count := by rw [hri.1]; rfl
    show _ ≤ k.count
    rw [← hrc]
    rcases List.mem_cons.1 hr' with rfl | hr'
    · exact le_rfl
    · exact (List.pairwise_cons.1 hsorted).1 r' hr'

/-! ### The loop of `get_bulk_data` -/

theorem lookup_some {β : Type} {l : List (String × β)} {c : String} {b : β} (h : l.lookup c = some b) :
    (c, b) ∈ l := by
  induction l with
  | nil => simp at h
  | cons e l ih =>
    obtain ⟨c', b'⟩ := e
    rw [List.lookup_cons] at h
    split at h
    · rename_i hc
      have : c = c' := by simpa using hc
      simp only [Option.some.injEq] at h
      subst this; subst h; simp
    · exact List.mem_cons_of_mem _ (ih h)

theorem lookup_none {β : Type} {l : List (String × β)} {c : String} (h : l.lookup c = none) :
    ∀ e ∈ l, e.1 ≠ c := by
  induction l with
  | nil => simp
  | cons e l ih =>
    obtain ⟨c', b'⟩ := e
    rw [List.lookup_cons] at h
    split at h
    · cases h
    · rename_i hc
      intro e he
      rcases List.mem_cons.1 he with rfl | he
      · intro hcc
        simp only at hcc
        subst hcc
        simp at hc
      · exact ih h e he

/-- What the dictionary holds after reading some models. -/
structure BestOf (seen : List (Model N F)) (best : List (String × Model N F)) : Prop where
  nodup : (best.map Prod.fst).Nodup
  code : ∀ e ∈ best, e.2.code = e.1
  mem : ∀ e ∈ best, e.2 ∈ seen
  max : ∀ e ∈ best, ∀ m ∈ seen, m.code = e.1 → m.count ≤ e.2.count
  all : ∀ m ∈ seen, ∃ e ∈ best, e.1 = m.code

theorem bestStep_spec {seen : List (Model N F)} {best : List (String × Model N F)}
    (h : BestOf seen best) (m : Model N F) : BestOf (seen ++ [m]) (bestStep best m) := by
  unfold bestStep
  split
  · rename_i hl
    have hnew := lookup_none hl
    refine ⟨?_, ?_, ?_, ?_, ?_⟩
    · rw [List.map_append, List.nodup_append]
      refine ⟨h.nodup, by simp, ?_⟩
      intro a ha b hb
      obtain ⟨e, he, rfl⟩ := List.mem_map.1 ha
      simp only [List.map_cons, List.map_nil, List.mem_singleton] at hb
      subst hb
      exact hnew e he
    · intro e he
      rcases List.mem_append.1 he with he | he
      · exact h.code e he
      · rw [List.mem_singleton] at he; subst he; rfl
    · intro e he
      rcases List.mem_append.1 he with he | he
      · exact List.mem_append_left _ (h.mem e he)
      · rw [List.mem_singleton] at he; subst he; simp
    · intro e he x hx hc
      rcases List.mem_append.1 he with he1 | he
      · rcases List.mem_append.1 hx with hx | hx
        · exact h.max e he1 x hx hc
        · rw [List.mem_singleton] at hx; subst hx; exact absurd hc.symm (hnew e he1)
      · rw [List.mem_singleton] at he; subst he
        rcases List.mem_append.1 hx with hx | hx
        · obtain ⟨e', he', hce'⟩ := h.all x hx
          exact absurd (hce'.trans hc) (hnew e' he')
        · rw [List.mem_singleton] at hx; subst hx; exact le_rfl
    · intro x hx
      rcases List.mem_append.1 hx with hx | hx
      · obtain ⟨e, he, hc⟩ := h.all x hx
        exact ⟨e, List.mem_append_left _ he, hc⟩
      · rw [List.mem_singleton] at hx; subst hx; exact ⟨(x.code, x), by simp, rfl⟩
  · rename_i b hl
    have hb := lookup_some hl
    have hbu : ∀ e ∈ best, e.1 = m.code → e = (m.code, b) := fun e he hc =>
      List.inj_on_of_nodup_map h.nodup he hb hc
    split
    · rename_i hgt
      have hkeys : (best.map (fun e => if e.1 = m.code then (m.code, m) else e)).map Prod.fst =
          best.map Prod.fst := by
        rw [List.map_map]
        apply List.map_congr_left
        intro e _
        simp only [Function.comp]
        split
        · rename_i hc; exact hc.symm
        · rfl
      refine ⟨by rw [hkeys]; exact h.nodup, ?_, ?_, ?_, ?_⟩
      · intro e he
        obtain ⟨e', he', rfl⟩ := List.mem_map.1 he
        split
        · rfl
        · exact h.code e' he'
      · intro e he
        obtain ⟨e', he', rfl⟩ := List.mem_map.1 he
        split
        · simp
        · exact List.mem_append_left _ (h.mem e' he')
      · intro e he x hx hc
        obtain ⟨e', he', rfl⟩ := List.mem_map.1 he
        split at hc
        · rename_i hce
          rw [if_pos hce]
          rcases List.mem_append.1 hx with hx | hx
          · have := h.max (m.code, b) hb x hx hc
            simp only at this ⊢
            omega
          · rw [List.mem_singleton] at hx; subst hx; exact le_rfl
        · rename_i hce
          rw [if_neg hce]
          rcases List.mem_append.1 hx with hx | hx
          · exact h.max e' he' x hx hc
          · rw [List.mem_singleton] at hx; subst hx; exact absurd hc.symm hce
      · intro x hx
        have : ∃ e ∈ best, e.1 = x.code := by
          rcases List.mem_append.1 hx with hx | hx
          · exact h.all x hx
          · rw [List.mem_singleton] at hx; subst hx; exact ⟨_, hb, rfl⟩
        obtain ⟨e, he, hc⟩ := this
        refine ⟨_, List.mem_map.2 ⟨e, he, rfl⟩, ?_⟩
        split
        · rename_i hce; rw [← hc]; exact hce.symm
        · exact hc
    · rename_i hngt
      refine ⟨h.nodup, h.code, fun e he => List.mem_append_left _ (h.mem e he), ?_, ?_⟩
      · intro e he x hx hc
        rcases List.mem_append.1 hx with hx | hx
        · exact h.max e he x hx hc
        · rw [List.mem_singleton] at hx
          subst hx
          rw [hbu e he hc.symm]
          simp only
          omega
      · intro x hx
        rcases List.mem_append.1 hx with hx | hx
        · exact h.all x hx
        · rw [List.mem_singleton] at hx; subst hx; exact ⟨_, hb, rfl⟩

theorem bestFold_spec (ms seen : List (Model N F)) (best : List (String × Model N F))
    (h : BestOf seen best) : BestOf (seen ++ ms) (ms.foldl bestStep best) := by
  induction ms generalizing seen best with
  | nil => simpa using h
  | cons m ms ih =>
    have := ih (seen ++ [m]) (bestStep best m) (bestStep_spec h m)
    simpa using this

theorem bulk_spec {db : DB} {s : State N F} (h : Represents E db s) (eng : Engine)
    (codes : List String) (size err : ℤ) :
    BulkSpec s codes size err ((getBulkData E eng codes size err).exec db).1 ∧
      ((getBulkData E eng codes size err).exec db).2 = db := by
  unfold getBulkData
  rw [exec_ofRun]
  refine ⟨?_, rfl⟩
  dsimp only
  set P : Row → Bool := fun r => decide (r.key.code ∈ codes ∧ size - err ≤ r.key.sampleSize ∧
    r.key.sampleSize ≤ size + err) with hP
  obtain ⟨g, hg, -, hmap⟩ := mapM_toModel h
  have hmem : ∀ r, r ∈ eng.order (db.filter P) ↔ r ∈ db ∧ P r = true := by
    intro r; rw [(eng.perm _).mem_iff, List.mem_filter]
  rw [hmap _ (fun r hr => ((hmem r).1 hr).1)]
  have hb := bestFold_spec ((eng.order (db.filter P)).map g) [] []
    ⟨by simp, by simp, by simp, by simp, by simp⟩
  rw [List.nil_append] at hb
  set best := ((eng.order (db.filter P)).map g).foldl bestStep [] with hbest
  have hkey : ∀ k : DKey N, k.code ∈ codes → InRange size err k → s k ≠ none →
      ∃ m ∈ (eng.order (db.filter P)).map g, m.dkey = k := by
    intro k hc hrg hk
    obtain ⟨r, hr, hrk⟩ := (h.ne_none _).1 hk
    obtain ⟨k', v, hri, hgr⟩ := hg r hr
    have : k' = k := key_injective (hri.1.symm.trans hrk)
    subst this
    refine ⟨g r, List.mem_map.2 ⟨r, (hmem r).2 ⟨hr, ?_⟩, rfl⟩, by rw [hgr]; rfl⟩
    simp only [hP, decide_eq_true_eq, hrk, DKey.key]
    exact ⟨hc, hrg.1, hrg.2⟩
  have hseen : ∀ m ∈ (eng.order (db.filter P)).map g, s m.dkey = some m.results ∧ m.code ∈ codes ∧
      InRange size err m.dkey := by
    intro m hm
    obtain ⟨r, hr, rfl⟩ := List.mem_map.1 hm
    have hr' := (hmem r).1 hr
    obtain ⟨k, v, hri, hgr⟩ := hg r hr'.1
    have hPr := hr'.2
    simp only [hP, decide_eq_true_eq, hri.1, DKey.key] at hPr
    rw [hgr]
    exact ⟨(h.iff _ _).2 ⟨r, hr'.1, hri⟩, hPr.1, hPr.2⟩
  refine ⟨?_, ?_, ?_⟩
  · have : (best.map Prod.snd).map (·.code) = best.map Prod.fst := by
      rw [List.map_map]
      apply List.map_congr_left
      intro e he
      exact hb.code e he
    rw [this]; exact hb.nodup
  · intro m hm
    obtain ⟨e, he, rfl⟩ := List.mem_map.1 hm
    obtain ⟨h1, h2, h3⟩ := hseen _ (hb.mem e he)
    refine ⟨h1, h2, h3, ?_⟩
    intro k hc hrg hk
    obtain ⟨m', hm', hk'⟩ := hkey k (by rw [hc]; exact h2) hrg hk
    have := hb.max e he m' hm' (by rw [← hb.code e he, ← hc, ← hk']; rfl)
    rw [← hk']; exact this
  · intro k hc hrg hk
    obtain ⟨m', hm', hk'⟩ := hkey k hc hrg hk
    obtain ⟨e, he, hec⟩ := hb.all m' hm'
    exact ⟨e.2, List.mem_map.2 ⟨e, he, rfl⟩, by rw [hb.code e he, hec, ← hk']; rfl⟩

/-! ### Simulation -/

theorem step_simulates {db : DB} {s : State N F} (h : Represents E db s) (op : Op N F) :
    ∃ s', SpecStep E.codec.fmt.round32 s op (op.exec E db).1 s' ∧
      Represents E (op.exec E db).2 s' := by
  cases op with
  | insert m => exact insert_spec h m
  | insertBulk ms => exact insertBulk_spec h ms
  | delete eng q => exact delete_spec h eng q
  | get eng q =>
    obtain ⟨h1, h2⟩ := get_spec h eng q
    refine ⟨s, ⟨h1, rfl⟩, ?_⟩
    show Represents E ((getData E eng q).exec db).2 s
    rw [h2]; exact h
  | getForCv eng q =>
    obtain ⟨h1, h2⟩ := cv_spec h eng q
    refine ⟨s, ⟨h1, rfl⟩, ?_⟩
    show Represents E ((getDataForCv E eng q).exec db).2 s
    rw [h2]; exact h
  | getBulk eng codes size err =>
    obtain ⟨h1, h2⟩ := bulk_spec h eng codes size err
    refine ⟨s, ⟨h1, rfl⟩, ?_⟩
    show Represents E ((getBulkData E eng codes size err).exec db).2 s
    rw [h2]; exact h

theorem history_simulates {db : DB} {s : State N F} (h : Represents E db s) (ops : List (Op N F)) :
    ∃ s', SpecRun E.codec.fmt.round32 s ops (runHistory E ops db).1 s' ∧
      Represents E (runHistory E ops db).2 s' := by
  induction ops generalizing db s with
  | nil => exact ⟨s, .nil s, h⟩
  | cons op ops ih =>
    obtain ⟨s', h1, h2⟩ := step_simulates h op
    obtain ⟨s'', h3, h4⟩ := ih h2
    exact ⟨s'', .cons h1 h3, h4⟩

end Pysatl.Storage
