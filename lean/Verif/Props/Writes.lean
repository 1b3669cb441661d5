import Verif.WriteTheorems
import Verif.UpsertSorted
/- C11-C18, C22, C53, C60: the write calls of a table. -/
namespace Bond
open Spec
variable {T F : Type}

/-! ## C11 Insert makes exactly the given rows appear -/

/-- C11 (effect). A successful Insert of rows with pairwise different primary keys: the table then holds the old rows
plus exactly the given ones, indexes included, and all other keys of the database are unchanged. -/
theorem C11_effect {t : Table T F} (wf : t.WF) {env : Env T} (ok : env.OK t) (fs : t.FilterSound)
    {db : KV} {f : F} {m : Rows T} {trs : List T} (hH : Holds t db m) (hF : FilterCovers t f m)
    (hnd : (trs.map t.pk).Nodup) (he : (t.insert env db f none trs).err = none) :
    ∃ m', Holds t (t.insert env db f none trs).db m' ∧ (∀ x ∈ trs, m' (t.pk x) = some x) ∧
      (∀ p, p ∉ trs.map t.pk → m' p = m p) ∧ SameOutside t db (t.insert env db f none trs).db ∧
      FilterCovers t (t.insert env db f none trs).filt m' := by
  obtain ⟨a, b, c, _, _⟩ := insert_view wf ok fs (by decide) (ob := none) hH hF (callReads_none (Or.inl hnd)) he
  have hv : (t.insert env db f none trs).view = (t.insert env db f none trs).db := by
    unfold WOut.view; rw [show (t.insert env db f none trs).batch = none from finish_nobatch]; rfl
  rw [show Table.insertBs persistentBatchSize t env db f none trs = t.insert env db f none trs from rfl, hv] at a b
  refine ⟨_, a, fun x hx => putAll_mem m t.pk hnd hx, ?_, b, c⟩
  intro p hp
  apply putAll_other
  intro x hx e
  exact hp (e ▸ List.mem_map.2 ⟨x, hx, rfl⟩)

/-- the theorem at two new rows given out of order -/
example := C11_effect exTable_wf (stdEnv_ok exTable) exTable_fs (f := ()) (trs := [(2, 5), (1, 6)]) (holds_empty exTable)
  (covers_nofilter rfl _ _) (by decide) (by decide)

/-- C11 (success). If the context is not cancelled, commits succeed and the rows can be serialized, Insert of rows with
pairwise different keys succeeds iff none of the keys was present. -/
theorem C11_success {t : Table T F} (wf : t.WF) {env : Env T} (ok : env.OK t) (fs : t.FilterSound)
    {db : KV} {f : F} {m : Rows T} {trs : List T} (hH : Holds t db m) (hF : FilterCovers t f m)
    (hnd : (trs.map t.pk).Nodup) (hdone : ∀ n, env.done n = false) (hc : env.commitOk = true)
    (hser : ∀ x ∈ trs, (t.ser x).isSome) :
    (t.insert env db f none trs).err = none ↔ ∀ x ∈ trs, m (t.pk x) = none :=
  ⟨fun he => (insert_view wf ok fs (by decide) (ob := none) hH hF (callReads_none (Or.inl hnd)) he).2.2.2.2,
   fun habs => insert_complete wf ok fs (by decide) (ob := none) hH hF (callReads_none (Or.inl hnd)) hdone hc hser hnd habs⟩

/-- the theorem at two new rows: the call succeeds because the rows are absent -/
example : (exTable.insert (stdEnv exTable) KV.empty () none [(2, 5), (1, 6)]).err = none :=
  (C11_success exTable_wf (stdEnv_ok exTable) exTable_fs (holds_empty exTable) (covers_nofilter rfl _ _) (by decide)
    (fun _ => rfl) rfl (fun _ _ => rfl)).2 (fun _ _ => rfl)

/-- C11 through a batch: the same, for what is read through the batch. -/
theorem C11_batch {t : Table T F} (wf : t.WF) {env : Env T} (ok : env.OK t) (fs : t.FilterSound)
    {db : KV} {f : F} {m : Rows T} {b : Batch} (hb : b.indexed = true) {trs : List T} (hH : Holds t (db.apply b.ops) m)
    (hF : FilterCovers t f m) (he : (t.insert env db f (some b) trs).err = none) :
    ∃ b', (t.insert env db f (some b) trs).batch = some b' ∧ (t.insert env db f (some b) trs).db = db ∧
      Holds t (db.apply b'.ops) (m.putAll t.pk trs) ∧ (trs.map t.pk).Nodup ∧ ∀ x ∈ trs, m (t.pk x) = none := by
  obtain ⟨a, _, _, d, e⟩ := insert_view wf ok fs (by decide) (bs := persistentBatchSize) (ob := some b) hH hF
    (Or.inl ⟨b, rfl, hb⟩) he
  exact ⟨_, rfl, rfl, a, d, e⟩

/-- a concrete case of C11: two rows into an empty table -/
example : (exTable.insert (stdEnv exTable) KV.empty () none [(2, 5), (1, 6)]).err = none ∧
    Holds exTable KV.empty (fun _ => none) ∧ (([(2, 5), (1, 6)] : List Rec).map exTable.pk).Nodup ∧
    (exTable.insert (stdEnv exTable) KV.empty () none [(2, 5), (1, 6)]).db.get (dataKey 7 [1]) = some [1, 6] :=
  ⟨by decide, holds_empty _, by decide, by decide⟩

/-! ## C12 Insert never overwrites -/

theorem insertLoop_stored {t : Table T F} {env : Env T} (fs : t.FilterSound) {R : KV} {lo : Bytes} {trs : List T}
    {items : List (Bytes × Nat)} {rs : List T} (hd : Describes t trs items rs) {m : Rows T} (hH : Holds t R m) :
    ∀ {prev : Option Bytes} {s s' : WSt T F}, FilterCovers t s.filt m → (∀ r ∈ rs, ble lo (t.key r) = true) →
    t.insertLoop env (R.scan lo t.dataKeySpaceEnd) trs prev items s = (s', none) →
    (∀ r ∈ rs, m (t.pk r) = none) ∧ FilterCovers t s'.filt m := by
  induction hd with
  | nil =>
    intro prev s s' hF _ he
    simp only [Table.insertLoop, Prod.mk.injEq, and_true] at he
    subst he
    exact ⟨by simp, hF⟩
  | @cons e r items rs hr hd ih =>
    intro prev s s' hF hlo he
    obtain ⟨key, j⟩ := e
    obtain ⟨hj, hk⟩ := hr
    simp only at hj hk
    subst hk
    rw [Table.insertLoop] at he
    split at he
    · simp at he
    split at he
    · simp at he
    rename_i hnd
    rw [not_or] at hnd
    rw [hj] at he
    simp only at he
    split at he
    · simp at he
    have hseek := seekExact_scan R (hlo r (by simp)) (dataKey_lt_end t (t.pk r))
    have hex := existIter_eq hH hF hseek
    obtain ⟨a, b⟩ := ih (filterCovers_mono fs hF _) (fun y hy => hlo y (by simp [hy])) he
    refine ⟨?_, b⟩
    intro y hy
    rcases List.mem_cons.1 hy with rfl | hy
    · cases hm : m (t.pk y) with
      | none => rfl
      | some x =>
        obtain ⟨v, _, hv⟩ := hH.present _ _ hm
        rw [hv] at hex
        exact absurd (by rw [show t.key y = dataKey t.id (t.pk y) from rfl, hex]; rfl) hnd.2
    · exact a y hy

/-- C12, part 1: for any number of rows, a call containing a stored key fails and changes nothing. -/
theorem C12_stored {t : Table T F} {env : Env T} (ok : env.OK t) (fs : t.FilterSound)
    {db : KV} {f : F} {m : Rows T} {trs : List T} (hH : Holds t db m) (hF : FilterCovers t f m)
    {x : T} (hx : x ∈ trs) (hst : (m (t.pk x)).isSome) :
    (t.insert env db f none trs).err ≠ none ∧ (t.insert env db f none trs).db = db := by
  have h1 : (t.insert env db f none trs).err ≠ none := by
    intro he
    obtain ⟨h1, _⟩ := finish_ok he
    have hx' : x ∈ (batched trs persistentBatchSize).flatten := by rw [batched_flatten trs (by decide)]; exact hx
    have key : ∀ cs (s : WSt T F), FilterCovers t s.filt m → (forChunks (t.insertChunk env db none) cs s).2 = none →
        ∀ r ∈ cs.flatten, m (t.pk r) = none := by
      intro cs
      induction cs with
      | nil => intro s _ _ r hr; simp at hr
      | cons c cs ih =>
        intro s hF he r hr
        rw [forChunks] at he
        split at he
        · rename_i s1 hs1
          obtain ⟨hd, hp⟩ := describes_sort t env ok c
          obtain ⟨a, b⟩ := insertLoop_stored fs hd hH hF (sortedRows_lo t ok c) hs1
          rw [List.flatten_cons, List.mem_append] at hr
          rcases hr with hr | hr
          · exact a r (hp.mem_iff.2 hr)
          · exact ih s1 b he r hr
        · simp at he
    rw [key _ _ hF h1 x hx'] at hst
    simp at hst
  exact ⟨h1, finish_err_db h1⟩

/-- C12, part 2: a call with at most 5000 rows in which a primary key is repeated fails and changes nothing.
Missing for the full C12: repetitions in calls with more than 5000 rows, see `C12_refuted`. -/
theorem C12_partial {t : Table T F} (wf : t.WF) {env : Env T} (ok : env.OK t) (fs : t.FilterSound)
    {db : KV} {f : F} {m : Rows T} {trs : List T} (hH : Holds t db m) (hF : FilterCovers t f m)
    (hlen : trs.length ≤ 5000) (hdup : ¬ (trs.map t.pk).Nodup) :
    (t.insert env db f none trs).err ≠ none ∧ (t.insert env db f none trs).db = db := by
  have h1 : (t.insert env db f none trs).err ≠ none := by
    intro he
    exact hdup (insert_view wf ok fs (by decide) (ob := none) hH hF (callReads_none (Or.inr hlen)) he).2.2.2.1
  exact ⟨h1, finish_err_db h1⟩

example : ¬ (([(1, 5), (1, 6)] : List Rec).map exTable.pk).Nodup ∧
    (exTable.insert (stdEnv exTable) KV.empty () none [(1, 5), (1, 6)]).err = some .alreadyExist := by decide

theorem batched_two {α : Type} (l : List α) (x : α) {bs : Nat} (hl : l.length = bs) (hbs : 0 < bs) :
    batched (l ++ [x]) bs = [l, [x]] := by
  obtain ⟨n, rfl⟩ : ∃ n, bs = n + 1 := ⟨bs - 1, by omega⟩
  have h3 : batchedLoop (l ++ [x]) (n + 1) n 2 = [] := by
    cases n with
    | zero => rfl
    | succ n => rw [batchedLoop, if_neg]; simp [hl]; omega
  have h2 : batchedLoop (l ++ [x]) (n + 1) (n + 1) 1 = [[x]] := by
    rw [batchedLoop, if_pos (by simp [hl])]
    simp only [Nat.one_mul, List.length_append, List.length_singleton, hl]
    rw [h3]
    by_cases hn : n = 0
    · subst hn
      rw [if_neg (by omega), List.take_of_length_le (by simp; omega), List.drop_left' (by omega)]
    · rw [if_pos (by omega), Nat.add_mod_left, Nat.mod_eq_of_lt (by omega),
        List.take_of_length_le (by simp; omega), List.drop_append]
      simp [hl]
  unfold batched
  rw [List.length_append, List.length_singleton, hl, batchedLoop, if_pos (by simp)]
  simp only [Nat.zero_mul, Nat.zero_add, List.drop_zero, List.length_append, List.length_singleton, hl]
  rw [if_neg (by omega), h2, List.take_append_of_le_length (by omega), List.take_of_length_le (by omega)]

/-- The defect behind C12: a full slice of new rows followed by a row repeating one of their keys is accepted. -/
theorem C12_across_slices {t : Table T F} {env : Env T} (ok : env.OK t) {db : KV} {f : F} {bs : Nat} (hbs : 1 < bs)
    {l : List T} {x : T} (hl : l.length = bs) (hnd : (l.map t.pk).Nodup) (habs : ∀ y ∈ l, db.get (t.key y) = none)
    (hxl : t.pk x ∈ l.map t.pk) (hdone : ∀ n, env.done n = false) (hc : env.commitOk = true)
    (hser : ∀ y, (t.ser y).isSome) : (t.insertBs bs env db f none (l ++ [x])).err = none := by
  unfold Table.insertBs
  apply finish_complete _ hc
  rw [batched_two l x hl (by omega)]
  obtain ⟨y, hy, hxy⟩ := List.mem_map.1 hxl
  refine forChunks_complete (P := fun cs _ => ∀ c ∈ cs, (c.map t.pk).Nodup ∧ ∀ z ∈ c, db.get (t.key z) = none) ?_ _ _ ?_
  · intro c cs s hP
    refine ⟨?_, fun d hd => hP d (by simp [hd])⟩
    exact insertChunk_complete ok hdone (fun r _ => hser r) (fun r hr => (hP c (by simp)).2 r hr) (hP c (by simp)).1
  · intro c hc
    simp only [List.mem_cons, List.not_mem_nil, or_false] at hc
    rcases hc with rfl | rfl
    · exact ⟨hnd, habs⟩
    · refine ⟨by simp, ?_⟩
      intro z hz
      simp only [List.mem_singleton] at hz
      subst hz
      rw [← key_inj.2 hxy]
      exact habs y hy

/-- the theorem with slices of two rows: (1,5), (2,6) fill the first slice, (1,7) repeats a key in the second -/
example : (exTable.insertBs 2 (stdEnv exTable) KV.empty () none ([(1, 5), (2, 6)] ++ [(1, 7)])).err = none :=
  C12_across_slices (stdEnv_ok exTable) (by decide) rfl (by decide) (fun _ _ => rfl) (by decide) (fun _ => rfl) rfl (fun _ => rfl)

/-- test table whose n-th record has the n-byte primary key 0…0 -/
def bigTable : Table Nat Unit :=
  { id := 1, pk := fun n => List.replicate n 0, indexes := [], ser := fun n => some (List.replicate n 0)
    deser := fun _ b => some b.length, nil := 0, empty := 0, filter := none, prefetch := 100 }

/-- C12 is false in general: Insert of 5001 rows, the last repeating the first key, succeeds on an empty table. -/
theorem C12_refuted : ¬ ∀ (t : Table Nat Unit) (env : Env Nat) (db : KV) (m : Rows Nat) (trs : List Nat), t.WF → env.OK t →
    Holds t db m → ¬ (trs.map t.pk).Nodup → (t.insert env db () none trs).err ≠ none := by
  intro h
  refine h bigTable (stdEnv bigTable) KV.empty (fun _ => none) (List.range 5000 ++ [0]) ?_ (stdEnv_ok _) (holds_empty _) ?_ ?_
  · exact ⟨by simp [bigTable], by simp [bigTable], by simp [bigTable], by simp [bigTable]⟩
  · rw [List.map_append, List.nodup_append]
    rintro ⟨_, _, h3⟩
    exact h3 (bigTable.pk 0) (List.mem_map.2 ⟨0, by simp, rfl⟩) (bigTable.pk 0) (by simp) rfl
  · apply C12_across_slices (stdEnv_ok _) (bs := persistentBatchSize) (by decide)
    · simp [persistentBatchSize]
    · have hinj : ∀ a b, bigTable.pk a = bigTable.pk b → a = b := by
        intro a b e
        have := congrArg List.length e
        simpa [bigTable] using this
      exact List.Pairwise.map _ (fun a b hne e => hne (hinj a b e)) List.nodup_range
    · intro y _; rfl
    · exact List.mem_map.2 ⟨0, by simp, rfl⟩
    · intro n; rfl
    · rfl
    · intro y; rfl

/-! ## C13 Writes are all-or-nothing -/

/-- C13. Without a batch: a failed call leaves the database unchanged and issues no commit; a successful one issues at most one
commit, which is atomic, so a crash at any point (after any prefix of the commits) leaves either the old or the new
database, and the old one exactly if the call has not reached its end. -/
theorem C13 (t : Table T F) (env : Env T) (db : KV) (f : F) (c : WCall T) :
    let out := t.run env db f none c
    (out.err ≠ none → out.db = db ∧ out.commits = []) ∧
    (out.err = none → out.db = out.commits.foldl KV.apply db) ∧
    (∀ pre, pre <+: out.commits → pre.foldl KV.apply db = db ∨ pre.foldl KV.apply db = out.db ∧ out.err = none) := by
  have hfin : ∀ r : WSt T F × Option Err,
      ((finish env db none r).err ≠ none → (finish env db none r).db = db ∧ (finish env db none r).commits = []) ∧
      ((finish env db none r).err = none → (finish env db none r).db = (finish env db none r).commits.foldl KV.apply db) ∧
      (∀ pre, pre <+: (finish env db none r).commits → pre.foldl KV.apply db = db ∨
        pre.foldl KV.apply db = (finish env db none r).db ∧ (finish env db none r).err = none) := by
    intro r
    have hnil : ∀ pre : List (List WOp), pre <+: [] → pre.foldl KV.apply db = db := by
      intro pre h; rw [List.prefix_nil.1 h]; rfl
    unfold finish
    simp only
    split
    · exact ⟨fun _ => ⟨rfl, rfl⟩, fun h => by simp at h, fun pre h => Or.inl (hnil pre h)⟩
    · split
      · exact ⟨fun h => by simp at h, fun _ => rfl, fun pre h => Or.inl (hnil pre h)⟩
      · split
        · refine ⟨fun h => by simp at h, fun _ => rfl, fun pre h => ?_⟩
          rcases pre with _ | ⟨a, pre⟩
          · exact Or.inl rfl
          · obtain ⟨s, hs⟩ := h
            simp only [List.cons_append, List.cons.injEq, List.append_eq_nil_iff] at hs
            obtain ⟨rfl, rfl, rfl⟩ := hs
            exact Or.inr ⟨rfl, rfl⟩
        · exact ⟨fun _ => ⟨rfl, rfl⟩, fun h => by simp at h, fun pre h => Or.inl (hnil pre h)⟩
  intro out
  simp only [out, Table.run_eq]
  split
  · refine ⟨fun _ => ⟨rfl, rfl⟩, fun h => by simp at h, fun pre h => Or.inl ?_⟩
    rw [List.prefix_nil.1 h]; rfl
  · exact hfin _

/-- a call failing at its second row (after the first row was put into the batch) changes nothing -/
example : (exTable.insert (stdEnv exTable) (KV.empty.set (dataKey 7 [2]) [2, 9]) () none [(1, 5), (2, 6)]).err = some .alreadyExist ∧
    (exTable.insert (stdEnv exTable) (KV.empty.set (dataKey 7 [2]) [2, 9]) () none [(1, 5), (2, 6)]).db.get (dataKey 7 [1]) = none := by
  decide

/-! ## C15 Update replaces exactly the given rows -/

/-- C15 (effect). After a successful Update all given keys existed before, and each given key holds a given record with that key:
the last one if the keys are different or the sort is stable. Nothing else changed. For calls that repeat keys the
call must fit in one slice. -/
theorem C15_effect {t : Table T F} (wf : t.WF) {env : Env T} (ok : env.OK t) (rt : t.RoundTrip)
    {db : KV} {f : F} {m : Rows T} {trs : List T} (hH : Holds t db m) (hF : FilterCovers t f m)
    (hnd : (trs.map t.pk).Nodup ∨ trs.length ≤ 5000) (he : (t.update env db f none trs).err = none) :
    ∃ m', Holds t (t.update env db f none trs).db m' ∧ SameOutside t db (t.update env db f none trs).db ∧
      FilterCovers t (t.update env db f none trs).filt m' ∧
      (∀ p, p ∉ trs.map t.pk → m' p = m p) ∧
      (∀ x ∈ trs, ∃ y ∈ trs, t.pk y = t.pk x ∧ m' (t.pk x) = some y) ∧
      ((trs.map t.pk).Nodup ∨ env.Stable → m' = m.putAll t.pk trs) ∧
      ∀ x ∈ trs, (m (t.pk x)).isSome := by
  obtain ⟨a, b, c, d⟩ := update_view wf ok rt (by decide) (bs := persistentBatchSize) (ob := none) hH hF (callReads_none hnd) he
  have hv : (t.update env db f none trs).view = (t.update env db f none trs).db := by
    unfold WOut.view; rw [show (t.update env db f none trs).batch = none from finish_nobatch]; rfl
  rw [show Table.updateBs persistentBatchSize t env db f none trs = t.update env db f none trs from rfl] at a b c
  rw [hv] at a b
  have hp := visited_perm t ok (batched trs persistentBatchSize)
  rw [batched_flatten trs (by decide)] at hp
  refine ⟨_, a, b, c, ?_, ?_, ?_, d⟩
  · intro p hq
    apply putAll_other
    intro x hx e
    exact hq (e ▸ List.mem_map.2 ⟨x, hp.mem_iff.1 hx, rfl⟩)
  · intro x hx
    obtain ⟨y, h1, h2, h3⟩ := putAll_some m t.pk (hp.mem_iff.2 hx)
    exact ⟨y, hp.mem_iff.1 h1, h2, h3⟩
  · rintro (h | h)
    · exact putAll_visited_nodup ok (by decide) m h
    · exact putAll_visited_stable ok h (by decide) m trs

/-- C15 (success). Update succeeds iff all rows exist (no cancellation, commit failure or serializer error). -/
theorem C15_success {t : Table T F} (wf : t.WF) {env : Env T} (ok : env.OK t) (rt : t.RoundTrip)
    {db : KV} {f : F} {m : Rows T} {trs : List T} (hH : Holds t db m) (hF : FilterCovers t f m)
    (hnd : (trs.map t.pk).Nodup ∨ trs.length ≤ 5000) (hdone : ∀ n, env.done n = false) (hc : env.commitOk = true)
    (hser : ∀ x ∈ trs, (t.ser x).isSome) :
    (t.update env db f none trs).err = none ↔ ∀ x ∈ trs, (m (t.pk x)).isSome :=
  ⟨fun he => (update_view wf ok rt (by decide) (bs := persistentBatchSize) (ob := none) hH hF (callReads_none hnd) he).2.2.2,
   fun h => update_complete wf ok rt (by decide) (ob := none) hH hF (callReads_none hnd) hdone hc hser h⟩

/-- test database: rows (1,5) and (2,6) of `exTable` -/
def exDB : KV := (exTable.insert (stdEnv exTable) KV.empty () none [(1, 5), (2, 6)]).db

theorem exDB_holds : Holds exTable exDB (Rows.putAll (fun _ => none) exTable.pk [(1, 5), (2, 6)]) := by
  have := insert_view exTable_wf (stdEnv_ok exTable) exTable_fs (by decide : 0 < persistentBatchSize) (ob := none) (f := ())
    (trs := [(1, 5), (2, 6)]) (holds_empty exTable) (covers_nofilter rfl _ _) (callReads_none (Or.inl (by decide)))
    (by decide)
  exact this.1

/-- `C12_stored` at a stored row given together with a new one -/
example : (exTable.insert (stdEnv exTable) exDB () none [(3, 1), (2, 9)]).err ≠ none ∧
    (exTable.insert (stdEnv exTable) exDB () none [(3, 1), (2, 9)]).db = exDB :=
  C12_stored (stdEnv_ok exTable) exTable_fs exDB_holds (covers_nofilter rfl _ _) (x := (2, 9)) (by decide) (by decide)

/-- `C15_effect` at an update that gives one of the two stored rows twice -/
example := C15_effect exTable_wf (stdEnv_ok exTable) exTable_rt (f := ()) (trs := [(2, 7), (1, 9), (2, 8)]) exDB_holds
  (covers_nofilter rfl _ _) (.inr (by decide)) (by decide)

/-- `C15_success` at the same update -/
example : (exTable.update (stdEnv exTable) exDB () none [(2, 7), (1, 9), (2, 8)]).err = none :=
  (C15_success exTable_wf (stdEnv_ok exTable) exTable_rt exDB_holds (covers_nofilter rfl _ _) (.inr (by decide)) (fun _ => rfl) rfl
    (fun _ _ => rfl)).2 (by decide)

example : (exTable.update (stdEnv exTable) exDB () none [(2, 7), (1, 9), (2, 8)]).err = none ∧
    (exTable.update (stdEnv exTable) exDB () none [(2, 7), (1, 9), (2, 8)]).db.get (dataKey 7 [2]) = some [2, 8] ∧
    (exTable.update (stdEnv exTable) exDB () none [(3, 7)]).err = some .notFound := by decide

/-- The stability condition of C15 is needed: with an unstable (legal) sort an earlier record can win. -/
def unstableEnv : Env Rec := { stdEnv exTable with sort := fun ks => if ks.length = 2 ∧ ks[0]? = ks[1]? then [1, 0] else stdSort ks }

theorem unstableEnv_ok : unstableEnv.OK exTable where
  order := fun _ => List.Perm.refl _
  sort_perm := by
    intro ks
    simp only [unstableEnv]
    split
    · rename_i h; rw [h.1]; decide
    · exact stdSort_perm ks
  sort_sorted := by
    intro ks
    simp only [unstableEnv]
    split
    · rename_i h
      obtain ⟨h1, h2⟩ := h
      match ks, h1 with
      | [a, b], _ =>
        simp at h2
        subst h2
        simp [ble_refl]
    · exact (stdEnv_ok exTable).sort_sorted ks

theorem C15_unstable : (exTable.update unstableEnv exDB () none [(2, 7), (2, 8)]).err = none ∧
    (exTable.update unstableEnv exDB () none [(2, 7), (2, 8)]).db.get (dataKey 7 [2]) = some [2, 7] := by decide

/-! ## C16 Upsert folds onConflict per key -/

/-- C16 for calls without repeated keys and conflict functions that keep the key and do not modify their first argument.
Missing for the full C16: repeated keys in one call, see `C16_refuted_lost` and `C16_refuted_index`. -/
theorem C16_partial {t : Table T F} (wf : t.WF) {env : Env T} (ok : env.OK t) (rt : t.RoundTrip) (fs : t.FilterSound)
    {db : KV} {f : F} {m : Rows T} {oc : Table.OnConflict T} (hoc : OnConflictOK t oc) {trs : List T}
    (hnd : (trs.map t.pk).Nodup) (hH : Holds t db m) (hF : FilterCovers t f m)
    (he : (t.upsert env db f none oc trs).err = none) :
    ∃ m', Holds t (t.upsert env db f none oc trs).db m' ∧ SameOutside t db (t.upsert env db f none oc trs).db ∧
      FilterCovers t (t.upsert env db f none oc trs).filt m' ∧ (∀ p, p ∉ trs.map t.pk → m' p = m p) ∧
      ∀ x ∈ trs, m' (t.pk x) = some (match m (t.pk x) with | none => x | some old => (oc old x).1) := by
  obtain ⟨a, b, c⟩ := upsert_view wf ok rt fs (by decide) (bs := persistentBatchSize) (ob := none) hoc hnd hH hF
    (callReads_none (Or.inl hnd)) he
  have hv : (t.upsert env db f none oc trs).view = (t.upsert env db f none oc trs).db := by
    unfold WOut.view; rw [show (t.upsert env db f none oc trs).batch = none from finish_nobatch]; rfl
  rw [show Table.upsertBs persistentBatchSize t env db f none oc trs = t.upsert env db f none oc trs from rfl] at a b c
  rw [hv] at a b
  refine ⟨_, a, b, c, ?_, fun x hx => upsertAll_nodup m t.pk _ hnd hx⟩
  intro p hp
  apply upsertAll_other
  intro x hx e
  exact hp (e ▸ List.mem_map.2 ⟨x, hx, rfl⟩)

/-- such Upserts succeed unless cancelled, refused by the store or by the serializer -/
theorem C16_success_partial {t : Table T F} (wf : t.WF) {env : Env T} (ok : env.OK t) (rt : t.RoundTrip) (fs : t.FilterSound)
    {db : KV} {f : F} {m : Rows T} {oc : Table.OnConflict T} (hoc : OnConflictOK t oc) {trs : List T}
    (hnd : (trs.map t.pk).Nodup) (hH : Holds t db m) (hF : FilterCovers t f m)
    (hdone : ∀ n, env.done n = false) (hc : env.commitOk = true) (hser : ∀ x, (t.ser x).isSome) :
    (t.upsert env db f none oc trs).err = none :=
  upsert_complete wf ok rt fs (by decide) hoc hnd (ob := none) hH hF (callReads_none (Or.inl hnd)) hdone hc hser

/-- conflict function for the examples: add the groups -/
def ocAdd : Table.OnConflict Rec := fun o x => ((x.1, o.2 + x.2), o)
/-- conflict function for the examples: the new record wins -/
def ocNew : Table.OnConflict Rec := fun o x => (x, o)

theorem ocAdd_ok : OnConflictOK exTable ocAdd := ⟨fun _ _ _ => rfl, fun _ _ => rfl⟩
theorem ocNew_ok : OnConflictOK exTable ocNew := ⟨fun _ _ _ => rfl, fun _ _ => rfl⟩

/-- `C16_partial` and `C16_success_partial` at an upsert of a new row and a stored one -/
example := C16_partial exTable_wf (stdEnv_ok exTable) exTable_rt exTable_fs (f := ()) ocAdd_ok (trs := [(3, 1), (2, 10)]) (by decide) exDB_holds
  (covers_nofilter rfl _ _) (by decide)

example : (exTable.upsert (stdEnv exTable) exDB () none ocAdd [(3, 1), (2, 10)]).err = none :=
  C16_success_partial exTable_wf (stdEnv_ok exTable) exTable_rt exTable_fs ocAdd_ok (by decide) exDB_holds (covers_nofilter rfl _ _) (fun _ => rfl) rfl
    (fun _ => rfl)

example : (exTable.upsert (stdEnv exTable) exDB () none ocAdd [(3, 1), (2, 10)]).err = none ∧
    (exTable.upsert (stdEnv exTable) exDB () none ocAdd [(3, 1), (2, 10)]).db.get (dataKey 7 [2]) = some [2, 16] := by decide

/-- the record Upsert should store for one key: the given records folded into the stored one, in order -/
def Spec.foldKey (oc : T → T → T) : Option T → List T → Option T
  | stored, [] => stored
  | none, x :: xs => Spec.foldKey oc (some x) xs
  | some o, x :: xs => Spec.foldKey oc (some (oc o x)) xs

theorem upsertAll_foldKey (pk : T → Bytes) (oc : T → T → T) (xs : List T) : ∀ (m : Rows T) (p : Bytes),
    m.upsertAll pk oc xs p = foldKey oc (m p) (xs.filter (fun x => pk x = p)) := by
  induction xs with
  | nil => intro m p; simp [Rows.upsertAll, foldKey]
  | cons x xs ih =>
    intro m p
    show (m.upsert pk oc x).upsertAll pk oc xs p = _
    rw [ih, Rows.upsert, put_apply, List.filter_cons]
    by_cases h : p = pk x
    · subst h
      simp only [if_true, decide_true]
      cases m (pk x) <;> rfl
    · rw [if_neg h, if_neg (by simpa using fun e => h e.symm)]

theorem upsert_single {t : Table T F} {env : Env T} (ok : env.OK t) (st : env.Stable) {db : KV} {f : F} {oc : Table.OnConflict T} {trs : List T}
    (hsort : trs.Pairwise (fun x y => ble (t.pk x) (t.pk y) = true)) (hlen : trs.length ≤ persistentBatchSize)
    (he : (t.upsert env db f none oc trs).err = none) :
    ∃ s', t.upsertLoop env oc (db.scan ((trs.map t.key).headD []) t.dataKeySpaceEnd) trs trs.length 0 (((trs.drop 0).map t.key).zipIdx 0) (t.start f) = (s', none) ∧
      (t.upsert env db f none oc trs).db = db.apply s'.ops ∧ (t.upsert env db f none oc trs).filt = s'.filt := by
  have hv : (t.upsert env db f none oc trs).view = (t.upsert env db f none oc trs).db := by
    unfold WOut.view; rw [show (t.upsert env db f none oc trs).batch = none from finish_nobatch]; rfl
  obtain ⟨h1, h2⟩ := finish_ok he
  have hf := finish_filt (env := env) (db := db) (ob := none)
    (r := forChunks (t.upsertChunk env db none oc) (batched trs persistentBatchSize) (t.start f))
  rw [show (t.upsert env db f none oc trs).view = _ from h2] at hv
  rw [← hv, show (t.upsert env db f none oc trs).filt = _ from hf]
  have hks : (trs.map t.key).Pairwise (fun a b => ble a b = true) := by
    rw [List.pairwise_map]
    refine hsort.imp ?_
    intro x y hxy
    unfold Table.key
    unfold ble
    rw [dataKey_lt]
    exact hxy
  by_cases hne : trs = []
  · subst hne
    exact ⟨t.start f, rfl, rfl, rfl⟩
  · rw [batched_single trs hlen hne] at h1 ⊢
    simp only [forChunks] at h1 ⊢
    have hch : t.upsertChunk env db none oc trs (t.start f) =
        t.upsertLoop env oc (db.scan ((trs.map t.key).headD []) t.dataKeySpaceEnd) trs trs.length 0 (((trs.drop 0).map t.key).zipIdx 0) (t.start f) := by
      unfold Table.upsertChunk
      simp only
      rw [sortKeys_of_sorted ok st hks]
      have : ((trs.map t.key).zipIdx 0).map Prod.fst = trs.map t.key := by simp
      rw [this]
      simp [readView]
    rw [show (⟨[], f, 0, t.nil⟩ : WSt T F) = t.start f from rfl] at h1
    rw [show (⟨[], f, 0, t.nil⟩ : WSt T F) = t.start f from rfl]
    rw [hch] at h1 ⊢
    generalize t.upsertLoop env oc _ trs _ _ _ (t.start f) = r at h1 ⊢
    obtain ⟨s', e⟩ := r
    cases e with
    | none => exact ⟨s', rfl, rfl, rfl⟩
    | some e => simp at h1

theorem map_key_headD {t : Table T F} {trs : List T} (hsort : trs.Pairwise (fun x y => ble (t.pk x) (t.pk y) = true)) :
    ∀ r ∈ trs, ble ((trs.map t.key).headD []) (t.key r) = true := by
  have hks : (trs.map t.key).Pairwise (fun a b => ble a b = true) := by
    rw [List.pairwise_map]
    refine hsort.imp ?_
    intro x y hxy
    unfold Table.key
    unfold ble
    rw [dataKey_lt]
    exact hxy
  intro r hr
  exact sorted_headD hks _ (List.mem_map.2 ⟨r, hr, rfl⟩)

/-- C16, data, with repeated keys: if the rows of the call are given in the order of their keys, fit in one slice and the sort is stable, then
for every key the stored record is the fold of the conflict function over the stored record (if any) and the given ones in order.
Missing for the full C16: other orders (`C16_refuted_lost`); and the index entries of a stored row that is given more than once
(`C16_refuted_index`, see `C16_sorted_index_partial` for all others). -/
theorem C16_sorted_partial {t : Table T F} (wf : t.WF) {env : Env T} (ok : env.OK t) (st : env.Stable) (rt : t.RoundTrip) (fs : t.FilterSound)
    {db : KV} {f : F} {m : Rows T} {oc : Table.OnConflict T} (hoc : OnConflictOK t oc) {trs : List T}
    (hsort : trs.Pairwise (fun x y => ble (t.pk x) (t.pk y) = true)) (hlen : trs.length ≤ persistentBatchSize)
    (hH : Holds t db m) (hF : FilterCovers t f m) (he : (t.upsert env db f none oc trs).err = none) (pk : Bytes) :
    match foldKey (fun o x => (oc o x).1) (m pk) (trs.filter (fun x => t.pk x = pk)) with
    | none => (t.upsert env db f none oc trs).db.get (dataKey t.id pk) = none
    | some x => ∃ b, t.ser x = some b ∧ (t.upsert env db f none oc trs).db.get (dataKey t.id pk) = some b := by
  obtain ⟨s', h1, h2, _⟩ := upsert_single ok st hsort hlen he
  have hH' : Holds t (db.apply (t.start f).ops) m := by simpa [Table.start, KV.apply_nil] using hH
  have := (upsertLoop_sorted wf ok rt fs hoc false (base := db) (R := db) trs.length 0 (s := t.start f) (m := m) (by omega)
    (by rw [List.drop_zero]; exact hsort) (by rw [List.drop_zero]; exact map_key_headD hsort) (fun _ _ => rfl) hH'.data (by simp) (by simp) hF h1).1
  rw [List.drop_zero] at this
  rw [h2, ← upsertAll_foldKey]
  cases hx : m.upsertAll t.pk (fun o x => (oc o x).1) trs pk with
  | none => exact this.absent pk hx
  | some x => exact this.present pk x hx

/-- the theorem at a stored row given once and a new one given three times -/
example := C16_sorted_partial exTable_wf (stdEnv_ok exTable) (stdEnv_stable exTable) exTable_rt exTable_fs (f := ()) (oc := ocAdd)
  (trs := [(2, 10), (3, 1), (3, 2), (3, 4)]) ocAdd_ok (by decide) (by decide) exDB_holds (covers_nofilter rfl _ _) (by decide) [3]

/-- C16 with repeated keys, indexes included, when moreover no stored row is given more than once. -/
theorem C16_sorted_index_partial {t : Table T F} (wf : t.WF) {env : Env T} (ok : env.OK t) (st : env.Stable) (rt : t.RoundTrip) (fs : t.FilterSound)
    {db : KV} {f : F} {m : Rows T} {oc : Table.OnConflict T} (hoc : OnConflictOK t oc) {trs : List T}
    (hsort : trs.Pairwise (fun x y => ble (t.pk x) (t.pk y) = true)) (hlen : trs.length ≤ persistentBatchSize)
    (hrep : trs.Pairwise (fun x y => t.pk x = t.pk y → m (t.pk x) = none))
    (hH : Holds t db m) (hF : FilterCovers t f m) (he : (t.upsert env db f none oc trs).err = none) :
    ∃ m', Holds t (t.upsert env db f none oc trs).db m' ∧ SameOutside t db (t.upsert env db f none oc trs).db ∧
      FilterCovers t (t.upsert env db f none oc trs).filt m' ∧
      ∀ pk, m' pk = foldKey (fun o x => (oc o x).1) (m pk) (trs.filter (fun x => t.pk x = pk)) := by
  obtain ⟨s', h1, h2, h3⟩ := upsert_single ok st hsort hlen he
  have hH' : Holds t (db.apply (t.start f).ops) m := by simpa [Table.start, KV.apply_nil] using hH
  have := upsertLoop_sorted wf ok rt fs hoc true (base := db) (R := db) trs.length 0 (s := t.start f) (m := m) (by omega)
    (by rw [List.drop_zero]; exact hsort) (by rw [List.drop_zero]; exact map_key_headD hsort) (fun _ _ => rfl) hH'.data (fun _ => hH')
    (fun _ => by rw [List.drop_zero]; exact hrep) hF h1
  rw [List.drop_zero] at this
  rw [h2, h3]
  refine ⟨_, (this.2.1 rfl).1, ?_, this.2.2, fun pk => upsertAll_foldKey _ _ _ _ _⟩
  have h := (this.2.1 rfl).2
  simpa [Table.start, KV.apply_nil] using h

/-- hypotheses on a non-trivial case: (2,·) is stored and given once, (3,·) is new and given three times -/
example : ([(2, 10), (3, 1), (3, 2), (3, 4)] : List Rec).Pairwise (fun x y => ble (exTable.pk x) (exTable.pk y) = true) ∧
    (exTable.upsert (stdEnv exTable) exDB () none ocAdd [(2, 10), (3, 1), (3, 2), (3, 4)]).err = none ∧
    (exTable.upsert (stdEnv exTable) exDB () none ocAdd [(2, 10), (3, 1), (3, 2), (3, 4)]).db.get (dataKey 7 [3]) = some [3, 7] ∧
    (exTable.upsert (stdEnv exTable) exDB () none ocAdd [(2, 10), (3, 1), (3, 2), (3, 4)]).db.get (dataKey 7 [2]) = some [2, 16] := by decide

/-- C16 fails for repeated keys: `trs[i]` is read with the position in the sorted keys. Upsert of (2,1),(1,2),(1,3) with
"the new one wins" stores (1,2) instead of (1,3). -/
theorem C16_refuted_lost :
    (exTable.upsert (stdEnv exTable) KV.empty () none ocNew [(2, 1), (1, 2), (1, 3)]).err = none ∧
    (exTable.upsert (stdEnv exTable) KV.empty () none ocNew [(2, 1), (1, 2), (1, 3)]).db.get (dataKey 7 [1]) = some [1, 2] := by
  decide

/-- C16 (and C14) fail for repeated keys even in sorted order: the index entry of the stored record is not removed, because
`oldTr` has been replaced by an intermediate record. (1,5) is stored; after Upsert of (1,6),(1,7) the index has entries for
groups 5 and 7, and the row is (1,7). -/
theorem C16_refuted_index :
    (exTable.upsert (stdEnv exTable) exDB () none ocNew [(1, 6), (1, 7)]).err = none ∧
    (exTable.upsert (stdEnv exTable) exDB () none ocNew [(1, 6), (1, 7)]).db.get (dataKey 7 [1]) = some [1, 7] ∧
    (exTable.upsert (stdEnv exTable) exDB () none ocNew [(1, 6), (1, 7)]).db.get (exTable.indexKey exIndex (1, 5)) = some [] := by
  decide

/-- a row of another table's key space can even be created: the wrong `trs[i]` belongs to another key, so Upsert may store a
record under a key that is not its primary key. (1,·) is repeated, position 1 of the slice holds the record (2,9). -/
theorem C16_refuted_foreign :
    (exTable.upsert (stdEnv exTable) KV.empty () none ocNew [(1, 1), (2, 9), (1, 3)]).err = none ∧
    (exTable.upsert (stdEnv exTable) KV.empty () none ocNew [(1, 1), (2, 9), (1, 3)]).db.get (dataKey 7 [1]) = some [2, 9] := by
  decide

/-! ## C17 Delete removes the row and its index entries -/

/-- C17, part 1: the primary keys of the given records are absent afterwards and other rows are unchanged, whatever else the
given records contain. -/
theorem C17_rows {t : Table T F} (wf : t.WF) {env : Env T} (ok : env.OK t) {db : KV} {f : F} {trs : List T}
    (he : (t.delete env db f none trs).err = none) (pk : Bytes) :
    (t.delete env db f none trs).db.get (dataKey t.id pk) =
      if pk ∈ trs.map t.pk then none else db.get (dataKey t.id pk) := by
  obtain ⟨h1, h2⟩ := finish_ok he
  have hv : (t.delete env db f none trs).view = (t.delete env db f none trs).db := by
    unfold WOut.view; rw [show (t.delete env db f none trs).batch = none from finish_nobatch]; rfl
  rw [← hv]
  rw [show (t.delete env db f none trs).view = _ from h2]
  have := deleteLoop_data wf ok (base := db) (s := t.start f) (trs := trs)
    (s' := (t.deleteLoop env trs (t.start f)).1) (Prod.ext rfl h1) pk
  exact this

/-- the theorem at a delete of a stored row -/
example := C17_rows exTable_wf (stdEnv_ok exTable) (db := exDB) (f := ()) (trs := [(1, 5), (3, 0)]) (by decide) [1]

/-- C17 when the records passed have the stored index values: rows and all their index entries disappear.
Missing for the full C17: records that agree with the stored row only in the primary key, see `C17_refuted`. -/
theorem C17_partial {t : Table T F} (wf : t.WF) {env : Env T} (ok : env.OK t)
    {db : KV} {f : F} {m : Rows T} {trs : List T} (hH : Holds t db m) (hF : FilterCovers t f m)
    (hsame : ∀ x ∈ trs, ∀ old, m (t.pk x) = some old → ∀ idx ∈ t.indexes,
      idx.filter old = true → idx.filter x = true ∧ t.indexKey idx x = t.indexKey idx old)
    (he : (t.delete env db f none trs).err = none) :
    ∃ m', Holds t (t.delete env db f none trs).db m' ∧ SameOutside t db (t.delete env db f none trs).db ∧
      FilterCovers t (t.delete env db f none trs).filt m' ∧ ∀ p, m' p = if p ∈ trs.map t.pk then none else m p := by
  obtain ⟨a, b, c⟩ := delete_view wf ok (ob := none) hH hF hsame he
  have hv : (t.delete env db f none trs).view = (t.delete env db f none trs).db := by
    unfold WOut.view; rw [show (t.delete env db f none trs).batch = none from finish_nobatch]; rfl
  rw [hv] at a b
  exact ⟨_, a, b, c, fun p => eraseAll_apply m _ p⟩

example : (exTable.delete (stdEnv exTable) exDB () none [(1, 5)]).err = none ∧
    (exTable.delete (stdEnv exTable) exDB () none [(1, 5)]).db.get (exTable.indexKey exIndex (1, 5)) = none ∧
    exDB.get (exTable.indexKey exIndex (1, 5)) = some [] := by decide

/-- C17 is false for records that carry only the primary key: the index entry stays. -/
theorem C17_refuted : (exTable.delete (stdEnv exTable) exDB () none [(1, 0)]).err = none ∧
    (exTable.delete (stdEnv exTable) exDB () none [(1, 0)]).db.get (dataKey 7 [1]) = none ∧
    (exTable.delete (stdEnv exTable) exDB () none [(1, 0)]).db.get (exTable.indexKey exIndex (1, 5)) = some [] := by decide

/-! ## C18 Chunking and iteration order are invisible -/

/-- C18 for Insert: two runs that differ in slice size, sort permutation and index order give the same database. -/
theorem C18_insert {t : Table T F} (wf : t.WF) {env env' : Env T} (ok : env.OK t) (ok' : env'.OK t) (fs : t.FilterSound)
    {bs bs' : Nat} (hbs : 0 < bs) (hbs' : 0 < bs') {db : KV} {f : F} {m : Rows T} {trs : List T} (hH : Holds t db m)
    (hF : FilterCovers t f m) (hnd : (trs.map t.pk).Nodup)
    (he : (t.insertBs bs env db f none trs).err = none) (he' : (t.insertBs bs' env' db f none trs).err = none) :
    (t.insertBs bs env db f none trs).db = (t.insertBs bs' env' db f none trs).db := by
  obtain ⟨a, b, _⟩ := insert_view wf ok fs hbs (ob := none) hH hF (callReads_none (Or.inl hnd)) he
  obtain ⟨a', b', _⟩ := insert_view wf ok' fs hbs' (ob := none) hH hF (callReads_none (Or.inl hnd)) he'
  have h1 : (t.insertBs bs env db f none trs).view = (t.insertBs bs env db f none trs).db := by
    unfold WOut.view; rw [show (t.insertBs bs env db f none trs).batch = none from finish_nobatch]; rfl
  have h2 : (t.insertBs bs' env' db f none trs).view = (t.insertBs bs' env' db f none trs).db := by
    unfold WOut.view; rw [show (t.insertBs bs' env' db f none trs).batch = none from finish_nobatch]; rfl
  rw [h1] at a b; rw [h2] at a' b'
  exact holds_unique a a' (fun k hk => by rw [b' k hk, b k hk])

/-- the theorem with slices of one and of two rows -/
example : (exTable.insertBs 1 (stdEnv exTable) exDB () none [(4, 7), (3, 9), (5, 8)]).db =
    (exTable.insertBs 2 (stdEnv exTable) exDB () none [(4, 7), (3, 9), (5, 8)]).db :=
  C18_insert exTable_wf (stdEnv_ok exTable) (stdEnv_ok exTable) exTable_fs (by decide) (by decide) exDB_holds (covers_nofilter rfl _ _)
    (by decide) (by decide) (by decide)

/-- C18 for Update -/
theorem C18_update {t : Table T F} (wf : t.WF) {env env' : Env T} (ok : env.OK t) (ok' : env'.OK t) (rt : t.RoundTrip)
    {bs bs' : Nat} (hbs : 0 < bs) (hbs' : 0 < bs') {db : KV} {f : F} {m : Rows T} {trs : List T} (hH : Holds t db m)
    (hF : FilterCovers t f m) (hnd : (trs.map t.pk).Nodup)
    (he : (t.updateBs bs env db f none trs).err = none) (he' : (t.updateBs bs' env' db f none trs).err = none) :
    (t.updateBs bs env db f none trs).db = (t.updateBs bs' env' db f none trs).db := by
  obtain ⟨a, b, _⟩ := update_view wf ok rt hbs (ob := none) hH hF (callReads_none (Or.inl hnd)) he
  obtain ⟨a', b', _⟩ := update_view wf ok' rt hbs' (ob := none) hH hF (callReads_none (Or.inl hnd)) he'
  have h1 : (t.updateBs bs env db f none trs).view = (t.updateBs bs env db f none trs).db := by
    unfold WOut.view; rw [show (t.updateBs bs env db f none trs).batch = none from finish_nobatch]; rfl
  have h2 : (t.updateBs bs' env' db f none trs).view = (t.updateBs bs' env' db f none trs).db := by
    unfold WOut.view; rw [show (t.updateBs bs' env' db f none trs).batch = none from finish_nobatch]; rfl
  rw [h1] at a b; rw [h2] at a' b'
  rw [putAll_visited_nodup ok hbs m hnd] at a
  rw [putAll_visited_nodup ok' hbs' m hnd] at a'
  exact holds_unique a a' (fun k hk => by rw [b' k hk, b k hk])

/-- the theorem with slices of one and of two rows -/
example : (exTable.updateBs 1 (stdEnv exTable) exDB () none [(2, 7), (1, 9)]).db =
    (exTable.updateBs 2 (stdEnv exTable) exDB () none [(2, 7), (1, 9)]).db :=
  C18_update exTable_wf (stdEnv_ok exTable) (stdEnv_ok exTable) exTable_rt (by decide) (by decide) exDB_holds (covers_nofilter rfl _ _)
    (by decide) (by decide) (by decide)

/-- C18 for Upsert -/
theorem C18_upsert {t : Table T F} (wf : t.WF) {env env' : Env T} (ok : env.OK t) (ok' : env'.OK t) (rt : t.RoundTrip)
    (fs : t.FilterSound) {oc : Table.OnConflict T} (hoc : OnConflictOK t oc)
    {bs bs' : Nat} (hbs : 0 < bs) (hbs' : 0 < bs') {db : KV} {f : F} {m : Rows T} {trs : List T} (hH : Holds t db m)
    (hF : FilterCovers t f m) (hnd : (trs.map t.pk).Nodup)
    (he : (t.upsertBs bs env db f none oc trs).err = none) (he' : (t.upsertBs bs' env' db f none oc trs).err = none) :
    (t.upsertBs bs env db f none oc trs).db = (t.upsertBs bs' env' db f none oc trs).db := by
  obtain ⟨a, b, _⟩ := upsert_view wf ok rt fs hbs (ob := none) hoc hnd hH hF (callReads_none (Or.inl hnd)) he
  obtain ⟨a', b', _⟩ := upsert_view wf ok' rt fs hbs' (ob := none) hoc hnd hH hF (callReads_none (Or.inl hnd)) he'
  have h1 : (t.upsertBs bs env db f none oc trs).view = (t.upsertBs bs env db f none oc trs).db := by
    unfold WOut.view; rw [show (t.upsertBs bs env db f none oc trs).batch = none from finish_nobatch]; rfl
  have h2 : (t.upsertBs bs' env' db f none oc trs).view = (t.upsertBs bs' env' db f none oc trs).db := by
    unfold WOut.view; rw [show (t.upsertBs bs' env' db f none oc trs).batch = none from finish_nobatch]; rfl
  rw [h1] at a b; rw [h2] at a' b'
  exact holds_unique a a' (fun k hk => by rw [b' k hk, b k hk])

/-- the theorem with slices of one and of two rows -/
example : (exTable.upsertBs 1 (stdEnv exTable) exDB () none ocAdd [(2, 7), (3, 9), (1, 8)]).db =
    (exTable.upsertBs 2 (stdEnv exTable) exDB () none ocAdd [(2, 7), (3, 9), (1, 8)]).db :=
  C18_upsert exTable_wf (stdEnv_ok exTable) (stdEnv_ok exTable) exTable_rt exTable_fs ocAdd_ok (by decide) (by decide) exDB_holds
    (covers_nofilter rfl _ _) (by decide) (by decide) (by decide)

/-- C18 for Delete (of records with the stored index values) -/
theorem C18_delete {t : Table T F} (wf : t.WF) {env env' : Env T} (ok : env.OK t) (ok' : env'.OK t)
    {db : KV} {f : F} {m : Rows T} {trs : List T} (hH : Holds t db m) (hF : FilterCovers t f m)
    (hsame : ∀ x ∈ trs, ∀ old, m (t.pk x) = some old → ∀ idx ∈ t.indexes,
      idx.filter old = true → idx.filter x = true ∧ t.indexKey idx x = t.indexKey idx old)
    (he : (t.delete env db f none trs).err = none) (he' : (t.delete env' db f none trs).err = none) :
    (t.delete env db f none trs).db = (t.delete env' db f none trs).db := by
  obtain ⟨a, b, _⟩ := delete_view wf ok (ob := none) hH hF hsame he
  obtain ⟨a', b', _⟩ := delete_view wf ok' (ob := none) hH hF hsame he'
  have h1 : (t.delete env db f none trs).view = (t.delete env db f none trs).db := by
    unfold WOut.view; rw [show (t.delete env db f none trs).batch = none from finish_nobatch]; rfl
  have h2 : (t.delete env' db f none trs).view = (t.delete env' db f none trs).db := by
    unfold WOut.view; rw [show (t.delete env' db f none trs).batch = none from finish_nobatch]; rfl
  rw [h1] at a b; rw [h2] at a' b'
  exact holds_unique a a' (fun k hk => by rw [b' k hk, b k hk])

/-- the theorem at a delete of a stored row and an absent one, under two legal environments -/
example : (exTable.delete (stdEnv exTable) exDB () none [(1, 5), (3, 0)]).db = (exTable.delete unstableEnv exDB () none [(1, 5), (3, 0)]).db := by
  refine C18_delete exTable_wf (stdEnv_ok exTable) unstableEnv_ok exDB_holds (covers_nofilter rfl _ _) ?_ (by decide) (by decide)
  intro x hx old ho idx hidx _
  simp [exTable] at hidx
  subst hidx
  simp only [List.mem_cons, List.not_mem_nil, or_false] at hx
  rcases hx with rfl | rfl
  · have : old = (1, 5) := by
      have h : Rows.putAll (fun _ => none) exTable.pk [(1, 5), (2, 6)] (exTable.pk (1, 5)) = some (1, 5) := by decide
      exact Option.some.inj (ho.symm.trans h)
    subst this; exact ⟨rfl, rfl⟩
  · have h : Rows.putAll (fun _ => none) exTable.pk [(1, 5), (2, 6)] (exTable.pk (3, 0)) = none := by decide
    rw [h] at ho; simp at ho

/-- C18, which calls succeed: for Insert and Update of different keys the slice size and the orders do not matter either. -/
theorem C18_success {t : Table T F} (wf : t.WF) {env env' : Env T} (ok : env.OK t) (ok' : env'.OK t) (rt : t.RoundTrip)
    (fs : t.FilterSound) {bs bs' : Nat} (hbs : 0 < bs) (hbs' : 0 < bs') {db : KV} {f : F} {m : Rows T} {trs : List T}
    (hH : Holds t db m) (hF : FilterCovers t f m) (hnd : (trs.map t.pk).Nodup)
    (hdone : ∀ n, env.done n = false) (hdone' : ∀ n, env'.done n = false)
    (hc : env.commitOk = true) (hc' : env'.commitOk = true) (hser : ∀ x ∈ trs, (t.ser x).isSome) :
    ((t.insertBs bs env db f none trs).err = none ↔ (t.insertBs bs' env' db f none trs).err = none) ∧
    ((t.updateBs bs env db f none trs).err = none ↔ (t.updateBs bs' env' db f none trs).err = none) := by
  refine ⟨⟨fun h => ?_, fun h => ?_⟩, ⟨fun h => ?_, fun h => ?_⟩⟩
  · exact insert_complete wf ok' fs hbs' (ob := none) hH hF (callReads_none (Or.inl hnd)) hdone' hc' hser hnd
      (insert_view wf ok fs hbs (ob := none) hH hF (callReads_none (Or.inl hnd)) h).2.2.2.2
  · exact insert_complete wf ok fs hbs (ob := none) hH hF (callReads_none (Or.inl hnd)) hdone hc hser hnd
      (insert_view wf ok' fs hbs' (ob := none) hH hF (callReads_none (Or.inl hnd)) h).2.2.2.2
  · exact update_complete wf ok' rt hbs' (ob := none) hH hF (callReads_none (Or.inl hnd)) hdone' hc' hser
      (update_view wf ok rt hbs (ob := none) hH hF (callReads_none (Or.inl hnd)) h).2.2.2
  · exact update_complete wf ok rt hbs (ob := none) hH hF (callReads_none (Or.inl hnd)) hdone hc hser
      (update_view wf ok' rt hbs' (ob := none) hH hF (callReads_none (Or.inl hnd)) h).2.2.2

/-- slices of 1 and of 5000, two different orders of the same rows' keys -/
example : (exTable.insertBs 1 (stdEnv exTable) KV.empty () none [(2, 7), (1, 9), (3, 8)]).err = none ∧
    (exTable.insertBs 5000 (stdEnv exTable) KV.empty () none [(2, 7), (1, 9), (3, 8)]).err = none := by decide

/-- C18 does not extend to calls with repeated keys: the slice size decides whether the repetition is noticed. -/
theorem C18_refuted_dup : (exTable.insertBs 2 (stdEnv exTable) KV.empty () none [(1, 7), (2, 9), (1, 8)]).err = none ∧
    (exTable.insertBs 3 (stdEnv exTable) KV.empty () none [(1, 7), (2, 9), (1, 8)]).err = some .alreadyExist := by decide

/-! ## C53 Unsafe operations are equivalent under their preconditions -/

/-- C53 for UnsafeInsert: for new, different keys it gives the same database as Insert. -/
theorem C53_insert {t : Table T F} (wf : t.WF) {env env' : Env T} (ok : env.OK t) (ok' : env'.OK t) (fs : t.FilterSound)
    {db : KV} {f : F} {m : Rows T} {trs : List T} (hH : Holds t db m) (hF : FilterCovers t f m)
    (hnd : (trs.map t.pk).Nodup) (habs : ∀ x ∈ trs, m (t.pk x) = none)
    (he : (t.insert env db f none trs).err = none) (he' : (t.unsafeInsert env' db f none trs).err = none) :
    (t.unsafeInsert env' db f none trs).db = (t.insert env db f none trs).db := by
  obtain ⟨a, b, _⟩ := insert_view wf ok fs (by decide) (ob := none) hH hF (callReads_none (Or.inl hnd)) he
  obtain ⟨a', b', _⟩ := unsafeInsert_view wf ok' fs (by decide) (bs := persistentBatchSize) (ob := none) hH hF hnd habs he'
  have h1 : (t.insert env db f none trs).view = (t.insert env db f none trs).db := by
    unfold WOut.view; rw [show (t.insert env db f none trs).batch = none from finish_nobatch]; rfl
  have h2 : (t.unsafeInsert env' db f none trs).view = (t.unsafeInsert env' db f none trs).db := by
    unfold WOut.view; rw [show (t.unsafeInsert env' db f none trs).batch = none from finish_nobatch]; rfl
  have a := h1 ▸ a; have b := h1 ▸ b; have a' := h2 ▸ a'; have b' := h2 ▸ b'
  exact holds_unique a' a (fun k hk => by
    have e1 := b k hk; have e2 := b' k hk
    exact e1.trans e2.symm)

/-- the theorem at two new rows -/
example : (exTable.unsafeInsert (stdEnv exTable) exDB () none [(4, 7), (3, 9)]).db = (exTable.insert (stdEnv exTable) exDB () none [(4, 7), (3, 9)]).db :=
  C53_insert exTable_wf (stdEnv_ok exTable) (stdEnv_ok exTable) exTable_fs exDB_holds (covers_nofilter rfl _ _) (by decide) (by decide)
    (by decide) (by decide)

/-- C53 for UnsafeUpdate: given the stored records it gives the same database as Update. -/
theorem C53_update {t : Table T F} (wf : t.WF) {env env' : Env T} (ok : env.OK t) (ok' : env'.OK t) (rt : t.RoundTrip)
    {db : KV} {f : F} {m : Rows T} {trs olds : List T} (hH : Holds t db m) (hF : FilterCovers t f m)
    (hnd : (trs.map t.pk).Nodup) (hlen : trs.length = olds.length)
    (hold : ∀ p ∈ trs.zip olds, m (t.pk p.1) = some p.2)
    (he : (t.update env db f none trs).err = none) (he' : (t.unsafeUpdate env' db f none trs olds).err = none) :
    (t.unsafeUpdate env' db f none trs olds).db = (t.update env db f none trs).db := by
  have htr : ∀ (ps : List (T × T)) (m : Rows T), (∀ p ∈ ps, m (t.pk p.1) = some p.2) → ((ps.map Prod.fst).map t.pk).Nodup →
      TruthfulOld t m ps := by
    intro ps
    induction ps with
    | nil => intros; trivial
    | cons p ps ih =>
      intro m h hn
      simp only [List.map_cons, List.nodup_cons] at hn
      refine ⟨h p (by simp), ih _ ?_ hn.2⟩
      intro q hq
      rw [put_apply, if_neg]
      · exact h q (by simp [hq])
      · intro e
        exact hn.1 (e ▸ List.mem_map.2 ⟨q.1, List.mem_map.2 ⟨q, hq, rfl⟩, rfl⟩)
  obtain ⟨a, b, _⟩ := update_view wf ok rt (by decide) (bs := persistentBatchSize) (ob := none) hH hF (callReads_none (Or.inl hnd)) he
  rw [putAll_visited_nodup ok (by decide) m hnd] at a
  obtain ⟨a', b', _⟩ := unsafeUpdate_view wf ok' (ob := none) hH hF
    (htr _ m hold (by rw [List.map_fst_zip (by omega)]; exact hnd)) he'
  have h1 : (t.update env db f none trs).view = (t.update env db f none trs).db := by
    unfold WOut.view; rw [show (t.update env db f none trs).batch = none from finish_nobatch]; rfl
  have h2 : (t.unsafeUpdate env' db f none trs olds).view = (t.unsafeUpdate env' db f none trs olds).db := by
    unfold WOut.view Table.unsafeUpdate
    rw [if_neg (by simp [hlen]), finish_nobatch]; rfl
  have a := h1 ▸ a; have b := h1 ▸ b; have a' := h2 ▸ a'; have b' := h2 ▸ b'
  exact holds_unique a' a (fun k hk => by
    have e1 := b k hk; have e2 := b' k hk
    exact e1.trans e2.symm)

example : (exTable.unsafeInsert (stdEnv exTable) exDB () none [(3, 7)]).err = none ∧
    (exTable.unsafeUpdate (stdEnv exTable) exDB () none [(2, 7)] [(2, 6)]).err = none ∧
    (exTable.update (stdEnv exTable) exDB () none [(2, 7)]).err = none := by decide

/-! ## C60 Results do not depend on what was decoded before -/

/-- test table whose serializer omits a zero group (as `omitempty` does): reading it back is right in a zero object only -/
def omitTable : Table Rec Unit :=
  { exTable with
    ser := fun x => if x.2 = 0 then some [x.1] else some [x.1, x.2]
    deser := fun old b => match b with | [a] => some (a, old.2) | [a, g] => some (a, g) | _ => none }

theorem omitTable_fresh : omitTable.RoundTripFresh := by
  intro x b h
  obtain ⟨a, g⟩ := x
  simp only [omitTable] at h
  split at h
  · rename_i hz
    simp only [Option.some.injEq] at h
    subst h; subst hz; rfl
  · simp only [Option.some.injEq] at h; subst h; rfl

/-- C60 is false for serializers that are only right in a zero object: the reused `oldTr` keeps the group 5 of row 1, so the
index entry of row 2 (group 0) is not removed when row 2 is updated to group 8. -/
theorem C60_refuted :
    let db := (omitTable.insert (stdEnv omitTable) KV.empty () none [(1, 5), (2, 0)]).db
    let out := omitTable.update (stdEnv omitTable) db () none [(1, 6), (2, 8)]
    out.err = none ∧ out.db.get (dataKey 7 [2]) = some [2, 8] ∧
    out.db.get (omitTable.indexKey exIndex (2, 0)) = some [] := by decide

/-- C60 for serializers that read back what they wrote into any object: nothing depends on the reused object.
Missing for the full C60: serializers that are right only in a zero object, see `C60_refuted`; for those the statement holds
when every call passes one row (`C60_single_partial`). -/
theorem C60_partial {t : Table T F} {env : Env T} (rt : t.RoundTrip) {R : KV} {m : Rows T} (hH : Holds t R m)
    {trs : List T} {items : List (Bytes × Nat)} {rs : List T} (hd : Describes t trs items rs) {lo : Bytes}
    (hlo : ∀ r ∈ rs, ble lo (t.key r) = true) (s : WSt T F) (o : T) :
    let r1 := t.updateLoop env (R.scan lo t.dataKeySpaceEnd) trs items s
    let r2 := t.updateLoop env (R.scan lo t.dataKeySpaceEnd) trs items { s with oldTr := o }
    r1.2 = r2.2 ∧ r1.1.ops = r2.1.ops := by
  intro r1 r2
  have key : ∀ (s1 s2 : WSt T F), s1.ops = s2.ops → s1.clock = s2.clock →
      (t.updateLoop env (R.scan lo t.dataKeySpaceEnd) trs items s1).2 = (t.updateLoop env (R.scan lo t.dataKeySpaceEnd) trs items s2).2 ∧
      (t.updateLoop env (R.scan lo t.dataKeySpaceEnd) trs items s1).1.ops = (t.updateLoop env (R.scan lo t.dataKeySpaceEnd) trs items s2).1.ops := by
    clear r1 r2
    induction hd with
    | nil => intro s1 s2 h1 _; exact ⟨rfl, h1⟩
    | @cons e r items rs hr hd ih =>
      intro s1 s2 h1 h2
      obtain ⟨key, j⟩ := e
      obtain ⟨hj, hk⟩ := hr
      simp only at hj hk
      subst hk
      rw [Table.updateLoop, Table.updateLoop, h2]
      by_cases hdn : env.done s2.clock = true
      · simp [hdn, h1]
      · simp only [hdn, Bool.false_eq_true, if_false]
        by_cases hdup : items.head?.map Prod.fst = some (t.key r)
        · simp only [hdup, if_true]
          exact ih (fun y hy => hlo y (by simp [hy])) _ _ h1 rfl
        · simp only [hdup, if_false]
          have hseek := seekExact_scan R (hlo r (by simp)) (dataKey_lt_end t (t.pk r))
          have hsk : seekExact (R.scan lo t.dataKeySpaceEnd) (t.key r) = R.get (dataKey t.id (t.pk r)) := hseek
          rw [hsk]
          cases hm : m (t.pk r) with
          | none => rw [hH.absent _ hm]; exact ⟨rfl, h1⟩
          | some old =>
            obtain ⟨b, hb, hg⟩ := hH.present _ _ hm
            rw [hg]
            simp only [rt old b hb, hj]
            cases t.ser r with
            | none => exact ⟨rfl, h1⟩
            | some data =>
              simp only
              exact ih (fun y hy => hlo y (by simp [hy])) _ _ (by rw [h1]) rfl
  exact key s { s with oldTr := o } rfl rfl

/-- the theorem at an update of both stored rows, given out of order -/
example (env : Env Rec) (s : WSt Rec Unit) (o : Rec) := C60_partial (env := env) exTable_rt exDB_holds (trs := [(2, 7), (1, 9)])
  (items := [(exTable.key (1, 9), 1), (exTable.key (2, 7), 0)]) (rs := [(1, 9), (2, 7)])
  (.cons ⟨rfl, rfl⟩ (.cons ⟨rfl, rfl⟩ .nil)) (lo := exTable.key (1, 9)) (by decide) s o

/-- C60 for one row per call: a serializer that is right in a zero object is enough. -/
theorem C60_single_partial {t : Table T F} (wf : t.WF) {env : Env T} (ok : env.OK t) (rt : t.RoundTripFresh)
    {db : KV} {f : F} {m : Rows T} {x : T} (hH : Holds t db m) (hF : FilterCovers t f m)
    (he : (t.update env db f none [x]).err = none) : Holds t (t.update env db f none [x]).db (m.put (t.pk x) x) := by
  let t' : Table T F := { t with deser := fun _ b => t.deser t.nil b }
  have wf' : t'.WF := ⟨wf.ids, wf.nz, wf.klen, wf.olen⟩
  have ok' : env.OK t' := ⟨ok.order, ok.sort_perm, ok.sort_sorted⟩
  have rt' : t'.RoundTrip := fun y b hb _ => rt y b hb
  have hto : ∀ {V : KV} {n : Rows T}, Holds t V n → Holds t' V n := fun h => ⟨h.row_pk, h.absent, h.present, h.only_data, h.index⟩
  have hfrom : ∀ {V : KV} {n : Rows T}, Holds t' V n → Holds t V n := fun h => ⟨h.row_pk, h.absent, h.present, h.only_data, h.index⟩
  have hsort : sortKeys env [t.key x] = [(t.key x, 0)] := by
    have := ok.sort_perm [t.key x]
    simp only [List.length_singleton, List.range_one] at this
    have h2 := List.perm_singleton.1 this
    simp [sortKeys, h2]
  have hupd : t.update env db f none [x] = t'.update env db f none [x] := by
    unfold Table.update Table.updateBs
    congr 1
    rw [batched_single [x] (by simp [persistentBatchSize]) (by simp)]
    have hc : t.updateChunk env db none [x] { ops := [], filt := f, clock := 0, oldTr := t.nil } =
        t'.updateChunk env db none [x] { ops := [], filt := f, clock := 0, oldTr := t'.nil } := by
      unfold Table.updateChunk
      rw [show [x].map t'.key = [t.key x] from rfl, show [x].map t.key = [t.key x] from rfl, hsort]
      rfl
    unfold forChunks
    rw [hc]
    rfl
  have h := update_view wf' ok' rt' (by decide : 0 < persistentBatchSize) (ob := none) (f := f) (trs := [x]) (hto hH) hF
    (callReads_none (Or.inl (by simp))) (by rw [hupd] at he; exact he)
  have hv : (t'.update env db f none [x]).view = (t'.update env db f none [x]).db := by
    unfold WOut.view; rw [show (t'.update env db f none [x]).batch = none from finish_nobatch]; rfl
  have h1 := h.1
  rw [putAll_visited_nodup ok' (by decide) m (by simp)] at h1
  rw [hupd]
  exact hfrom (hv ▸ h1)

example : (omitTable.update (stdEnv omitTable) (omitTable.insert (stdEnv omitTable) KV.empty () none [(1, 5), (2, 0)]).db () none
    [(2, 8)]).err = none := by decide

/-! ## C22 Tables are isolated -/

/-- a database agrees with another on the keys of table `t` -/
def SameInside (t : Table T F) (db db' : KV) : Prop := ∀ k, ¬ Outside t k → db'.get k = db.get k

/-- C22. Whatever a write call on table `t` does (success, failure, with or without batch), it changes no key outside the
table's own key spaces: the database, and what is read through the batch, stay the same there. -/
theorem C22_outside {t : Table T F} {env : Env T} (ok : env.OK t) (db : KV) (f : F) (ob : Option Batch) (c : WCall T) :
    SameOutside t db (t.run env db f ob c).db ∧ SameOutside t (baseView db ob) (t.run env db f ob c).view := by
  rw [Table.run_eq]
  split
  · exact ⟨SameOutside.refl _ _, SameOutside.refl _ _⟩
  have hs := Table.body_step ok db ob (t.start f) c
  obtain ⟨⟨l, hl, hown'⟩, _⟩ := hs
  have hown : OwnOps t (t.body env db ob (t.start f) c).1.ops := by rw [hl]; exact hown'
  clear hl
  generalize t.body env db ob (t.start f) c = r at hown ⊢
  cases ob with
  | some b =>
    refine ⟨SameOutside.refl _ _, ?_⟩
    have : (finish env db (some b) r).view = (baseView db (some b)).apply r.1.ops := by
      simp [finish, WOut.view, baseView, KV.apply_append]
    rw [this]
    exact hown.sameOutside _
  | none =>
    have hv : (finish env db none r).view = (finish env db none r).db := by
      unfold WOut.view; rw [finish_nobatch]; rfl
    rw [hv]
    suffices h : SameOutside t db (finish env db none r).db from ⟨h, h⟩
    by_cases he : (finish env db none r).err = none
    · have := (finish_ok he).2
      rw [hv] at this
      rw [this]
      exact hown.sameOutside _
    · rw [finish_err_db he]; exact SameOutside.refl _ _

/-- the theorem at an update in a batch -/
example := C22_outside (stdEnv_ok exTable) exDB () (some ⟨true, [.set [9] [9]]⟩) (.update [(1, 9)])

/-- keys of a table with another id are outside -/
theorem outside_other {T' F' : Type} {t : Table T F} {u : Table T' F'} (h : u.id ≠ t.id) {k : Bytes} (hk : ¬ Outside u k) :
    Outside t k := by
  have : ∃ i, InSpace u.id i k := by
    apply Classical.byContradiction
    intro hn
    exact hk ⟨fun h0 => hn ⟨_, h0⟩, fun idx _ hi => hn ⟨_, hi⟩⟩
  obtain ⟨i, hi⟩ := this
  exact ⟨fun h0 => h (C09_disjoint hi h0).1, fun idx _ hx => h (C09_disjoint hi hx).1⟩

theorem Holds.congr {t : Table T F} {db db' : KV} {m : Rows T} (h : Holds t db m) (hs : SameInside t db db') : Holds t db' m where
  row_pk := h.row_pk
  absent := fun pk hm => by rw [hs _ (fun ho => ho.1 (inSpace_dataKey t.id pk))]; exact h.absent pk hm
  present := fun pk x hm => by rw [hs _ (fun ho => ho.1 (inSpace_dataKey t.id pk))]; exact h.present pk x hm
  only_data := fun k v hk hi => by rw [hs _ (fun ho => ho.1 hi)] at hk; exact h.only_data k v hk hi
  index := fun idx hi k v hk => by rw [hs _ (fun ho => ho.2 idx hi hk)]; exact h.index idx hi k v hk

/-- C22 for another table: its rows and index entries are untouched. -/
theorem C22_tables {T' F' : Type} {t : Table T F} {u : Table T' F'} (h : u.id ≠ t.id) {env : Env T} (ok : env.OK t) {db : KV} {f : F}
    {ob : Option Batch} {c : WCall T} {m : Rows T'} (hH : Holds u db m) : Holds u (t.run env db f ob c).db m :=
  hH.congr (fun k hk => (C22_outside ok db f ob c).1 k (outside_other h hk))

/-- the theorem at a second table that holds a row of the same key -/
example : ∃ m, m [1] = some (1, 9) ∧ Holds { exTable with id := 8 } (exTable.run (stdEnv exTable)
    ({ exTable with id := 8 }.insert (stdEnv exTable) exDB () none [(1, 9)]).db () none (.delete [(1, 5)])).db m := by
  have wf8 : ({ exTable with id := 8 } : Table Rec Unit).WF := ⟨exTable_wf.ids, exTable_wf.nz, exTable_wf.klen, exTable_wf.olen⟩
  obtain ⟨m, h1, h2, _⟩ := C11_effect (t := { exTable with id := 8 }) wf8 (env := stdEnv exTable) (stdEnv_ok { exTable with id := 8 })
    (fun fl h => exTable_fs fl h) (db := exDB) (f := ()) (m := fun _ => none) (trs := [(1, 9)])
    (C22_tables (c := .insert [(1, 5), (2, 6)]) (by decide) (stdEnv_ok exTable) (holds_empty _)) (covers_nofilter rfl _ _) (by decide) (by decide)
  exact ⟨m, h2 (1, 9) (by decide), C22_tables (by decide) (stdEnv_ok exTable) h1⟩

/-- C22 for user-space keys and the version key (tables have ids other than 0; user keys start with the user-space id). -/
theorem C22_reserved {t : Table T F} {env : Env T} (ok : env.OK t) {db : KV} {f : F} {ob : Option Batch} {c : WCall T}
    {k : Bytes} (hk : ∀ r, k ≠ t.id :: r) : (t.run env db f ob c).db.get k = db.get k := by
  apply (C22_outside ok db f ob c).1
  refine ⟨?_, ?_⟩
  · rintro ⟨r, hr⟩; exact hk _ hr
  · rintro idx _ ⟨r, hr⟩; exact hk _ hr

example : (exTable.run (stdEnv exTable) (KV.empty.set [8, 0, 0, 0, 0, 0, 1] [9]) () none (.insert [(1, 5)])).db.get [8, 0, 0, 0, 0, 0, 1] = some [9] := by
  decide

/-! ## C14 Indexes always agree with the data -/

/-- the record stored under a primary key (specification: decode the data entry) -/
def storedRow (t : Table T F) (db : KV) (pk : Bytes) : Option T := (db.get (dataKey t.id pk)).bind (t.deser t.nil)

/-- calls within the documented use: repeated keys only in calls that fit in one slice and never in Upsert; Upsert's
function keeps the key and its first argument; records given to Delete, UnsafeInsert and UnsafeUpdate are truthful about
what is stored -/
def GoodCall (t : Table T F) (db : KV) : WCall T → Prop
  | .insert trs => (trs.map t.pk).Nodup ∨ trs.length ≤ 5000
  | .update trs => (trs.map t.pk).Nodup ∨ trs.length ≤ 5000
  | .upsert oc trs => (trs.map t.pk).Nodup ∧ OnConflictOK t oc
  | .delete trs => ∀ x ∈ trs, ∀ old, storedRow t db (t.pk x) = some old → ∀ idx ∈ t.indexes, idx.filter old = true →
      idx.filter x = true ∧ t.indexKey idx x = t.indexKey idx old
  | .unsafeInsert trs => (trs.map t.pk).Nodup ∧ ∀ x ∈ trs, storedRow t db (t.pk x) = none
  | .unsafeUpdate trs olds => trs.length = olds.length → (trs.map t.pk).Nodup ∧
      ∀ p ∈ trs.zip olds, storedRow t db (t.pk p.1) = some p.2

/-- databases (and filter states) reachable by histories of calls on table `t`: a start without rows, any write call with
any legal environment (succeeding or failing), and any change by others outside the table -/
inductive Reach (t : Table T F) : KV → F → Prop
  | start {db : KV} (f : F) (h : ∀ k, ¬ Outside t k → db.get k = none) : Reach t db f
  | call {db : KV} {f : F} (h : Reach t db f) (env : Env T) (ok : env.OK t) (c : WCall T) (hc : GoodCall t db c) :
      Reach t (t.run env db f none c).db (t.run env db f none c).filt
  | others {db db' : KV} {f : F} (h : Reach t db f) (hs : SameInside t db db') : Reach t db' f

theorem storedRow_eq {t : Table T F} (rt : t.RoundTripFresh) {db : KV} {m : Rows T} (hH : Holds t db m) (pk : Bytes) :
    storedRow t db pk = m pk := by
  unfold storedRow
  cases hm : m pk with
  | none => rw [hH.absent pk hm]; rfl
  | some x =>
    obtain ⟨b, hb, hg⟩ := hH.present pk x hm
    rw [hg]; exact rt x b hb

theorem truthful_of {t : Table T F} : ∀ (ps : List (T × T)) (m : Rows T), (∀ p ∈ ps, m (t.pk p.1) = some p.2) →
    ((ps.map Prod.fst).map t.pk).Nodup → TruthfulOld t m ps := by
  intro ps
  induction ps with
  | nil => intros; trivial
  | cons p ps ih =>
    intro m h hn
    simp only [List.map_cons, List.nodup_cons] at hn
    refine ⟨h p (by simp), ih _ ?_ hn.2⟩
    intro q hq
    rw [put_apply, if_neg]
    · exact h q (by simp [hq])
    · intro e
      exact hn.1 (e ▸ List.mem_map.2 ⟨q.1, List.mem_map.2 ⟨q, hq, rfl⟩, rfl⟩)

theorem run_view_nobatch (t : Table T F) (env : Env T) (db : KV) (f : F) (c : WCall T) :
    (t.run env db f none c).view = (t.run env db f none c).db := by
  rw [Table.run_eq]
  split
  · rfl
  · unfold WOut.view; rw [finish_nobatch]; rfl

/-- C14. After any history of good calls, succeeding or failing, every index holds exactly one entry per stored record
accepted by its filter, and the filter covers the stored rows.
Missing for the full C14: the calls excluded by `GoodCall`; for these the statement is false (`C16_refuted_index`,
`C17_refuted`, `C12_across_slices`). -/
theorem C14_partial {t : Table T F} (wf : t.WF) (rt : t.RoundTrip) (fs : t.FilterSound) {db : KV} {f : F} (h : Reach t db f) :
    ∃ m, Holds t db m ∧ FilterCovers t f m := by
  have rtf : t.RoundTripFresh := fun x b hb => rt x b hb _
  induction h with
  | start f h => exact ⟨_, holds_none h, by intro fl _ pk x hx; simp at hx⟩
  | others h hs ih =>
    obtain ⟨m, h1, h2⟩ := ih
    exact ⟨m, h1.congr hs, h2⟩
  | @call db f h env ok c hc ih =>
    obtain ⟨m, hH, hF⟩ := ih
    by_cases he : (t.run env db f none c).err = none
    · have hv := run_view_nobatch t env db f c
      cases c with
      | insert trs =>
        obtain ⟨a, _, b, _⟩ := insert_view wf ok fs (by decide : 0 < persistentBatchSize) (ob := none) hH hF (callReads_none hc) he
        exact ⟨_, hv ▸ a, b⟩
      | update trs =>
        obtain ⟨a, _, b, _⟩ := update_view wf ok rt (by decide : 0 < persistentBatchSize) (ob := none) hH hF (callReads_none hc) he
        exact ⟨_, hv ▸ a, b⟩
      | upsert oc trs =>
        obtain ⟨a, _, b⟩ := upsert_view wf ok rt fs (by decide : 0 < persistentBatchSize) (ob := none) hc.2 hc.1 hH hF
          (callReads_none (Or.inl hc.1)) he
        exact ⟨_, hv ▸ a, b⟩
      | delete trs =>
        obtain ⟨a, _, b⟩ := delete_view wf ok (ob := none) hH hF (trs := trs) (fun x hx old ho => hc x hx old
          (by rw [storedRow_eq rtf hH]; exact ho)) he
        exact ⟨_, hv ▸ a, b⟩
      | unsafeInsert trs =>
        obtain ⟨a, _, b⟩ := unsafeInsert_view wf ok fs (by decide : 0 < persistentBatchSize) (ob := none) hH hF hc.1
          (fun x hx => by rw [← storedRow_eq rtf hH]; exact hc.2 x hx) he
        exact ⟨_, hv ▸ a, b⟩
      | unsafeUpdate trs olds =>
        have hlen : trs.length = olds.length := by
          apply Classical.byContradiction
          intro hne
          rw [Table.run_eq] at he
          simp [WCall.mismatch, hne] at he
        obtain ⟨h1, h2⟩ := hc hlen
        obtain ⟨a, _, b⟩ := unsafeUpdate_view wf ok (ob := none) hH hF (truthful_of _ m
          (fun p hp => by rw [← storedRow_eq rtf hH]; exact h2 p hp) (by rw [List.map_fst_zip (by omega)]; exact h1)) he
        exact ⟨_, hv ▸ a, b⟩
    · have hdb : (t.run env db f none c).db = db := ((C13 t env db f c).1 he).1
      rw [hdb]
      refine ⟨m, hH, ?_⟩
      rw [Table.run_eq]
      split
      · exact hF
      · rw [finish_filt]
        exact (Table.body_step ok db none (t.start f) c).filt fs m hF

/-- a non-trivial reachable database -/
example : Reach exTable exDB () :=
  Reach.call (Reach.start () (fun _ _ => rfl)) (stdEnv exTable) (stdEnv_ok _) (.insert [(1, 5), (2, 6)]) (Or.inl (by decide))

/-- C14 is false without the restriction: after Insert of (1,5) and Upsert of (1,6),(1,7) no row content agrees with the
index. -/
theorem C14_refuted : ¬ ∃ m, Holds exTable (exTable.upsert (stdEnv exTable) exDB () none ocNew [(1, 6), (1, 7)]).db m := by
  rintro ⟨m, h⟩
  obtain ⟨h1, h2, h3⟩ := C16_refuted_index
  obtain ⟨_, pk, x, hm, _, hk⟩ := (h.index exIndex (by simp [exTable]) _ _ (inSpace_indexKey exTable exIndex (1, 5))).1 h3
  have hpk := exTable_wf.indexKey_pk (by simp [exTable]) hk
  have hx := h.row_pk _ _ hm
  rw [← hpk] at hx
  subst hx
  obtain ⟨b, hb, hg⟩ := h.present _ _ hm
  have h2' : (exTable.upsert (stdEnv exTable) exDB () none ocNew [(1, 6), (1, 7)]).db.get (dataKey exTable.id (exTable.pk (1, 5))) = some [1, 7] := h2
  rw [h2'] at hg
  simp only [exTable, Option.some.injEq] at hb hg
  rw [← hg] at hb
  simp only [List.cons.injEq, and_true] at hb
  obtain ⟨a, g⟩ := x
  simp only at hb
  obtain ⟨rfl, rfl⟩ := hb
  revert hk
  decide

end Bond

