import Verif.FilterHistory
/-
C19, C20, C21, C38 and C61: point reads, histories, batches and filters.
-/
namespace Bond
open Spec
variable {T F : Type}

/-! ## C20 Get with several points is positional -/

/-- C20. `Get(NewSelectorPoints(p1, …, pn))` gives n results, the i-th being the stored record with the primary key of
`pi`, or the nil value, for any order and repetition of the points, without batch or through a read-write batch.
Missing for the full C20: records whose serialized form is empty (`C20_refuted`). -/
theorem C20_partial {t : Table T F} (rt : t.RoundTripFresh) {env : Env T} (ok : env.OK t) {f : F} {m : Rows T} {db : KV}
    {ob : Option Batch} (hb : Readable ob) (hH : Holds t (baseView db ob) m) (hF : FilterCovers t f m) {pts : List T}
    (hne : ∀ p ∈ pts, ∀ x, m (t.pk p) = some x → t.ser x ≠ some []) :
    t.getMany env f db ob pts = .ok (pts.map (fun p => (m (t.pk p)).getD t.nil)) := by
  rw [getMany_values ok (readable_eq hb) hH hF, decodeAll_eq rt hH pts hne]

example : exTable.getMany (stdEnv exTable) () exDB none [(2, 0), (9, 0), (1, 0), (2, 1)] = .ok [(2, 6), (0, 0), (1, 5), (2, 6)] := by
  rw [C20_partial (db := exDB) (ob := none) (fun x b h => exTable_rt x b h _) (stdEnv_ok _) (by intro b hb; simp at hb) exDB_holds (covers_nofilter rfl _ _)
    (by intro p _ x _; simp [exTable])]
  decide

/-- a table of pointer records serialized without default values, as protobuf does: the record 0 has no bytes -/
def protoTable : Table (Option UInt8) Unit where
  id := 7
  pk := fun x => [x.getD 0]
  indexes := []
  ser := fun x => some (if x.getD 0 = 0 then [] else [8, x.getD 0])
  deser := fun _ b => some (some (b.getD 1 0))
  nil := none
  empty := some 0
  filter := none
  prefetch := 100

/-- C20 is false for a record with empty serialized form: after inserting the record 0, Get of its key returns the nil value,
while GetPoint returns the record. -/
theorem C20_refuted :
    let db := (protoTable.insert (stdEnv protoTable) KV.empty () none [some 0, some 3]).db
    protoTable.getMany (stdEnv protoTable) () db none [some 0, some 3] = .ok [none, some 3] ∧
    protoTable.getPoint () db none (some 0) = .ok (some 0) := by
  constructor <;> rfl

/-! ## C21 Get and Exist return the latest committed write -/

/-- C21. After any history of calls (successful ones `cs`, failed ones in between, changes by others), GetPoint returns the
record the history specifies for the key, or ErrNotFound if the specified content has none; Exist agrees.
Missing for the full C21: calls outside `GoodRun` (C12, C16, C17, C60). -/
theorem C21_partial {t : Table T F} (wf : t.WF) (rt : t.RoundTrip) (fs : t.FilterSound) {cs : List (WCall T)} {db : KV} {f : F}
    (h : History t cs db f) (x : T) :
    t.getPoint f db none x = (match content t.pk cs (t.pk x) with | some y => .ok y | none => .error .notFound) ∧
    t.exist f db none x = (content t.pk cs (t.pk x)).isSome := by
  obtain ⟨hH, hF⟩ := history_holds wf rt fs h
  exact ⟨getPoint_eq (fun x b hb => rt x b hb _) rfl hH hF x, exist_eq rfl hH hF x⟩

/-- the specified content: the last insert, update or upsert of the key decides, unless a delete came later -/
theorem C21_last_put (pk : T → Bytes) (cs : List (WCall T)) (trs : List T) (hn : (trs.map pk).Nodup) {x : T} (hx : x ∈ trs)
    (c : WCall T) (hc : c = .insert trs ∨ c = .update trs) :
    content pk (cs ++ [c]) (pk x) = some x := by
  unfold content
  rw [List.foldl_append]
  rcases hc with rfl | rfl <;> exact putAll_mem _ pk hn hx

/-- the theorem at an update after a delete of the same row -/
example : content exTable.pk ([.insert [(1, 5)], .delete [(1, 5)]] ++ [.insert [(2, 6), (1, 8)]]) [1] = some (1, 8) :=
  C21_last_put exTable.pk _ [(2, 6), (1, 8)] (by decide) (x := (1, 8)) (by decide) _ (.inl rfl)

theorem eraseAll_mem (m : Rows T) (ps : List Bytes) {p : Bytes} (h : p ∈ ps) : m.eraseAll ps p = none := by
  rw [eraseAll_apply, if_pos h]

theorem C21_last_delete (pk : T → Bytes) (cs : List (WCall T)) (trs : List T) {x : T} (hx : pk x ∈ trs.map pk) :
    content pk (cs ++ [.delete trs]) (pk x) = none := by
  unfold content
  rw [List.foldl_append]
  exact eraseAll_mem _ _ hx

/-- the theorem at a delete that gives the key only -/
example : content exTable.pk ([.insert [(1, 5), (2, 6)]] ++ [.delete [(1, 0)]]) [1] = none :=
  C21_last_delete exTable.pk [.insert [(1, 5), (2, 6)]] [(1, 0)] (x := (1, 0)) (by decide)

/-- other keys are not affected by a call that does not mention them -/
theorem C21_untouched (pk : T → Bytes) (cs : List (WCall T)) {p : Bytes} (c : WCall T)
    (hc : match c with
      | .insert trs | .update trs | .delete trs | .upsert _ trs | .unsafeInsert trs | .unsafeUpdate trs _ => p ∉ trs.map pk) :
    content pk (cs ++ [c]) p = content pk cs p := by
  unfold content
  rw [List.foldl_append]
  have hput : ∀ (m : Rows T) (trs : List T), p ∉ trs.map pk → m.putAll pk trs p = m p := fun m trs h =>
    putAll_other _ pk _ p (fun x hx e => h (List.mem_map.2 ⟨x, hx, e⟩))
  cases c with
  | insert trs => exact hput _ _ hc
  | update trs => exact hput _ _ hc
  | unsafeInsert trs => exact hput _ _ hc
  | unsafeUpdate trs olds => exact hput _ _ hc
  | delete trs =>
    simp only [List.foldl_cons, List.foldl_nil, effect]
    rw [eraseAll_apply, if_neg hc]
  | upsert oc trs =>
    simp only [List.foldl_cons, List.foldl_nil, effect]
    exact upsertAll_other _ pk _ trs p (fun x hx e => hc (List.mem_map.2 ⟨x, hx, e⟩))

/-- a history: insert two rows, fail an insert, update one, delete the other -/
example : ∃ cs db f, History exTable cs db f ∧ cs.length = 3 ∧ exTable.getPoint f db none (1, 0) = .ok (1, 9) ∧
    exTable.getPoint f db none (2, 0) = .error .notFound := by
  refine ⟨_, _, _, History.succeeded (History.succeeded (History.failed (History.succeeded (History.start (db := KV.empty) () (fun _ _ => rfl))
    (stdEnv exTable) (stdEnv_ok _) (.insert [(2, 6), (1, 5)]) ⟨Or.inl (by decide), by intro _ h; cases h⟩ (by decide))
    (stdEnv exTable) (stdEnv_ok _) (.insert [(3, 3), (1, 7)]) (by decide))
    (stdEnv exTable) (stdEnv_ok _) (.update [(1, 9)]) ⟨Or.inl (by decide), by intro _ h; cases h; exact Or.inl (by decide)⟩ (by decide))
    (stdEnv exTable) (stdEnv_ok _) (.delete [(2, 6)]) ⟨?_, by intro _ h; cases h⟩ (by decide), rfl, by decide, by decide⟩
  intro x hx old ho idx hi hf
  simp only [List.mem_singleton] at hx
  subst hx
  have : storedRow exTable (exTable.run (stdEnv exTable) (exTable.run (stdEnv exTable) (exTable.run (stdEnv exTable) KV.empty () none
    (.insert [(2, 6), (1, 5)])).db () none (.insert [(3, 3), (1, 7)])).db () none (.update [(1, 9)])).db [2] = some (2, 6) := by decide
  have ho' := ho.symm.trans this
  cases ho'
  exact ⟨hf, rfl⟩

/-! ## C38 A filter never changes results -/

/-- running calls one after the other: final database, filter state and the results -/
def runAll (t : Table T F) : List (Env T × WCall T) → KV → F → KV × F × List (Option Err)
  | [], db, f => (db, f, [])
  | (env, c) :: l, db, f =>
    let o := t.run env db f none c
    let r := runAll t l o.db o.filt
    (r.1, r.2.1, o.err :: r.2.2)

/-- databases and filter states reachable when the filter was attached from the start: no rows, then any calls (with any
arguments, succeeding or failing) other than UnsafeUpdate, and changes by others outside the table -/
inductive FilterReach (t : Table T F) : KV → F → Prop
  | start {db : KV} (f : F) (h : ∀ k, ¬ Outside t k → db.get k = none) : FilterReach t db f
  | call {db : KV} {f : F} (h : FilterReach t db f) (env : Env T) (ok : env.OK t) (c : WCall T) (hc : c.notUnsafeUpdate = true) :
      FilterReach t (t.run env db f none c).db (t.run env db f none c).filt
  | others {db db' : KV} {f : F} (h : FilterReach t db f) (hs : SameInside t db db') : FilterReach t db' f

theorem filterReach_cov {t : Table T F} (wf : t.WF) (fs : t.FilterSound) {db : KV} {f : F} (h : FilterReach t db f) :
    CovKV t f db := by
  induction h with
  | start f h =>
    intro fl _ pk hg
    rw [h _ (fun ho => ho.1 (inSpace_dataKey t.id pk))] at hg
    simp at hg
  | call h env ok c hc ih => exact run_cov wf fs ok ih hc
  | others h hs ih =>
    intro fl hfl pk hg
    rw [hs _ (fun ho => ho.1 (inSpace_dataKey t.id pk))] at hg
    exact ih fl hfl pk hg

/-- C38 for writes: from any reachable state, any sequence of Insert, Update, Upsert, Delete and UnsafeInsert calls, with any
arguments, returns the same results and leaves the same database as on the table without filter. -/
theorem C38_writes {t : Table T F} (wf : t.WF) (fs : t.FilterSound) (f0 : F) :
    ∀ (l : List (Env T × WCall T)) (db : KV) (f : F), FilterReach t db f →
    (∀ e ∈ l, e.1.OK t ∧ e.2.notUnsafeUpdate = true) →
    (runAll t l db f).1 = (runAll t.noFilter l db f0).1 ∧ (runAll t l db f).2.2 = (runAll t.noFilter l db f0).2.2 := by
  intro l
  induction l generalizing f0 with
  | nil => intros; exact ⟨rfl, rfl⟩
  | cons e l ih =>
    intro db f hR hg
    obtain ⟨env, c⟩ := e
    obtain ⟨ok, hc⟩ := hg (env, c) (by simp)
    obtain ⟨h1, _, h2, _⟩ := run_same fs ok (ob := none) (fun _ => rfl) f0 (filterReach_cov wf fs hR) c
    obtain ⟨a, b⟩ := ih (t.noFilter.run env db f0 none c).filt _ _ (FilterReach.call hR env ok c hc) (fun e he => hg e (by simp [he]))
    simp only [runAll]
    rw [← h1, ← h2, a, b]
    exact ⟨rfl, rfl⟩

/-- C38 for one call through a read-write batch -/
theorem C38_batch {t : Table T F} (wf : t.WF) (rt : t.RoundTrip) (fs : t.FilterSound) {env : Env T} (ok : env.OK t) {db : KV}
    {b : Batch} (hb : b.indexed = true) {f : F} (f0 : F) {m : Rows T} (hH : Holds t (db.apply b.ops) m)
    (hF : FilterCovers t f m) {c : WCall T} (hg : GoodCall t (db.apply b.ops) c) :
    (t.run env db f (some b) c).batch = (t.noFilter.run env db f0 (some b) c).batch ∧
    (t.run env db f (some b) c).err = (t.noFilter.run env db f0 (some b) c).err := by
  obtain ⟨_, h1, h2, _⟩ := run_same_rw wf rt fs ok hb f0 hH hF hg
  exact ⟨h1, h2⟩

/-- C38 for reads: Exist, GetPoint and Get of points answer as without filter. -/
theorem C38_reads {t : Table T F} (wf : t.WF) (fs : t.FilterSound) {env : Env T} (ok : env.OK t) {db : KV} {f : F} (f0 : F)
    (h : FilterReach t db f) (x : T) (pts : List T) :
    t.exist f db none x = t.noFilter.exist f0 db none x ∧ t.getPoint f db none x = t.noFilter.getPoint f0 db none x ∧
    t.getMany env f db none pts = t.noFilter.getMany env f0 db none pts :=
  reads_same ok f0 rfl (filterReach_cov wf fs h) x pts

/-- a filter that remembers exactly the added keys -/
def setFilter : Filter (List Bytes) := { add := fun f k => k :: f, may := fun f k => f.contains k }

/-- `exTable` with that filter -/
def exFilterTable : Table (UInt8 × UInt8) (List Bytes) :=
  { id := 7, pk := exTable.pk, indexes := exTable.indexes, ser := exTable.ser, deser := exTable.deser, nil := (0, 0),
    empty := (0, 0), filter := some setFilter, prefetch := 100 }

theorem exFilterTable_sound : exFilterTable.FilterSound := by
  intro fl h f k
  cases h
  simp [setFilter]
  intro k' h; exact Or.inr h

theorem exFilterTable_wf : exFilterTable.WF := ⟨exTable_wf.ids, exTable_wf.nz, exTable_wf.klen, exTable_wf.olen⟩

/-- `C38_reads` after an Insert -/
example := C38_reads exFilterTable_wf exFilterTable_sound (stdEnv_ok exFilterTable) []
  (FilterReach.call (FilterReach.start (db := KV.empty) [] (fun _ _ => rfl)) (stdEnv exFilterTable) (stdEnv_ok _) (.insert [(1, 5), (2, 6)]) rfl)
  (2, 0) [(1, 0), (3, 0)]

/-- `C38_writes` at an Insert that succeeds and one that fails -/
example := C38_writes exFilterTable_wf exFilterTable_sound []
  [(stdEnv exFilterTable, .insert [(1, 5), (2, 6)]), (stdEnv exFilterTable, .insert [(2, 7)])] KV.empty []
  (FilterReach.start [] (fun _ _ => rfl)) (by
    intro e he
    simp only [List.mem_cons, List.not_mem_nil, or_false] at he
    rcases he with rfl | rfl <;> exact ⟨stdEnv_ok _, rfl⟩)

/-- `C38_batch` at an Insert given a read-write batch over a database with two rows, with the filter that knows them -/
example : ∃ f : List Bytes, (exFilterTable.run (stdEnv exFilterTable) exDB f (some ⟨true, []⟩) (.insert [(3, 7), (2, 8)])).err =
    (exFilterTable.noFilter.run (stdEnv exFilterTable) exDB [] (some ⟨true, []⟩) (.insert [(3, 7), (2, 8)])).err := by
  obtain ⟨m, h1, _, _, _, h2⟩ := C11_effect exFilterTable_wf (stdEnv_ok exFilterTable) exFilterTable_sound (f := [])
    (trs := [(1, 5), (2, 6)]) (holds_empty exFilterTable) (by intro fl _ pk h; simp at *) (by decide) (by decide)
  exact ⟨_, (C38_batch (t := exFilterTable) exFilterTable_wf exTable_rt exFilterTable_sound (stdEnv_ok exFilterTable) (b := ⟨true, []⟩) rfl
    [] h1 h2 (c := .insert [(3, 7), (2, 8)]) (.inl (by decide))).2⟩

/-- hypotheses of C38_writes on a non-trivial case -/
example : FilterReach exFilterTable KV.empty [] ∧
    (∀ e ∈ [(stdEnv exFilterTable, WCall.insert [(1, 5), (2, 6)]), (stdEnv exFilterTable, .insert [(2, 7)])],
      e.1.OK exFilterTable ∧ e.2.notUnsafeUpdate = true) ∧
    (runAll exFilterTable [(stdEnv exFilterTable, .insert [(1, 5), (2, 6)]), (stdEnv exFilterTable, .insert [(2, 7)])] KV.empty []).2.2 =
      [none, some .alreadyExist] := by
  refine ⟨FilterReach.start [] (fun _ _ => rfl), ?_, by decide⟩
  intro e he
  simp only [List.mem_cons, List.not_mem_nil, or_false] at he
  rcases he with rfl | rfl <;> exact ⟨stdEnv_ok _, rfl⟩

/-- UnsafeUpdate of a row that is not stored (outside its contract) breaks the cover: the row is stored but not found -/
theorem C38_unsafeUpdate : let o := exFilterTable.unsafeUpdate (stdEnv exFilterTable) KV.empty [] none [(1, 5)] [(1, 4)]
    exFilterTable.exist o.filt o.db none (1, 0) = false ∧ exFilterTable.noFilter.exist o.filt o.db none (1, 0) = true := by decide

/-- without the condition "attached from the start" a filter does change results: a stale filter makes Insert overwrite -/
theorem C38_stale : (exFilterTable.insert (stdEnv exFilterTable) exDB [] none [(1, 9)]).err = none ∧
    (exFilterTable.noFilter.insert (stdEnv exFilterTable) exDB [] none [(1, 9)]).err = some .alreadyExist := by decide

/-! ## C19 A batch is invisible until committed, then applied atomically -/

/-- successful good calls given the read-write batch: the calls, the batch and the filter state now. Nothing else changes
the database meanwhile. -/
inductive OnBatch (t : Table T F) (db : KV) (f : F) : List (WCall T) → Batch → F → Prop
  | start : OnBatch t db f [] ⟨true, []⟩ f
  | call {cs : List (WCall T)} {b b' : Batch} {g : F} (h : OnBatch t db f cs b g) (env : Env T) (ok : env.OK t) (c : WCall T)
      (hg : GoodRun t env (db.apply b.ops) c) (he : (t.run env db g (some b) c).err = none)
      (hb : (t.run env db g (some b) c).batch = some b') : OnBatch t db f (cs ++ [c]) b' (t.run env db g (some b) c).filt

theorem run_db_batch (t : Table T F) (env : Env T) (db : KV) (f : F) (b : Batch) (c : WCall T) :
    (t.run env db f (some b) c).db = db ∧ (t.run env db f (some b) c).commits = [] := by
  rw [Table.run_eq]
  split
  · exact ⟨rfl, rfl⟩
  · exact ⟨rfl, rfl⟩

/-- C19, invisible: whatever call is given a batch (of either kind, with any outcome), the database is unchanged, nothing is
committed, and reads without the batch return the same afterwards, also with the filter state left by the call. -/
theorem C19_invisible {t : Table T F} (rt : t.RoundTripFresh) (fs : t.FilterSound) {env env' : Env T} (ok : env.OK t)
    (ok' : env'.OK t) {db : KV} {f : F} {m : Rows T} (hH : Holds t db m) (hF : FilterCovers t f m) (b : Batch) (c : WCall T)
    (x : T) (pts : List T) :
    let o := t.run env db f (some b) c
    o.db = db ∧ o.commits = [] ∧ t.exist o.filt o.db none x = t.exist f db none x ∧
    t.getPoint o.filt o.db none x = t.getPoint f db none x ∧
    t.getMany env' o.filt o.db none pts = t.getMany env' f db none pts := by
  obtain ⟨h1, h2⟩ := run_db_batch t env db f b c
  have hF' := run_filt_covers fs ok db (some b) c hF
  simp only
  rw [h1]
  refine ⟨rfl, h2, ?_, ?_, ?_⟩
  · rw [exist_eq rfl hH hF, exist_eq rfl hH hF']
  · rw [getPoint_eq rt rfl hH hF, getPoint_eq rt rfl hH hF']
  · rw [getMany_values ok' rfl hH hF, getMany_values ok' rfl hH hF']

/-- the theorem at a failing Insert given a read-write batch -/
example := C19_invisible (t := exTable) (fun x b hb => exTable_rt x b hb _) exTable_fs (stdEnv_ok exTable) (stdEnv_ok exTable) (f := ())
  exDB_holds (covers_nofilter rfl _ _) ⟨true, []⟩ (.insert [(3, 7), (1, 9)]) (3, 0) [(3, 0), (1, 0)]

/-- C19, own writes: after any successful good calls on a read-write batch, reads through it show the content of the database
with the effects of these calls. -/
theorem C19_own {t : Table T F} (wf : t.WF) (rt : t.RoundTrip) (fs : t.FilterSound) {db : KV} {f g : F} {m : Rows T}
    (hH : Holds t db m) (hF : FilterCovers t f m) {cs : List (WCall T)} {b : Batch} (h : OnBatch t db f cs b g) :
    b.indexed = true ∧ Holds t (db.apply b.ops) (cs.foldl (effect t.pk) m) ∧ SameOutside t db (db.apply b.ops) ∧
    FilterCovers t g (cs.foldl (effect t.pk) m) ∧
    ∀ x, t.getPoint g db (some b) x =
        (match cs.foldl (effect t.pk) m (t.pk x) with | some y => .ok y | none => .error .notFound) ∧
      t.exist g db (some b) x = (cs.foldl (effect t.pk) m (t.pk x)).isSome := by
  have main : b.indexed = true ∧ Holds t (db.apply b.ops) (cs.foldl (effect t.pk) m) ∧ SameOutside t db (db.apply b.ops) ∧
      FilterCovers t g (cs.foldl (effect t.pk) m) := by
    induction h with
    | start => exact ⟨rfl, hH, SameOutside.refl _ _, hF⟩
    | @call cs b b' g h env ok c hg he hb ih =>
      obtain ⟨i1, i2, i3, i4⟩ := ih
      have hrd : Readable (some b) := by intro b'' hb''; cases hb''; exact i1
      obtain ⟨a1, a2, a3⟩ := run_effect wf rt fs ok hrd i2 i4 hg he
      have hv : (t.run env db g (some b) c).view = db.apply b'.ops := by
        unfold WOut.view; rw [hb, (run_db_batch t env db g b c).1]; rfl
      rw [hv] at a1 a2
      rw [List.foldl_append]
      exact ⟨run_batch_indexed t env db g c hrd b' hb, a1, fun k hk => (a2 k hk).trans (i3 k hk), a3⟩
  obtain ⟨h1, h2, h3, h4⟩ := main
  have hr : readable db (some b) = some (db.apply b.ops) := by simp [readable, h1]
  exact ⟨h1, h2, h3, h4, fun x => ⟨getPoint_eq (fun x b hb => rt x b hb _) hr h2 h4 x, exist_eq hr h2 h4 x⟩⟩

/-- the theorem at a batch with one Insert -/
example : ∃ b g, exTable.getPoint g exDB (some b) (3, 0) = .ok (3, 7) := by
  obtain ⟨_, _, _, _, h⟩ := C19_own exTable_wf exTable_rt exTable_fs (f := ()) exDB_holds (covers_nofilter rfl _ _)
    (OnBatch.call OnBatch.start (stdEnv exTable) (stdEnv_ok _) (.insert [(3, 7)]) ⟨Or.inl (by decide), by intro _ h; cases h⟩ (by decide) rfl)
  exact ⟨_, _, (h (3, 0)).1⟩

/-- C19, commit: a commit that succeeds makes the database what the batch showed; one that fails changes nothing. -/
theorem C19_commit (okc : Bool) (db : KV) {b : Batch} (hb : b.indexed = true) :
    ((b.commit okc db).2 = none → readable db (some b) = some (b.commit okc db).1) ∧
    ((b.commit okc db).2 ≠ none → (b.commit okc db).1 = db) := by
  unfold Batch.commit
  simp only [readable, hb, if_true]
  split
  · rename_i h; simp [h, KV.apply_nil]
  · split <;> simp

/-- the theorem at a batch that deletes a stored row and sets a new one -/
example := C19_commit true exDB (b := ⟨true, [.del (dataKey 7 [1]), .set [9] [9]]⟩) rfl

/-- C19, equivalence: good calls through a read-write batch followed by a successful commit give the same database as the same
calls made directly, whatever choices the runtime makes in either case. -/
theorem C19_equiv {t : Table T F} (wf : t.WF) (rt : t.RoundTrip) (fs : t.FilterSound) {db : KV} {f g f' : F} {cs cs' : List (WCall T)}
    {b : Batch} {db' : KV} (hs : History t cs' db f) (h : OnBatch t db f cs b g) (hd : History t (cs' ++ cs) db' f')
    (hso : SameOutside t db db') (hc : (b.commit true db).2 = none) : (b.commit true db).1 = db' := by
  obtain ⟨hH, hF⟩ := history_holds wf rt fs hs
  obtain ⟨h1, h2, h3, _⟩ := C19_own wf rt fs hH hF h
  have h4 := (C19_commit true db h1).1 hc
  simp only [readable, h1, if_true, Option.some.injEq] at h4
  rw [← h4]
  have h5 := (history_holds wf rt fs hd).1
  unfold content at h5 h2
  rw [List.foldl_append] at h5
  exact holds_unique h2 h5 (fun k hk => (hso k hk).trans (h3 k hk).symm)

example : ∃ b g, OnBatch exTable exDB () [.insert [(3, 7)]] b g ∧ (b.commit true exDB).2 = none ∧
    exTable.getPoint g exDB (some b) (3, 0) = .ok (3, 7) ∧ exTable.getPoint g exDB none (3, 0) = .error .notFound ∧
    exTable.getPoint g (b.commit true exDB).1 none (3, 0) = .ok (3, 7) :=
  ⟨_, _, OnBatch.call OnBatch.start (stdEnv exTable) (stdEnv_ok _) (.insert [(3, 7)])
    ⟨Or.inl (by decide), by intro _ h; cases h⟩ (by decide) rfl, by decide, by decide, by decide, by decide⟩

/-! ## C61 A failed call leaves its batch unchanged -/

/-- C61 is false: an Insert that fails on its second row leaves the first row in the caller's batch; committing the batch
stores it. -/
theorem C61_refuted :
    let o := exTable.insert (stdEnv exTable) exDB () (some ⟨true, []⟩) [(0, 4), (1, 9)]
    o.err = some .alreadyExist ∧ o.batch ≠ some ⟨true, []⟩ ∧
    ∀ b, o.batch = some b → exTable.getPoint () (b.commit true exDB).1 none (0, 0) = .ok (0, 4) := by
  refine ⟨by decide, by decide, ?_⟩
  intro b hb
  cases hb
  decide

/-- C61, what holds: the writes already in the batch stay first, the database is untouched and no key of another table is
written. -/
theorem C61_partial {t : Table T F} {env : Env T} (ok : env.OK t) (db : KV) (f : F) (b : Batch) (c : WCall T) :
    ∃ l, (t.run env db f (some b) c).batch = some ⟨b.indexed, b.ops ++ l⟩ ∧ OwnOps t l ∧ (t.run env db f (some b) c).db = db := by
  rw [Table.run_eq]
  split
  · exact ⟨[], by simp, by intro o ho; simp at ho, rfl⟩
  · obtain ⟨l, hl, ho⟩ := (Table.body_step ok db (some b) (t.start f) c).ops
    refine ⟨l, ?_, ho, rfl⟩
    simp only [finish]
    rw [hl]; rfl

example : (exTable.insert (stdEnv exTable) exDB () (some ⟨true, [.del [9]]⟩) [(0, 4), (1, 9)]).err = some .alreadyExist := by decide

end Bond
