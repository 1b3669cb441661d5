import Verif.FailLemmas
import Verif.Props.Batches
/-
C96: batches on which a call has failed.
-/
namespace Bond
open Spec
variable {T F : Type}

theorem run_view_batch {t : Table T F} {env : Env T} (ok : env.OK t) (db : KV) (f : F) (b : Batch) (c : WCall T) :
    (t.run env db f (some b) c).view = db.apply (t.run env db f (some b) c).batchOps := by
  unfold WOut.view WOut.batchOps
  obtain ⟨l', hl', _⟩ := C61_partial ok db f b c
  rw [hl', (run_db_batch t env db f _ c).1]; rfl

/-- C96 (one call): after a write call on a read-write batch, whether it succeeds or not, the batch shows the rows it showed before with
the effect of the same call on a part of the rows given, of all if it succeeded; every index agrees with them. So no row is there
by half. If there are at most 5000 rows, Insert, Update and Upsert have dealt with those with the least keys; Delete and the unsafe
calls have dealt with the first ones. -/
theorem C96_call {t : Table T F} (wf : t.WF) (rt : t.RoundTrip) (fs : t.FilterSound) {env : Env T} (ok : env.OK t)
    {db : KV} {f : F} {b : Batch} {m : Rows T} {c : WCall T} (hb : b.indexed = true)
    (hH : Holds t (db.apply b.ops) m) (hF : FilterCovers t f m) (hg : GoodRun t env (db.apply b.ops) c) :
    ∃ c', PartCall t.key c' c ∧ ((t.run env db f (some b) c).err = none → c' = c) ∧
      Holds t (db.apply (t.run env db f (some b) c).batchOps) (effect t.pk m c') ∧
      (∀ k, Outside t k → (db.apply (t.run env db f (some b) c).batchOps).get k = (db.apply b.ops).get k) ∧
      FilterCovers t (t.run env db f (some b) c).filt (effect t.pk m c') := by
  rw [← run_view_batch ok]
  by_cases he : (t.run env db f (some b) c).err = none
  · obtain ⟨a1, a2, a3⟩ := run_effect wf rt fs ok (ob := some b) (by intro b' hb'; cases hb'; exact hb) hH hF hg he
    refine ⟨c, ?_, fun _ => rfl, a1, a2, a3⟩
    have hs : ∀ l : List T, SomeRows t.key l l := fun l => ⟨[], by simp, by simp⟩
    cases c <;> first | exact hs _ | exact ⟨rfl, hs _⟩ | exact List.prefix_rfl | exact ⟨rfl, List.prefix_rfl⟩
  · obtain ⟨c', h0, h1, h2, h3⟩ := run_part wf rt fs ok hb hH hF hg
    exact ⟨c', h0, fun h => absurd h he, h1, h2, h3⟩

/-- the Insert of rows 0, 3 and 1 on a batch fails, because row 1 is stored; row 0 is in the batch with its index entry, row 3 is not -/
example : let o := exTable.insert (stdEnv exTable) exDB () (some ⟨true, []⟩) [(3, 4), (0, 4), (1, 9)]
    o.err = some .alreadyExist ∧ (exDB.apply o.batchOps).get (exTable.key (0, 4)) = some [0, 4] ∧
    (exDB.apply o.batchOps).get (exTable.indexKey exIndex (0, 4)) = some [] ∧ (exDB.apply o.batchOps).get (exTable.key (3, 4)) = none ∧
    GoodRun exTable (stdEnv exTable) (exDB.apply []) (.insert [(3, 4), (0, 4), (1, 9)]) := by
  exact ⟨by decide, by decide, by decide, by decide, Or.inl (by decide), by intro trs h; cases h⟩

theorem fill_parts {t : Table T F} (wf : t.WF) (rt : t.RoundTrip) (fs : t.FilterSound) {db : KV}
    (l : List ((Env T × WCall T) ⊕ List WOp)) : ∀ {s : Filling F} {m : Rows T},
    FillOK t true (fun env V c => GoodRun t env V c) db s l → Holds t (db.apply s.ops) m → FilterCovers t s.filt m →
    ∃ ds es, (l.foldl (fill1 t true db) s).res = s.res ++ es ∧ Parts t.key ds (callsOf l) es ∧
      Holds t (db.apply (l.foldl (fill1 t true db) s).ops) (ds.foldl (effect t.pk) m) ∧
      FilterCovers t (l.foldl (fill1 t true db) s).filt (ds.foldl (effect t.pk) m) := by
  induction l with
  | nil => intro s m _ hH hF; exact ⟨[], [], by simp, .nil, hH, hF⟩
  | cons x l ih =>
    intro s m hok hH hF
    rcases x with ⟨env, c⟩ | ops
    · obtain ⟨⟨ok, hg⟩, hok⟩ := hok
      obtain ⟨c', h0, h1, h2, _, h3⟩ := C96_call wf rt fs ok (b := ⟨true, s.ops⟩) rfl hH hF hg
      obtain ⟨ds, es, g1, g2, g3, g4⟩ := ih (s := fill1 t true db s (.inl (env, c))) hok h2 h3
      refine ⟨c' :: ds, (t.run env db s.filt (some ⟨true, s.ops⟩) c).err :: es, ?_, ?_, g3, g4⟩
      · rw [List.foldl_cons, g1]; simp [fill1]
      · cases he : (t.run env db s.filt (some ⟨true, s.ops⟩) c).err with
        | none => rw [h1 he]; exact .ok g2
        | some e => exact .failed h0 g2
    · obtain ⟨ho, hok⟩ := hok
      refine ih (s := fill1 t true db s (.inr ops)) hok ?_ hF
      simp only [fill1]
      rw [KV.apply_append]
      exact hH.congr (fun k hk => get_outside ho _ hk)

/-- C96 (a batch): after any calls on a new read-write batch, each within the documented use given what it sees, the commit stores
the effect of the calls, one after the other, those that failed with a part of their rows; every index agrees with the rows. -/
theorem C96_batch {t : Table T F} (wf : t.WF) (rt : t.RoundTrip) (fs : t.FilterSound) {db : KV} {f : F} {m : Rows T}
    (hH : Holds t db m) (hF : FilterCovers t f m) (l : List ((Env T × WCall T) ⊕ List WOp))
    (hok : FillOK t true (fun env V c => GoodRun t env V c) db ⟨[], f, []⟩ l) :
    ∃ ds, Parts t.key ds (callsOf l) (fill t true db f l).res ∧
      Holds t (Batch.commit true db ⟨true, (fill t true db f l).ops⟩).1 (ds.foldl (effect t.pk) m) ∧
      FilterCovers t (fill t true db f l).filt (ds.foldl (effect t.pk) m) := by
  obtain ⟨ds, es, g1, g2, g3, g4⟩ := fill_parts wf rt fs l (s := ⟨[], f, []⟩) hok (by simpa [KV.apply_nil] using hH) hF
  refine ⟨ds, ?_, ?_, g4⟩
  · unfold fill; rw [g1]; exact g2
  · have : (Batch.commit true db ⟨true, (fill t true db f l).ops⟩).1 = db.apply (fill t true db f l).ops := by
      unfold Batch.commit
      split
      · rename_i h0; simp only at h0; simp [h0, KV.apply]
      · rfl
    rw [this]
    exact g3

theorem BInv.consistent {t : Table T F} (wf : t.WF) (rt : t.RoundTrip) (fs : t.FilterSound) {rw : Nat → Bool} (hrw : ∀ j, rw j = true)
    {w : BatchWorld T F} {s : AtCommit T F} {m : Rows T} (h : BInv t rw (fun env V c => GoodRun t env V c) w s) (x : BatchStep T)
    (hx : Allowed t (fun env V c => GoodRun t env V c) w x) (hH : Holds t s.db m) (hF : FilterCovers t s.filt m) :
    ∃ m', Holds t (atCommit1 t rw s x).db m' ∧ FilterCovers t (atCommit1 t rw s x).filt m' := by
  cases x with
  | call j env c => exact ⟨m, hH, hF⟩
  | put j ops => exact ⟨m, hH, hF⟩
  | drop j => exact ⟨m, hH, hF⟩
  | others ops => exact ⟨m, hH.congr (fun k hk => get_outside hx _ hk), hF⟩
  | direct env c =>
    obtain ⟨ok, hg, _⟩ := hx
    rw [h.db] at hg
    by_cases he : (t.run env s.db s.filt none c).err = none
    · obtain ⟨a, _, b⟩ := run_effect wf rt fs ok (ob := none) (by intro b hb; simp at hb) hH hF hg he
      rw [run_view_nobatch] at a
      exact ⟨_, a, b⟩
    · have hdb : (t.run env s.db s.filt none c).db = s.db := ((C13 t env s.db s.filt c).1 he).1
      refine ⟨m, ?_, run_filt_covers fs ok s.db none c hF⟩
      simp only [atCommit1]
      rw [hdb]
      exact hH
  | commit j okc =>
    have hok := (h.slot j).ok
    obtain ⟨g1, _, _⟩ := h.fills wf fs (localCond_good t) j
    rw [hrw j] at hok
    obtain ⟨ds, es, _, _, g3, g4⟩ := fill_parts wf rt fs (s.asked j) (s := ⟨[], s.filt, []⟩) hok (by simpa [KV.apply_nil] using hH) hF
    simp only [atCommit1]
    rw [hrw j] at g1 ⊢
    unfold Batch.commit
    split
    · exact ⟨m, hH, FilterCovers.mono hF g1⟩
    · split
      · exact ⟨_, g3, g4⟩
      · exact ⟨m, hH, FilterCovers.mono hF g1⟩

theorem BInv.consistent_run {t : Table T F} (wf : t.WF) (rt : t.RoundTrip) (fs : t.FilterSound) {rw : Nat → Bool} (hrw : ∀ j, rw j = true)
    (l : List (BatchStep T)) : ∀ {w : BatchWorld T F} {s : AtCommit T F} {m : Rows T},
    BInv t rw (fun env V c => GoodRun t env V c) w s → Isolated t rw (fun env V c => GoodRun t env V c) w l →
    Holds t s.db m → FilterCovers t s.filt m →
    ∃ s' m', BInv t rw (fun env V c => GoodRun t env V c) (t.batchRun rw w l) s' ∧ Holds t s'.db m' ∧ FilterCovers t s'.filt m' := by
  induction l with
  | nil => intro w s m h _ hH hF; exact ⟨s, m, h, hH, hF⟩
  | cons x l ih =>
    intro w s m h hi hH hF
    obtain ⟨m', hH', hF'⟩ := h.consistent wf rt fs hrw x hi.1 hH hF
    exact ih (h.step wf fs (localCond_good t) hi.1) hi.2 hH' hF'

/-- C96 (any history): in any interleaving of calls without batch, calls on read-write batches, commits and drops, where calls may fail
at any row and batches are committed all the same, the rows stored and the indexes agree at any moment, and so do those seen through
any open batch. The keys of a call are in no other open batch, and every call is within the documented use given what it sees. -/
theorem C96_history {t : Table T F} (wf : t.WF) (rt : t.RoundTrip) (fs : t.FilterSound) {rw : Nat → Bool} (hrw : ∀ j, rw j = true)
    {db : KV} {f : F} {m : Rows T} (hH : Holds t db m) (hF : FilterCovers t f m) (l : List (BatchStep T))
    (hi : Isolated t rw (fun env V c => GoodRun t env V c) (BatchWorld.start db f) l) :
    let w := t.batchRun rw (BatchWorld.start db f) l
    (∃ m', Holds t w.db m' ∧ FilterCovers t w.filt m') ∧ ∀ j, ∃ m', Holds t (w.db.apply (w.bats j).ops) m' := by
  obtain ⟨s, m', h, hH', hF'⟩ := (BInv.start (covKV_of_holds hH hF)).consistent_run wf rt fs hrw l hi hH hF
  refine ⟨⟨m', by rw [h.db]; exact hH', ?_⟩, fun j => ?_⟩
  · exact filterCovers_of_covKV (V := (t.batchRun rw (BatchWorld.start db f) l).db) (by rw [h.db]; exact hH') h.covW
  · have hok := (h.slot j).ok
    have hops := (h.slot j).ops
    rw [hrw j] at hok hops
    obtain ⟨ds, es, _, _, g3, _⟩ := fill_parts wf rt fs (s.asked j) (s := ⟨[], s.filt, []⟩) hok (by simpa [KV.apply_nil] using hH') hF'
    rw [show ((s.asked j).foldl (fill1 t true s.db) ⟨[], s.filt, []⟩).ops = (t.batchRun rw (BatchWorld.start db f) l |>.bats j).ops from hops] at g3
    rw [h.db]
    exact ⟨_, g3⟩

/-- batch 0 inserts rows 3, 0 and 1, which fails at row 1, then changes row 0, and is committed all the same; in between row 2 is
changed without batch -/
def exFailedSteps : List (BatchStep Rec) :=
  [.call 0 (stdEnv exTable) (.insert [(3, 4), (0, 4), (1, 9)]), .direct (stdEnv exTable) (.update [(2, 9)]),
   .call 0 (stdEnv exTable) (.update [(0, 8)]), .commit 0 true]

/-- the hypotheses of `C96_history` hold for these steps; the first call fails, and row 0 is stored with its index entry -/
example : Isolated exTable (fun _ => true) (fun env V c => GoodRun exTable env V c) (BatchWorld.start exDB ()) exFailedSteps ∧
    Holds exTable exDB (Rows.putAll (fun _ => none) exTable.pk [(1, 5), (2, 6)]) ∧ FilterCovers exTable () (Rows.putAll (fun _ => none) exTable.pk [(1, 5), (2, 6)]) ∧
    (exTable.batchRun (fun _ => true) (BatchWorld.start exDB ()) exFailedSteps).log =
      [.direct none, .commit 0 [some .alreadyExist, none] none] ∧
    exTable.getPoint () (exTable.batchRun (fun _ => true) (BatchWorld.start exDB ()) exFailedSteps).db none (0, 0) = .ok (0, 8) ∧
    exTable.getPoint () (exTable.batchRun (fun _ => true) (BatchWorld.start exDB ()) exFailedSteps).db none (3, 0) = .error .notFound := by
  have gi : ∀ V, GoodRun exTable (stdEnv exTable) V (.insert [(3, 4), (0, 4), (1, 9)]) :=
    fun V => ⟨Or.inl (by decide), by intro trs h; cases h⟩
  have gu : ∀ V a, GoodRun exTable (stdEnv exTable) V (.update [a]) :=
    fun V a => ⟨Or.inr (by simp), fun trs _ => Or.inr (stdEnv_stable _)⟩
  refine ⟨?_, exDB_holds, by intro fl h; simp [exTable] at h, by decide, by decide, by decide⟩
  refine ⟨⟨stdEnv_ok _, gi _, ?_⟩, ⟨stdEnv_ok _, gu _ _, ?_⟩, ⟨stdEnv_ok _, gu _ _, ?_⟩, trivial, trivial⟩
  all_goals
    intro i
    rcases i with _ | i
    all_goals
      first
        | (intro hi; exact absurd rfl hi)
        | (intro (_ : (_ : Nat) ≠ _) k hk; simp [Table.batchStep, setBat, BatchWorld.start, OpenBatch.new, askedKeys, WCall.keys] at hk ⊢; try (subst hk; decide))
        | (intro k hk; simp [Table.batchStep, setBat, BatchWorld.start, OpenBatch.new, askedKeys, WCall.keys] at hk ⊢; try (subst hk; decide))

end Bond
