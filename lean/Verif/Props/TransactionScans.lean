import Verif.Spec.TransactionScans
import Verif.Props.TransactionReads
import Verif.Props.Machine
/-
C105: every read of a transaction, while others are running.
-/
namespace Bond
open Spec
variable {T F : Type}

theorem isolated_left {t : Table T F} {rw : Nat → Bool} {Q : Env T → KV → WCall T → Prop} (a b : List (BatchStep T)) :
    ∀ {w : BatchWorld T F}, Isolated t rw Q w (a ++ b) → Isolated t rw Q w a := by
  induction a with
  | nil => intro w _; trivial
  | cons x a ih => intro w h; exact ⟨h.1, ih h.2⟩

theorem items_done (t : Table T F) (rw : Nat → Bool) (i : Nat) (l : List ((Env T × WCall T) ⊕ List WOp)) : ∀ (w : BatchWorld T F),
    ((t.batchRun rw w (l.map (itemStep i))).bats i).done = (w.bats i).done ++ l ∧
    (t.batchRun rw w (l.map (itemStep i))).log = w.log := by
  induction l with
  | nil => intro w; simp [Table.batchRun]
  | cons x l ih =>
    intro w
    have := ih (t.batchStep rw w (itemStep i x))
    simp only [Table.batchRun, List.map_cons, List.foldl_cons] at this ⊢
    rw [this.1, this.2]
    rcases x with ⟨env, c⟩ | ops <;> simp [itemStep, Table.batchStep, setBat]

/-- items that are not followed by a commit do not change the content -/
theorem contentB_items (pk : T → Bytes) (i : Nat) (l : List ((Env T × WCall T) ⊕ List WOp)) : ∀ (os : List Outcome) (a : Nat → List (WCall T))
    (m : Rows T), contentB pk (l.map (itemStep i)) os a m = m := by
  induction l with
  | nil => intro os a m; rfl
  | cons x l ih =>
    intro os a m
    rcases x with ⟨env, c⟩ | ops
    · exact ih _ _ _
    · exact ih _ _ _

theorem contentB_append_items (pk : T → Bytes) (i : Nat) (l : List ((Env T × WCall T) ⊕ List WOp)) (xs : List (BatchStep T)) :
    ∀ (os : List Outcome) (a : Nat → List (WCall T)) (m : Rows T),
    contentB pk (xs ++ l.map (itemStep i)) os a m = contentB pk xs os a m := by
  induction xs with
  | nil => intro os a m; exact contentB_items pk i l os a m
  | cons x xs ih =>
    intro os a m
    cases x <;> exact ih _ _ _

/-- what a goroutine sees between two calls: the table holds the committed rows and its own -/
theorem seen_holds {t : Table T F} (wf : t.WF) (rt : t.RoundTrip) (fs : t.FilterSound) {ks : List (Task T)} (hs : Separate t ks)
    {db : KV} {f : F} {m : Rows T} (hH : Holds t db m) (hF : FilterCovers t f m) (hrw : ∀ rw l fin, .batch rw l fin ∈ ks → rw = true)
    (hok : ∀ k ∈ ks, TaskOK t (fun env V c => GoodRun t env V c) db f k)
    (sched : List (Nat ⊕ List WOp)) (ho : ∀ ops, .inr ops ∈ sched → OutsideOps t ops)
    (hr : ∀ j rs, .commit j rs none ∈ ((t.txWorld db f ks).run t sched).outs → ∀ e ∈ rs, e = none)
    {i n : Nat} {th : TxThread T F} {rw : Bool} {l : List ((Env T × WCall T) ⊕ List WOp)} {fin : Option Bool}
    (hth : ((t.txWorld db f ks).run t sched).threads[i]? = some th) (hb : Between t th rw l fin n) (hres : ∀ e ∈ th.st.res, e = none) :
    let w := (t.txWorld db f ks).run t sched
    rw = true ∧ th.batch = some ⟨true, th.st.pre⟩ ∧ Holds t (w.db.apply th.st.pre) (ownRows t l n (committedRows t ks w m)) ∧
    FilterCovers t w.filt (ownRows t l n (committedRows t ks w m)) := by
  intro w
  have hc := covKV_of_holds hH hF
  obtain ⟨p1, s1, h1⟩ := TxPast.run wf fs hs hc sched ho (TxInv.start wf fs hs hc) (TxPast.start t ks db f)
  have hi := TxInv.run_isolated wf fs hs hc (localCond_good t) hok sched ho (TxInv.start wf fs hs hc) trivial
  obtain ⟨hb1, hb2, hb3⟩ := hb
  have hil : i < w.threads.length := (List.getElem?_eq_some_iff.1 hth).1
  obtain ⟨k, hk⟩ : ∃ k, ks[i]? = some k := ⟨_, List.getElem?_eq_getElem (h1.len ▸ hil)⟩
  have hr1 := h1.run i th k hth hk hb3
  have hkk : k = .batch rw l fin := hr1.task.symm.trans hb1
  obtain ⟨as, ha, hsame⟩ := p1.past i th k hth hk hb3
  have hm := List.mem_of_getElem? hk
  have hrwt : rw = true := hrw rw l fin (hkk ▸ hm)
  have hgood := taskActs_good wf fs (hs.env k hm) (hs.upd.imp id (fun h => h k hm)) (hs.puts k hm)
  have has : as = (l.take n).flatMap (t.itemActs rw) := by
    rw [hkk, hb2] at ha
    exact between_acts ha
  have hgood' : ∀ a ∈ as, GoodTx t (taskKeys t k) a := fun a h => hgood a (by rw [ha]; simp [h])
  have htr : taskRw ks i = rw := by simp [taskRw, hk, hkk]
  have hbase : ∀ x ∈ taskKeys t k, s1.db.get x = db.get x := fun x hx => by rw [← h1.db]; exact hr1.base x hx
  have hsame2 := execTx_same hgood' (db1 := db) (db2 := s1.db) (fun x hx => (hbase x hx).symm) hc h1.covS
    (sameTx0 t (taskKeys t k) f s1.filt)
  -- the same one after the other
  let s := t.batchRun (taskRw ks) (BatchWorld.start db f) (oneByOne ks w.log ++ (l.take n).map (itemStep i))
  have hs' : s = t.batchRun (taskRw ks) s1 ((l.take n).map (itemStep i)) := by
    show t.batchRun _ _ (_ ++ _) = _
    rw [batchRun_append, ← h1.seq]
  obtain ⟨d, hd⟩ := execTx_items t (taskRw ks) i (l.take n) s1
  rw [h1.bats i, show (OpenBatch.new (T := T)).ops = [] from rfl, show (OpenBatch.new (T := T)).res = [] from rfl, htr, ← has,
    show (⟨[], t.loc0, none, []⟩ : TxSt T) = t.txSt0 from rfl, ← hs'] at hd
  have hpre : (s.bats i).ops = th.st.pre := by
    rw [hd]
    simp only [setBat_same]
    exact (hsame.pre.trans hsame2.pre).symm
  have hres' : (s.bats i).res = th.st.res := by
    rw [hd]
    simp only [setBat_same]
    exact (hsame.res.trans hsame2.res).symm
  have hsdb : s.db = w.db := by rw [hd]; exact h1.db.symm
  obtain ⟨hdone, hlog⟩ := items_done t (taskRw ks) i (l.take n) s1
  rw [← hs'] at hdone hlog
  rw [h1.bats i, show (OpenBatch.new (T := T)).done = [] from rfl, List.nil_append] at hdone
  have hlog' : s.log = w.outs := by rw [hlog]; exact h1.outs.symm
  have hti := task_isolated wf fs (localCond_good t) hc (hs.env k hm) (hok k hm) i (rwf := taskRw ks) h1.bats h1.covS hbase (by
    intro rw' l' fin' h; rw [htr]; rw [hkk] at h; cases h; rfl)
  have hiso : Isolated t (taskRw ks) (fun env V c => GoodRun t env V c) (BatchWorld.start db f)
      (oneByOne ks w.log ++ (l.take n).map (itemStep i)) := by
    refine isolated_join _ _ hi ?_
    rw [← h1.seq]
    rw [hkk] at hti
    refine isolated_left _ ((l.drop n).map (itemStep i)) ?_
    rw [← List.map_append, List.take_append_drop]
    exact isolated_left _ _ hti
  have hrw' : ∀ j, taskRw ks j = true := by
    intro j
    unfold taskRw
    split
    · rename_i rw l fin h; exact hrw rw l fin (List.mem_of_getElem? h)
    · rfl
  have hall := C86_reads wf rt fs hrw' hH hF _ hiso (by
    intro j rs h
    change _ ∈ s.log at h
    rw [hlog'] at h
    exact hr j rs h) i (by
    change ∀ e ∈ (s.bats i).res, _
    rw [hres']; exact hres)
  obtain ⟨hh, _, _⟩ := hall
  change Holds t (s.db.apply (s.bats i).ops) ((callsOf (s.bats i).done).foldl (effect t.pk) (contentB t.pk _ s.log (fun _ => []) m)) at hh
  rw [hpre, hsdb, hdone, hlog', contentB_append_items] at hh
  have hh' : Holds t (w.db.apply th.st.pre) (ownRows t l n (committedRows t ks w m)) := by
    unfold ownRows committedRows
    simpa [callsOf, List.foldl_map] using hh
  refine ⟨hrwt, by rw [TxThread.batch, hb1, hrwt], hh', ?_⟩
  exact filterCovers_of_covKV hh' (covKV_apply _ h1.covW hr1.self.covPre1)

/-- C105 (with the batch): for all tasks on different rows, all schedules and moments, every read call that a goroutine makes through its
batch between two calls - Get, Exist, Scan, ScanIndex, queries with filter, order, limit and After, whatever its context does - answers as on a
table with the committed rows and, on top, what the goroutine has done itself, and nothing of what the others are in the middle of. -/
theorem C105_batch {t : Table T F} (wf : t.WF) (rt : t.RoundTrip) (fs : t.FilterSound) (hp : 0 < t.prefetch)
    {srt : (T → T → Bool) → List T → List T} (hsrt : SortSlice srt) {ks : List (Task T)} (hs : Separate t ks)
    {db : KV} {f : F} {m : Rows T} (hH : Holds t db m) (hF : FilterCovers t f m) (hrw : ∀ rw l fin, .batch rw l fin ∈ ks → rw = true)
    (hok : ∀ k ∈ ks, TaskOK t (fun env V c => GoodRun t env V c) db f k)
    (sched : List (Nat ⊕ List WOp)) (ho : ∀ ops, .inr ops ∈ sched → OutsideOps t ops)
    (hr : ∀ j rs, .commit j rs none ∈ ((t.txWorld db f ks).run t sched).outs → ∀ e ∈ rs, e = none)
    {i n : Nat} {th : TxThread T F} {rw : Bool} {l : List ((Env T × WCall T) ⊕ List WOp)} {fin : Option Bool}
    (hth : ((t.txWorld db f ks).run t sched).threads[i]? = some th) (hb : Between t th rw l fin n) (hres : ∀ e ∈ th.st.res, e = none)
    {env : Env T} (ok : env.OK t) {c : TCall T}
    (hc : ProperRead t (ownRows t l n (committedRows t ks ((t.txWorld db f ks).run t sched) m)) true c) :
    let w := (t.txWorld db f ks).run t sched
    let seen := ownRows t l n (committedRows t ks w m)
    ∃ N a, (Reads t seen c a ∨ CutShort t env seen c a) ∧ ∀ fuel, N ≤ fuel → w.read t srt fuel i true env c = some a := by
  intro w seen
  obtain ⟨_, hbat, h1, h2⟩ := seen_holds wf rt fs hs hH hF hrw hok sched ho hr hth hb hres
  have hread : Readable (some ⟨true, th.st.pre⟩) := by intro b hb; simp at hb; rw [← hb]
  have := C97_read wf (fun x b hb => rt x b hb _) hp hsrt ok hread (db := w.db) (m := seen) (f := w.filt) h1 h2 (c := c) hc
  simp only [TxWorld.read, if_true]
  rw [hth, Option.bind_some, hbat]
  exact this

/-- C105 (without the batch): the same for read calls that are not given the batch: the committed rows. -/
theorem C105_direct {t : Table T F} (wf : t.WF) (rt : t.RoundTrip) (fs : t.FilterSound) (hp : 0 < t.prefetch)
    {srt : (T → T → Bool) → List T → List T} (hsrt : SortSlice srt) {ks : List (Task T)} (hs : Separate t ks)
    {db : KV} {f : F} {m : Rows T} (hH : Holds t db m) (hF : FilterCovers t f m) (hrw : ∀ rw l fin, .batch rw l fin ∈ ks → rw = true)
    (hok : ∀ k ∈ ks, TaskOK t (fun env V c => GoodRun t env V c) db f k)
    (sched : List (Nat ⊕ List WOp)) (ho : ∀ ops, .inr ops ∈ sched → OutsideOps t ops)
    (hr : ∀ j rs, .commit j rs none ∈ ((t.txWorld db f ks).run t sched).outs → ∀ e ∈ rs, e = none)
    {env : Env T} (ok : env.OK t) {c : TCall T}
    (hc : ProperRead t (committedRows t ks ((t.txWorld db f ks).run t sched) m) false c) (i : Nat) :
    let w := (t.txWorld db f ks).run t sched
    let seen := committedRows t ks w m
    ∃ N a, (Reads t seen c a ∨ CutShort t env seen c a) ∧ ∀ fuel, N ≤ fuel → w.read t srt fuel i false env c = some a := by
  intro w seen
  have hcv := covKV_of_holds hH hF
  obtain ⟨s, h⟩ := TxInv.run_all wf fs hs hcv sched ho (TxInv.start wf fs hs hcv)
  have h1 : Holds t w.db seen := C94_content wf rt fs hs hH hF hrw hok sched ho hr
  have hread : Readable (none : Option Batch) := by intro b hb; simp at hb
  exact C97_read wf (fun x b hb => rt x b hb _) hp hsrt ok hread (db := w.db) (m := seen) (f := w.filt) h1 (filterCovers_of_covKV h1 h.covW) hc

/-- the hypotheses of `C105_batch` and `C105_direct` hold for the tasks of C94 before the last step: a direct call has inserted rows 5 and 6, a
batch with row 4 has been closed, the first task has changed row 1 and inserted row 3 and is not committed. Through its batch a scan of the
index shows rows 1, 2, 3, 5 and 6, without it rows 1, 2, 5 and 6, the first unchanged. -/
example : Separate exTable exTasks ∧ (∀ k ∈ exTasks, TaskOK exTable (fun env V c => GoodRun exTable env V c) exDB () k) ∧
    (∀ rw l fin, .batch rw l fin ∈ exTasks → rw = true) ∧
    (∃ th, ((exTable.txWorld exDB () exTasks).run exTable (exTxSched.take 23)).threads[0]? = some th ∧
      Between exTable th true [.inl (stdEnv exTable, .update [(1, 7)]), .inl (stdEnv exTable, .insert [(3, 3)]), .inr [.set [9] [9]],
        .inl (stdEnv exTable, .update [(3, 5)])] (some true) 4 ∧ th.st.res = [none, none, none]) ∧
    ((exTable.txWorld exDB () exTasks).run exTable (exTxSched.take 23)).outs = [.direct none] ∧
    (∀ m, ProperRead exTable m true (.scanIndex exIndex (.point (0, 5)) false)) ∧
    ((exTable.txWorld exDB () exTasks).run exTable (exTxSched.take 23)).read exTable insSort 20 0 true (stdEnv exTable)
      (.scanIndex exIndex (.range (0, 0) (9, 9)) false) = some (.rows [(3, 5), (5, 5), (2, 6), (6, 6), (1, 7)] none) ∧
    ((exTable.txWorld exDB () exTasks).run exTable (exTxSched.take 23)).read exTable insSort 20 0 false (stdEnv exTable)
      (.scanIndex exIndex (.range (0, 0) (9, 9)) false) = some (.rows [(1, 5), (5, 5), (2, 6), (6, 6)] none) := by
  refine ⟨exTasks_separate, exTasks_ok, ?_, ⟨_, rfl, ⟨rfl, rfl, rfl⟩, rfl⟩, by decide, ?_, by decide +kernel, by decide +kernel⟩
  · intro rw l fin h
    simp only [exTasks, List.mem_cons, List.not_mem_nil, or_false] at h
    rcases h with h | h | h <;> cases h <;> rfl
  · intro m
    refine ⟨Or.inl (by simp [exTable]), ⟨by simp [Selector.elems], ?_⟩, ?_⟩
    · intro x _; simp [exIndex]
    · simp [NoTrailingFF, exIndex]

end Bond
