import Verif.TransactionLemmas
import Verif.Props.Batches
/-
C94: transactions in several goroutines at the same time.
-/
namespace Bond
open Spec
variable {T F : Type}

/-- C94 (any number of goroutines, each with its own batch of either kind or a single call without batch, any calls, failing or
not, any interleaving of their actions, commits that succeed or fail): if no row key is in two tasks, the database at any moment
is what the tasks that have ended leave when they are done one after the other without interruption, in the order in which they
ended, and the result of every commit, of every call in a committed batch and of every direct call is the result there. Every
task ends at most once. -/
theorem C94_serial {t : Table T F} (wf : t.WF) (fs : t.FilterSound) {ks : List (Task T)} (hs : Separate t ks) {db : KV} {f : F}
    (hc : CovKV t f db) (sched : List (Nat ⊕ List WOp)) (ho : ∀ ops, .inr ops ∈ sched → OutsideOps t ops) :
    let w := (t.txWorld db f ks).run t sched
    let s := t.batchRun (taskRw ks) (BatchWorld.start db f) (oneByOne ks w.log)
    w.db = s.db ∧ w.outs = s.log ∧ (w.log.filterMap Sum.getLeft?).Nodup ∧
    ∀ i, .inl i ∈ w.log ↔ ∃ th, w.threads[i]? = some th ∧ th.ended = true := by
  obtain ⟨s, h⟩ := TxInv.run_all wf fs hs hc sched ho (TxInv.start wf fs hs hc)
  simp only
  rw [← h.seq]
  exact ⟨h.db, h.outs, h.ids, h.idsEnd⟩

/-- C94 (content and indexes): if the table is consistent at the start, the batches are read-write, the calls in committed batches
succeeded, and every call is within the documented use when its task is done alone, then at any moment the database stores exactly
the rows produced by the committed batches and the direct calls that succeeded, in the order in which they ended, and every index
agrees with them. -/
theorem C94_content {t : Table T F} (wf : t.WF) (rt : t.RoundTrip) (fs : t.FilterSound) {ks : List (Task T)} (hs : Separate t ks)
    {db : KV} {f : F} {m : Rows T} (hH : Holds t db m) (hF : FilterCovers t f m) (hrw : ∀ rw l fin, .batch rw l fin ∈ ks → rw = true)
    (hok : ∀ k ∈ ks, TaskOK t (fun env V c => GoodRun t env V c) db f k)
    (sched : List (Nat ⊕ List WOp)) (ho : ∀ ops, .inr ops ∈ sched → OutsideOps t ops)
    (hr : ∀ j rs, .commit j rs none ∈ ((t.txWorld db f ks).run t sched).outs → ∀ e ∈ rs, e = none) :
    let w := (t.txWorld db f ks).run t sched
    Holds t w.db (contentB t.pk (oneByOne ks w.log) w.outs (fun _ => []) m) := by
  have hc := covKV_of_holds hH hF
  obtain ⟨h1, h2, _, _⟩ := C94_serial wf fs hs hc sched ho
  have hi := TxInv.run_isolated wf fs hs hc (localCond_good t) hok sched ho (TxInv.start wf fs hs hc) trivial
  simp only
  rw [h2] at hr ⊢
  rw [h1]
  refine C86_content wf rt fs (rw := taskRw ks) (fun j => ?_) hH hF _ hi hr
  unfold taskRw
  split
  · rename_i rw l fin h; exact hrw rw l fin (List.mem_of_getElem? h)
  · rfl

/-- C94 (tasks end): a task ends after as many turns as it has actions and one more, whatever the others do. -/
theorem C94_ends (t : Table T F) (db : KV) (f : F) (ks : List (Task T)) (sched : List (Nat ⊕ List WOp)) {i : Nat} {k : Task T}
    (hi : ks[i]? = some k) (hn : (t.taskActs k).length < sched.countP (fun x => x = .inl i)) :
    ∃ th, ((t.txWorld db f ks).run t sched).threads[i]? = some th ∧ th.ended = true := by
  obtain ⟨th, h1, h2⟩ := txRun_left t i sched (t.txWorld db f ks) (th := t.txSpawn k) (by simp [Table.txWorld, hi])
  refine ⟨th, h1, ?_⟩
  have : th.left = 0 := by
    have e : (t.txSpawn k : TxThread T F).left = (t.taskActs k).length + 1 := rfl
    rw [e] at h2
    omega
  cases he : th.ended with
  | true => rfl
  | false => simp [TxThread.left, he] at this

/-- two transactions and a direct call: the first changes row 1, inserts row 3, changes row 3 and puts a write outside the table
into its batch, the second inserts row 4 and tries to insert row 2, which is there, and is closed without commit -/
def exTasks : List (Task Rec) :=
  [.batch true [.inl (stdEnv exTable, .update [(1, 7)]), .inl (stdEnv exTable, .insert [(3, 3)]), .inr [.set [9] [9]],
      .inl (stdEnv exTable, .update [(3, 5)])] (some true),
   .batch true [.inl (stdEnv exTable, .insert [(4, 4)]), .inl (stdEnv exTable, .insert [(2, 9)])] none,
   .direct (stdEnv exTable) (.insert [(5, 5), (6, 6)])]

/-- their actions alternate -/
def exTxSched : List (Nat ⊕ List WOp) :=
  [.inl 0, .inl 1, .inl 2, .inl 0, .inl 1, .inl 2, .inr [.set [8] [8]], .inl 0, .inl 1, .inl 2, .inl 0, .inl 1, .inl 2, .inl 0, .inl 1,
   .inl 0, .inl 1, .inl 0, .inl 1, .inl 0, .inl 1, .inl 0, .inl 0, .inl 0]

theorem exOut (b : UInt8) : OutsideOps exTable [.set [b] [b]] := by
  intro o ho k hk
  simp only [List.mem_singleton] at ho; subst ho
  simp only [WOp.touches] at hk; subst hk
  refine ⟨fun h => ?_, fun idx _ h => ?_⟩ <;> exact absurd h (by intro h; simp [InSpace] at h)

theorem exTasks_separate : Separate exTable exTasks := by
  refine ⟨?_, ?_, Or.inl rfl, ?_⟩
  · intro i j a b hij hi hj
    have hi' : i < 3 := (List.getElem?_eq_some_iff.1 hi).1
    have hj' : j < 3 := (List.getElem?_eq_some_iff.1 hj).1
    have hk : ∀ i j : Fin 3, i ≠ j → ∀ k ∈ taskKeys exTable (exTasks[i]'(by simp [exTasks])),
        k ∉ taskKeys exTable (exTasks[j]'(by simp [exTasks])) := by decide
    have := hk ⟨i, hi'⟩ ⟨j, hj'⟩ (by simpa using hij)
    rw [List.getElem?_eq_some_iff] at hi hj
    obtain ⟨_, rfl⟩ := hi
    obtain ⟨_, rfl⟩ := hj
    exact this
  · intro a ha c hc
    simp only [exTasks, List.mem_cons, List.not_mem_nil, or_false] at ha
    rcases ha with rfl | rfl | rfl <;> simp [taskCalls] at hc
    · rcases hc with rfl | rfl | rfl <;> exact stdEnv_ok _
    · rcases hc with rfl | rfl <;> exact stdEnv_ok _
    · rcases hc with rfl; exact stdEnv_ok _
  · intro a ha
    simp only [exTasks, List.mem_cons, List.not_mem_nil, or_false] at ha
    rcases ha with rfl | rfl | rfl
    · intro ops hops
      simp at hops
      subst hops
      exact exOut 9
    · intro ops hops
      simp at hops
    · trivial

theorem exTasks_ok : ∀ k ∈ exTasks, TaskOK exTable (fun env V c => GoodRun exTable env V c) exDB () k := by
  have gi : ∀ V a, GoodRun exTable (stdEnv exTable) V (.insert [a]) := fun V a => ⟨Or.inr (by simp), by intro trs h; simp at h⟩
  have gu : ∀ V a, GoodRun exTable (stdEnv exTable) V (.update [a]) :=
    fun V a => ⟨Or.inr (by simp), fun trs _ => Or.inr (stdEnv_stable _)⟩
  intro k hk
  simp only [exTasks, List.mem_cons, List.not_mem_nil, or_false] at hk
  rcases hk with rfl | rfl | rfl
  · exact ⟨⟨stdEnv_ok _, gu _ _⟩, ⟨stdEnv_ok _, gi _ _⟩, exOut 9, ⟨stdEnv_ok _, gu _ _⟩, trivial⟩
  · exact ⟨⟨stdEnv_ok _, gi _ _⟩, ⟨stdEnv_ok _, gi _ _⟩, trivial⟩
  · exact ⟨Or.inl (by decide), by intro trs h; simp at h⟩

/-- the hypotheses of C94 hold, and all tasks end: the direct call first, then the closed batch, then the committed one -/
example : Separate exTable exTasks ∧ (∀ k ∈ exTasks, TaskOK exTable (fun env V c => GoodRun exTable env V c) exDB () k) ∧
    Holds exTable exDB (Rows.putAll (fun _ => none) exTable.pk [(1, 5), (2, 6)]) ∧
    (∀ ops, .inr ops ∈ exTxSched → OutsideOps exTable ops) ∧
    ((exTable.txWorld exDB () exTasks).run exTable exTxSched).log = [.inr [.set [8] [8]], .inl 2, .inl 1, .inl 0] ∧
    ((exTable.txWorld exDB () exTasks).run exTable exTxSched).outs = [.direct none, .commit 0 [none, none, none] none] ∧
    exTable.getPoint () ((exTable.txWorld exDB () exTasks).run exTable exTxSched).db none (3, 0) = .ok (3, 5) := by
  refine ⟨exTasks_separate, exTasks_ok, exDB_holds, ?_, by decide, by decide, by decide⟩
  intro ops h
  simp [exTxSched] at h
  subst h
  exact exOut 8

/-- two transactions that insert the same new key -/
def exTxSame : List (Task Rec) :=
  [.batch true [.inl (stdEnv exTable, .insert [(9, 5)])] (some true), .batch true [.inl (stdEnv exTable, .insert [(9, 6)])] (some true)]

/-- C94 is false for tasks with a common key: both transactions insert key 9 and both commits succeed, which no order of the two
gives -/
theorem C94_refuted_sameKey :
    let w := (exTable.txWorld exDB () exTxSame).run exTable [.inl 0, .inl 0, .inl 1, .inl 1, .inl 0, .inl 0, .inl 1, .inl 1]
    w.outs = [.commit 0 [none] none, .commit 1 [none] none] ∧
    (exTable.batchRun (taskRw exTxSame) (BatchWorld.start exDB ()) (oneByOne exTxSame [.inl 0, .inl 1])).log =
      [.commit 0 [none] none, .commit 1 [some .alreadyExist] none] ∧
    (exTable.batchRun (taskRw exTxSame) (BatchWorld.start exDB ()) (oneByOne exTxSame [.inl 1, .inl 0])).log =
      [.commit 1 [none] none, .commit 0 [some .alreadyExist] none] := by
  decide

end Bond
