import Verif.BufferUnsafe
import Verif.Props.Buffers
/-
C106 for the unsafe writes and for the reads of a single row.
-/
namespace Bond

variable {T F : Type}

/-- C106 for `UnsafeInsert`: the same writes, and buffers that are as good for the next call. -/
theorem C106_unsafeInsert {t : Table T F} (env : Env T) (grow : Nat → Nat → Nat) {pc : Pieces T} (hp : pc.For t) (db : KV) (filt : F)
    (ob : Option Batch) (trs : List T) (w : WMem) (hb : Bufs w.mem (w.ib :: w.ib2 :: w.val :: w.keys))
    (hk : w.keys.length = min trs.length persistentBatchSize) :
    (t.unsafeInsertM persistentBatchSize env grow pc db filt ob trs w).1 = t.unsafeInsert env db filt ob trs ∧
    (let w' := (t.unsafeInsertM persistentBatchSize env grow pc db filt ob trs w).2; Bufs w'.mem (w'.ib :: w'.ib2 :: w'.val :: w'.keys)) := by
  obtain ⟨a, b⟩ := unsafeInsertM_spec env persistentBatchSize grow hp db filt ob trs w (Nat.le_refl _) ⟨hb, by omega⟩
  exact ⟨a, b.bufs⟩

/-- C106 for `UnsafeUpdate`, whose key buffer `kb` is used again for every row. -/
theorem C106_unsafeUpdate {t : Table T F} (env : Env T) (grow : Nat → Nat → Nat) {pc : Pieces T} (hp : pc.For t) (db : KV) (filt : F)
    (ob : Option Batch) (trs oldTrs : List T) (kb : Sl) (w : WMem) (hb : Bufs w.mem (w.ib :: w.ib2 :: w.val :: kb :: w.keys)) :
    (t.unsafeUpdateM env grow pc db filt ob trs oldTrs kb w).1 = t.unsafeUpdate env db filt ob trs oldTrs ∧
    (let w' := (t.unsafeUpdateM env grow pc db filt ob trs oldTrs kb w).2; Bufs w'.mem (w'.ib :: w'.ib2 :: w'.val :: kb :: w'.keys)) := by
  unfold Table.unsafeUpdateM Table.unsafeUpdate
  split
  · exact ⟨rfl, hb⟩
  · obtain ⟨a, b⟩ := unsafeUpdateLoopM_spec env grow hp kb w.ib w.ib2 w.keys (trs.zip oldTrs) w.mem w.val
      { ops := [], filt := filt, clock := 0, oldTr := t.nil } hb
    exact ⟨by simp only [a], b⟩

/-- C106 for `Exist`. -/
theorem C106_exist {t : Table T F} (grow : Nat → Nat → Nat) {pc : Pieces T} (hp : pc.For t) (f : F) (db : KV) (ob : Option Batch) (tr : T)
    (m : Mem) (kb : Sl) (h : kb.OK m) : t.existM grow pc f db ob tr m kb = t.exist f db ob tr := by
  unfold Table.existM Table.exist
  simp only [(keyM_spec grow hp tr h).2]
  rfl

/-- C106 for `Get` of one point. -/
theorem C106_getOne {t : Table T F} (grow : Nat → Nat → Nat) {pc : Pieces T} (hp : pc.For t) (f : F) (db : KV) (ob : Option Batch) (tr : T)
    (m : Mem) (kb : Sl) (h : kb.OK m) : t.getOneM grow pc f db ob tr m kb = t.getOne f db ob tr := by
  unfold Table.getOneM Table.getOne
  simp only [(keyM_spec grow hp tr h).2]
  rfl

/-! Concrete cases -/

/-- `C106_unsafeInsert` at two rows, with buffers full of other bytes -/
example := C106_unsafeInsert (stdEnv exTable) (fun _ n => n + 3) exPieces_for KV.empty () none [(2, 6), (1, 5)] exWMem exWMem_bufs (by decide)

/-- the rows arrive in the store, in the order given -/
example : (exTable.unsafeInsertM persistentBatchSize (stdEnv exTable) (fun _ n => n + 3) exPieces KV.empty () none [(2, 6), (1, 5)] exWMem).1.commits =
    [[.set (exTable.key (2, 6)) [2, 6], .set (exTable.indexKey exIndex (2, 6)) indexKeyValue, .set (exTable.key (1, 5)) [1, 5],
      .set (exTable.indexKey exIndex (1, 5)) indexKeyValue]] := by
  decide +kernel

theorem exWMem_kb : Bufs exWMem.mem (exWMem.ib :: exWMem.ib2 :: exWMem.val :: (⟨4, 0, 2, 5⟩ : Sl) :: exWMem.keys) := by
  unfold Bufs Sl.OK Sl.Dis exWMem exMem
  decide

/-- `C106_unsafeUpdate` at two rows, with a key buffer that is too small -/
example := C106_unsafeUpdate (stdEnv exTable) (fun _ n => n) exPieces_for exDB () none [(2, 9), (1, 8)] [(2, 6), (1, 5)] ⟨4, 0, 2, 5⟩ exWMem exWMem_kb

example : (exTable.unsafeUpdateM (stdEnv exTable) (fun _ n => n) exPieces exDB () none [(2, 9), (1, 8)] [(2, 6), (1, 5)] ⟨4, 0, 2, 5⟩ exWMem).1.commits =
    [[.set (exTable.key (2, 9)) [2, 9], .del (exTable.indexKey exIndex (2, 6)), .set (exTable.indexKey exIndex (2, 9)) indexKeyValue,
      .set (exTable.key (1, 8)) [1, 8], .del (exTable.indexKey exIndex (1, 5)), .set (exTable.indexKey exIndex (1, 8)) indexKeyValue]] := by
  decide +kernel

/-- The hypothesis is needed: if the key buffer and the value buffer are the same memory, the row overwrites its own key. -/
example : (exTable.unsafeUpdateM (stdEnv exTable) (fun _ n => n) exPieces exDB () none [(2, 9)] [(2, 6)] ⟨1, 0, 0, 40⟩
      { exWMem with val := ⟨1, 0, 0, 40⟩ }).1.commits ≠
    (exTable.unsafeUpdate (stdEnv exTable) exDB () none [(2, 9)] [(2, 6)]).commits := by
  decide +kernel

/-- `C106_exist` and `C106_getOne` at a stored row, with a buffer that is too small -/
example : exTable.existM (fun _ n => n) exPieces () exDB none (2, 0) exMem ⟨3, 0, 1, 1⟩ = true ∧
    (exTable.getOneM (fun _ n => n) exPieces () exDB none (2, 0) exMem ⟨3, 0, 1, 1⟩).toOption = some [(2, 6)] := by
  rw [C106_exist _ exPieces_for _ _ _ _ _ _ (by unfold Sl.OK exMem; decide), C106_getOne _ exPieces_for _ _ _ _ _ _ (by unfold Sl.OK exMem; decide)]
  decide +kernel

end Bond
