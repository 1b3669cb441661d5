import Verif.BufferWritesLemmas
import Verif.Props.Writes
/-
C106: buffers used again never mix up keys or rows.

The buffers of a call come from the pools: any memory with any old contents, of any capacity, as long as no two overlap (`Bufs`). `grow` is the
choice of the Go runtime when a slice has to grow. The functions with `M` read every key and every value from memory at the moment at which the
code uses it.
-/
namespace Bond

variable {T F σ : Type}

/-- C106 for scans (also queries, which scan): whatever the buffers hold, however large they are and however they grow, a scan gives the callback the
keys and rows that it would without any buffers; for callbacks that call `lazy.Get` at most once for a row. -/
theorem C106_scan_partial {t : Table T F} {env : Env T} (ok : env.OK t) (grow : Nat → Nat → Nat) (filt : F) (view : σ → KV × Option Batch)
    (idx : Index T) (sel : Selector T) (f : σ → Bytes → Cb σ T) (hf : ∀ s k, (f s k).once) (reverse : Bool) (fuel : Nat) (m : Mem) (multi : Sl)
    (vbuf : List Sl) (hb : Bufs m (multi :: vbuf)) (hl : vbuf.length = t.prefetch) (s : σ) :
    t.scanIndexForEachM env grow filt view idx sel f reverse fuel m multi vbuf s = t.scanIndexForEach env filt view idx sel f reverse fuel s := by
  unfold Table.scanIndexForEachM Table.scanIndexForEach
  cases t.iterParts (view s).1 (view s).2 idx sel with
  | none => rfl
  | some parts =>
    simp only
    split
    · rfl
    · exact outerLoopM_spec t ok grow filt view f hf fuel fuel 0 _ s
        ⟨(hb.1 multi List.mem_cons_self).zero, hb.tail, fun v hv => ((List.pairwise_cons.mp hb.2).1 v hv).symm.zero, hl⟩ rfl rfl

/-- C106 for `Get` of several points. -/
theorem C106_get {t : Table T F} {env : Env T} (ok : env.OK t) (grow : Nat → Nat → Nat) {pc : Pieces T} (hp : pc.For t) (f : F) (db : KV)
    (ob : Option Batch) (points : List T) (m : Mem) (kb vb : List Sl) (hb : Bufs m (kb ++ vb)) (hk : kb.length = points.length)
    (hv : vb.length = points.length) : t.getManyM env grow pc f db ob points m kb vb = t.getMany env f db ob points :=
  getChunksM_spec ok grow hp f db ob points.length _ m kb vb (fun _ hc => (batched_length_le points points.length hc).1) (by omega) hv hb

/-- C106 for `Insert`: the same writes, and buffers that are as good for the next call. -/
theorem C106_insert {t : Table T F} {env : Env T} (ok : env.OK t) (grow : Nat → Nat → Nat) {pc : Pieces T} (hp : pc.For t) (db : KV) (filt : F)
    (ob : Option Batch) (trs : List T) (w : WMem) (hb : Bufs w.mem (w.ib :: w.ib2 :: w.val :: w.keys))
    (hk : w.keys.length = min trs.length persistentBatchSize) :
    (t.insertM persistentBatchSize env grow pc db filt ob trs w).1 = t.insert env db filt ob trs ∧
    (let w' := (t.insertM persistentBatchSize env grow pc db filt ob trs w).2; Bufs w'.mem (w'.ib :: w'.ib2 :: w'.val :: w'.keys)) := by
  obtain ⟨a, b⟩ := insertM_spec ok persistentBatchSize grow hp db filt ob trs w (Nat.le_refl _) ⟨hb, by omega⟩
  exact ⟨a, b.bufs⟩

/-- C106 for `Update`. -/
theorem C106_update {t : Table T F} {env : Env T} (ok : env.OK t) (grow : Nat → Nat → Nat) {pc : Pieces T} (hp : pc.For t) (db : KV) (filt : F)
    (ob : Option Batch) (trs : List T) (w : WMem) (hb : Bufs w.mem (w.ib :: w.ib2 :: w.val :: w.keys))
    (hk : w.keys.length = min trs.length persistentBatchSize) :
    (t.updateM persistentBatchSize env grow pc db filt ob trs w).1 = t.update env db filt ob trs ∧
    (let w' := (t.updateM persistentBatchSize env grow pc db filt ob trs w).2; Bufs w'.mem (w'.ib :: w'.ib2 :: w'.val :: w'.keys)) := by
  obtain ⟨a, b⟩ := updateM_spec ok persistentBatchSize grow hp db filt ob trs w (Nat.le_refl _) ⟨hb, by omega⟩
  exact ⟨a, b.bufs⟩

/-- C106 for `Upsert`. -/
theorem C106_upsert {t : Table T F} {env : Env T} (ok : env.OK t) (grow : Nat → Nat → Nat) {pc : Pieces T} (hp : pc.For t) (db : KV) (filt : F)
    (ob : Option Batch) (oc : Table.OnConflict T) (trs : List T) (w : WMem) (hb : Bufs w.mem (w.ib :: w.ib2 :: w.val :: w.keys))
    (hk : w.keys.length = min trs.length persistentBatchSize) :
    (t.upsertM persistentBatchSize env grow pc db filt ob oc trs w).1 = t.upsert env db filt ob oc trs ∧
    (let w' := (t.upsertM persistentBatchSize env grow pc db filt ob oc trs w).2; Bufs w'.mem (w'.ib :: w'.ib2 :: w'.val :: w'.keys)) := by
  obtain ⟨a, b⟩ := upsertM_spec ok persistentBatchSize grow hp db filt ob oc trs w (Nat.le_refl _) ⟨hb, by omega⟩
  exact ⟨a, b.bufs⟩

/-- C106 for `Delete`. -/
theorem C106_delete {t : Table T F} (env : Env T) (grow : Nat → Nat → Nat) {pc : Pieces T} (hp : pc.For t) (db : KV) (filt : F)
    (ob : Option Batch) (trs : List T) (w : WMem) (hb : Bufs w.mem (w.ib :: w.ib2 :: w.val :: w.keys)) :
    (t.deleteM env grow pc db filt ob trs w).1 = t.delete env db filt ob trs ∧
    (let w' := (t.deleteM env grow pc db filt ob trs w).2; Bufs w'.mem (w'.ib :: w'.ib2 :: w'.val :: w'.keys)) := by
  obtain ⟨a, b⟩ := deleteM_spec env grow hp db filt ob trs w (n := 0) ⟨hb, Nat.zero_le _⟩
  exact ⟨a, b.bufs⟩

/-! Concrete cases -/

/-- memory with six arrays full of old bytes -/
def exMem : Mem := { byte := fun a i => UInt8.ofNat (a * 31 + i), next := 6 }

/-- the pieces in which the example table writes its keys: byte by byte -/
def exPieces : Pieces Rec :=
  { pk := fun x => [[x.1]], key := fun i x => (i.key x).map (fun b => [b]), ord := fun i x => (i.ord x).map (fun b => [b]) }

theorem flatten_bytes (l : Bytes) : (l.map (fun b => [b])).flatten = l := by
  induction l with
  | nil => rfl
  | cons b l ih => rw [List.map_cons, List.flatten_cons, ih]; rfl

theorem exPieces_for : exPieces.For exTable where
  pk := fun _ => rfl
  key := fun _ _ => flatten_bytes _
  ord := fun _ _ => flatten_bytes _

/-- buffers of a write call: some too small, two of them in the same array -/
def exWMem : WMem :=
  { mem := exMem, keys := [⟨0, 0, 3, 3⟩, ⟨1, 2, 0, 40⟩], ib := ⟨2, 0, 5, 16⟩, ib2 := ⟨2, 16, 0, 16⟩, val := ⟨3, 0, 1, 1⟩ }

theorem exWMem_bufs : Bufs exWMem.mem (exWMem.ib :: exWMem.ib2 :: exWMem.val :: exWMem.keys) := by
  unfold Bufs Sl.OK Sl.Dis exWMem exMem
  decide

/-- `C106_insert`, `C106_update` and `C106_upsert` at two rows, with buffers full of other bytes -/
example := C106_insert (stdEnv_ok exTable) (fun _ n => n + 3) exPieces_for KV.empty () none [(2, 6), (1, 5)] exWMem exWMem_bufs (by decide)

example := C106_update (stdEnv_ok exTable) (fun _ n => n) exPieces_for exDB () none [(2, 9), (1, 8)] exWMem exWMem_bufs (by decide)

example := C106_upsert (stdEnv_ok exTable) (fun _ n => n) exPieces_for exDB () none ocAdd [(2, 9), (3, 8)] exWMem exWMem_bufs (by decide)

/-- `C106_get` at a stored and an absent row -/
example := C106_get (stdEnv_ok exTable) (fun _ n => n) exPieces_for () exDB none [(2, 0), (9, 0)] exMem
  [⟨0, 0, 0, 14⟩, ⟨1, 0, 0, 1⟩] [⟨1, 1, 0, 2⟩, ⟨2, 0, 0, 9⟩] (by unfold Bufs Sl.OK Sl.Dis exMem; decide) rfl rfl

/-- The hypotheses hold for rows whose keys do not fit into the buffers: the rows arrive in the store, in order, with their index keys, and the
buffers afterwards are other ones. -/
example : (exTable.insertM persistentBatchSize (stdEnv exTable) (fun _ n => n + 3) exPieces KV.empty () none [(2, 6), (1, 5)] exWMem).1.commits =
      [[.set (exTable.key (1, 5)) [1, 5], .set (exTable.indexKey exIndex (1, 5)) indexKeyValue, .set (exTable.key (2, 6)) [2, 6],
        .set (exTable.indexKey exIndex (2, 6)) indexKeyValue]] ∧
    (exTable.insertM persistentBatchSize (stdEnv exTable) (fun _ n => n + 3) exPieces KV.empty () none [(2, 6), (1, 5)] exWMem).2.keys =
      [⟨1, 2, 11, 40⟩, ⟨7, 0, 11, 13⟩] := by
  decide +kernel

/-- an update with the same buffers -/
example : (exTable.updateM persistentBatchSize (stdEnv exTable) (fun _ n => n) exPieces exDB () none [(2, 9), (1, 8)] exWMem).1.commits =
    [[.set (exTable.key (1, 8)) [1, 8], .del (exTable.indexKey exIndex (1, 5)), .set (exTable.indexKey exIndex (1, 8)) indexKeyValue,
      .set (exTable.key (2, 9)) [2, 9], .del (exTable.indexKey exIndex (2, 6)), .set (exTable.indexKey exIndex (2, 9)) indexKeyValue]] := by
  decide +kernel

/-- The hypothesis is needed: with one buffer for both index keys the old and the new key are taken for the same. -/
example : (exTable.updateM persistentBatchSize (stdEnv exTable) (fun _ n => n) exPieces exDB () none [(2, 9), (1, 8)]
    { exWMem with ib2 := exWMem.ib }).1.commits = [[.set (exTable.key (1, 8)) [1, 8], .set (exTable.key (2, 9)) [2, 9]]] := by
  decide +kernel

/-- the example table with two rows read ahead at a time -/
def exTable2 : Table Rec Unit := { exTable with prefetch := 2 }

/-- four rows -/
def exDB4 : KV := (exTable.insert (stdEnv exTable) KV.empty () none [(1, 5), (2, 5), (3, 5), (4, 5)]).db

/-- the callback of the examples collects what it is given -/
def exCollect (s : List (Bytes × Rec)) (k : Bytes) : Cb (List (Bytes × Rec)) Rec :=
  .get s (fun | .ok x => .ret (s ++ [(k, x)]) true none | .error e => .ret s false (some e))

/-- `C106_scan_partial` at four rows and ScanPrefetchSize 2 -/
example := C106_scan_partial (t := exTable2) (stdEnv_ok exTable2) (fun _ n => n) () (fun _ => (exDB4, none)) exIndex (.point (0, 5)) exCollect
  (by intro s k; intro r; cases r <;> exact ⟨_, _, _, rfl⟩) false 9 exMem ⟨0, 0, 0, 14⟩ [⟨1, 0, 0, 1⟩, ⟨1, 1, 0, 2⟩] (by unfold Bufs Sl.OK Sl.Dis exMem; decide) rfl []

/-- A scan in two rounds over the same buffers; the buffer of the keys holds one of the four keys of a round, the others grow. -/
example : Bufs exMem [⟨0, 0, 0, 14⟩, ⟨1, 0, 0, 1⟩, ⟨1, 1, 0, 2⟩] ∧ (∀ s k, (exCollect s k).once) ∧
    exTable2.scanIndexForEachM (stdEnv exTable2) (fun _ n => n + 5) () (fun _ => (exDB4, none)) exIndex (.point (0, 5)) exCollect false 9 exMem
      ⟨0, 0, 0, 14⟩ [⟨1, 0, 0, 1⟩, ⟨1, 1, 0, 2⟩] [] =
    some ⟨[(1, 5), (2, 5), (3, 5), (4, 5)].map (fun x => (exTable.indexKey exIndex x, x)), none⟩ := by
  refine ⟨by unfold Bufs Sl.OK Sl.Dis exMem; decide, ?_, by decide +kernel⟩
  intro s k r
  cases r with
  | ok x => exact ⟨_, _, _, rfl⟩
  | error e => exact ⟨_, _, _, rfl⟩

/-- the keys that the example scan reads ahead in its first round -/
def exRound : Option (List (Bytes × Bytes) × Mem × List Sl × List Sl) :=
  exTable2.collectKeysM (fun _ n => n) (exDB4.scan (keyPrefix 7 1 [5]) [7, 2]) exMem ⟨0, 0, 0, 200⟩ [] []

/-- C106 is false for callbacks that append to the key they are given, which Go allows for any slice: the key of the next row has room for it, the
room is that of the keys after it, and the next call of the callback gets another key than that of its row. -/
theorem C106_refuted : ¬ ∀ rest m keys k1 k2 l (xs : Bytes), exRound = some (rest, m, keys, k1 :: k2 :: l) →
    (m.append (fun _ n => n) k1 xs).1.read k2 = m.read k2 := by
  intro h
  have d : exRound.map (fun r => (r.2.2.2, decide ((r.2.1.append (fun _ n => n) ⟨0, 0, 12, 200⟩ (List.replicate 30 9)).1.read ⟨0, 23, 12, 177⟩ =
      r.2.1.read ⟨0, 23, 12, 177⟩))) = some ([⟨0, 0, 12, 200⟩, ⟨0, 23, 12, 177⟩], false) := by decide +kernel
  obtain ⟨⟨rest, m, keys, iks⟩, e, e2⟩ := Option.map_eq_some_iff.mp d
  simp only [Prod.mk.injEq, decide_eq_false_iff_not] at e2
  obtain ⟨rfl, e3⟩ := e2
  exact e3 (h rest m keys _ _ _ _ e)

/-- C106 is false for serializers that keep a part of the bytes they are given instead of copying it: the value read first is another one after the
next round of the scan, whose values are in the same buffers. -/
theorem C106_refuted_alias : ¬ ∀ (m : Mem) (vb l1 k1 k2 : List Sl), Bufs m (k1 ++ k2 ++ vb) →
    let r1 := exTable2.getKeysM (stdEnv exTable2) (fun _ n => n) () exDB4 none m k1 vb true
    let r2 := exTable2.getKeysM (stdEnv exTable2) (fun _ n => n) () exDB4 none r1.1 k2 r1.2.1 true
    r1.2.2 = .ok l1 → l1.map r2.1.read = l1.map r1.1.read := by
  intro h
  have b : Bufs ((exMem.write 0 0 (exTable.key (1, 5))).write 1 0 (exTable.key (2, 5))) ([⟨0, 0, 11, 11⟩] ++ [⟨1, 0, 11, 11⟩] ++ [⟨2, 0, 0, 9⟩]) := by
    unfold Bufs Sl.OK Sl.Dis Mem.write exMem
    decide
  have := h _ _ [⟨2, 0, 2, 9⟩] _ _ b (by decide +kernel)
  revert this
  decide +kernel

end Bond
