import Verif.RestoreLemmas
import Verif.Props.Writes
import Verif.Read
/-
C46, C47, C48, C66, C67, C73, C74: Dump and Restore.
-/
namespace Bond
open Spec
variable {T F : Type}

/-! ## C46 Dump then Restore reproduces the tables -/

/-- Every key bond writes is exported, as long as index keys are shorter than 2^32 - 1 bytes (at that length the upper bound used by Dump
would cut them off). -/
theorem C46_keys (t i : UInt8) (idx ord pk u : Bytes) (h : idx.length < 2 ^ 32 - 1) :
    Exported (dataKey t pk) ∧ Exported (encodeIndexKey t i idx ord pk) ∧ Exported (newUserKey u) ∧ Exported bondDataVersionKey := by
  refine ⟨⟨t, 0, 0, ?_⟩, ⟨t, i, idx.length, ?_⟩, ⟨0, 255, 0, ?_⟩, ⟨0, 0, 0, ?_⟩⟩
  · exact ⟨beBytes 4 0 ++ pk, by decide, by rw [dataKey_eq]; rfl⟩
  · exact ⟨idx ++ beBytes 4 ord.length ++ ord ++ pk, h, by rw [encodeIndexKey_eq]; simp⟩
  · cases u with
    | nil => exact ⟨[], by decide, by decide⟩
    | cons c u => exact ⟨beBytes 4 0 ++ c :: u, by decide, rfl⟩
  · exact ⟨beBytes 4 0 ++ versionKeyName, by decide, by decide⟩

/-- the theorem at keys of table 7, index 1 -/
example := C46_keys 7 1 [5] [9] [1] [104, 105] (by decide)

/-- C46: a dump with indexes of any set of tables, restored with indexes from any path into any database: the keys of these tables are those
of the dumped database on top of those that were there, all other keys are as before. `full` decides when a new file is started. -/
theorem C46 (snap db0 : KV) (full : List Entry → Bool) (tables : List UInt8) (base : Bytes)
    (hk : ∀ k v, snap.get k = some v → Exported k) (hnd : tables.Nodup) :
    ∃ d db1, dump snap (fun _ => snap) full true tables = .ok d ∧ restore base d tables true db0 = .ok db1 ∧
      (∀ t r, t ∈ tables → db1.get (t :: r) = (snap.get (t :: r)).or (db0.get (t :: r))) ∧
      (∀ k, (∀ t r, k = t :: r → t ∉ tables) → db1.get k = db0.get k) := by
  have hk' : ∀ k v, (k, v) ∈ snap.l → Exported k := fun k v hm => hk k v ((snap.get_eq_some_iff k v).2 hm)
  obtain ⟨d, db1, h1, h2, h3, h4⟩ := restore_dump snap db0 _ full true true tables tables base hk' (.same hk') hnd (fun _ h => h)
  refine ⟨d, db1, h1, h2, fun t r ht => ?_, fun k hno => h4 k fun t i r he h => hno t (i :: r) he h.1⟩
  cases r with
  | nil =>
    rw [h4 [t] (by intro t i r h; cases h)]
    cases hg : snap.get [t] with
    | none => rfl
    | some v =>
      obtain ⟨_, _, _, _, _, he⟩ := hk _ _ hg
      cases he
  | cons i r => exact h3 t i r ht (Or.inr rfl) ⟨⟨t, ht, Or.inr (List.prefix_refl _)⟩, Or.inl rfl⟩

/-- C46 in terms of rows: the restored database has the rows of the dumped tables with all indexes, if it had nothing of them before. -/
theorem C46_rows (snap db0 : KV) (full : List Entry → Bool) (tables : List UInt8) (base : Bytes)
    (hk : ∀ k v, snap.get k = some v → Exported k) (hnd : tables.Nodup) :
    ∃ d db1, dump snap (fun _ => snap) full true tables = .ok d ∧ restore base d tables true db0 = .ok db1 ∧
      ∀ (T F : Type) (t : Table T F) (m : Rows T), t.id ∈ tables → (∀ r, db0.get (t.id :: r) = none) → Holds t snap m → Holds t db1 m := by
  obtain ⟨d, db1, h1, h2, h3, _⟩ := C46 snap db0 full tables base hk hnd
  refine ⟨d, db1, h1, h2, fun T F t m ht h0 H => ?_⟩
  have e : ∀ i k, InSpace t.id i k → db1.get k = snap.get k := by
    rintro i k ⟨r, rfl⟩
    rw [h3 t.id (i :: r) ht, h0]
    simp
  have ed : ∀ pk, db1.get (dataKey t.id pk) = snap.get (dataKey t.id pk) := fun pk => e 0 _ (inSpace_dataKey t.id pk)
  exact {
    row_pk := H.row_pk
    absent := fun pk h => by rw [ed]; exact H.absent pk h
    present := fun pk x h => by rw [ed]; exact H.present pk x h
    only_data := fun k v hg hs => H.only_data k v (by rw [← e 0 k hs]; exact hg) hs
    index := fun idx hi k v hs => by rw [e idx.id k hs]; exact H.index idx hi k v hs }

theorem exDB_exported : ∀ k v, exDB.get k = some v → Exported k := by
  intro k v hg
  have hm := (exDB.get_eq_some_iff k v).1 hg
  have hl : exDB.l.map Prod.fst =
      [dataKey 7 [1], dataKey 7 [2], encodeIndexKey 7 1 [5] [] [1], encodeIndexKey 7 1 [6] [] [2]] := by decide
  have hk : k ∈ exDB.l.map Prod.fst := List.mem_map.2 ⟨_, hm, rfl⟩
  rw [hl] at hk
  have hd := fun pk => (C46_keys 7 1 [] [] pk [] (by decide)).1
  have hi := fun a b => (C46_keys 7 1 [a] [] [b] [] (by show 1 < _; decide)).2.1
  rcases List.mem_cons.1 hk with rfl | hk
  · exact hd _
  rcases List.mem_cons.1 hk with rfl | hk
  · exact hd _
  rcases List.mem_cons.1 hk with rfl | hk
  · exact hi _ _
  rcases List.mem_cons.1 hk with rfl | hk
  · exact hi _ _
  · cases hk

/-- `C46` at the test database, the tables 7 and 70, and a database with an older row of table 7 -/
example := C46 exDB (KV.empty.set (dataKey 7 [1]) [1, 1]) (fun l => decide (1 ≤ l.length)) [7, 70] [47, 98] exDB_exported (by decide)

/-- tables 7 (two rows, one index) and 70 (empty), every file full after one entry -/
example : (∀ k v, exDB.get k = some v → Exported k) ∧ [7, 70].Nodup ∧ Holds exTable exDB (Rows.putAll (fun _ => none) exTable.pk [(1, 5), (2, 6)]) ∧
    (∃ d, dump exDB (fun _ => exDB) (fun f => f.length ≥ 1) true [7, 70] = .ok d ∧ d.dirs.map (·.files.length) = [3, 3, 1]) :=
  ⟨exDB_exported, by decide, exDB_holds, ⟨_, rfl, by decide⟩⟩

/-! ## C47 Restore touches only the requested tables -/

/-- C47 for paths and table numbers that do not interfere: the path given to Restore does not contain the name of a requested table, nor, if
indexes are not wanted, the word "index", and no requested number is the beginning of another dumped one. -/
theorem C47_partial (snap db0 : KV) (full : List Entry → Bool) (wd wr : Bool) (tables req : List UInt8) (base : Bytes)
    (hk : ∀ k v, snap.get k = some v → Exported k) (hnd : tables.Nodup) (hreq : ∀ t ∈ req, t ∈ tables)
    (hpath : ∀ t ∈ req, ¬ tableDirName t <:+: base) (hidx : wr = true ∨ ¬ strIndex <:+: base)
    (hpre : ∀ t ∈ req, ∀ t' ∈ tables, decimal t.toNat <+: decimal t'.toNat → t = t') :
    ∃ d db1, dump snap (fun _ => snap) full wd tables = .ok d ∧ restore base d req wr db0 = .ok db1 ∧
      (∀ t i r, t ∈ req → i = 0 ∨ (wd = true ∧ wr = true) → db1.get (t :: i :: r) = (snap.get (t :: i :: r)).or (db0.get (t :: i :: r))) ∧
      (∀ t i r, ¬ (t ∈ req ∧ (i = 0 ∨ (wd = true ∧ wr = true))) → db1.get (t :: i :: r) = db0.get (t :: i :: r)) := by
  have hk' : ∀ k v, (k, v) ∈ snap.l → Exported k := fun k v hm => hk k v ((snap.get_eq_some_iff k v).2 hm)
  obtain ⟨d, db1, h1, h2, h3, h4⟩ := restore_dump snap db0 _ full wd wr tables req base hk' (.same hk') hnd hreq
  refine ⟨d, db1, h1, h2, fun t i r ht hi => ?_, fun t i r hno => ?_⟩
  · refine h3 t i r (hreq t ht) (hi.imp id (·.1)) ⟨⟨t, ht, Or.inr (List.prefix_refl _)⟩, ?_⟩
    rcases hi with hi | hi
    · exact hidx.imp id fun h => ⟨h, hi⟩
    · exact Or.inl hi.2
  · apply h4
    rintro t' i' r' he ⟨ht, hi, ⟨q, hq, hs⟩, hw⟩
    cases he
    have hqt : q = t := by
      rcases hs with hs | hs
      · exact absurd hs (hpath q hq)
      · exact hpre q hq t ht hs
    subst hqt
    refine hno ⟨hq, ?_⟩
    rcases hw with hw | hw
    · exact hi.imp id fun h => ⟨h, hw⟩
    · exact Or.inl hw.2

/-- the theorem at tables 7 and 17, of which 7 is restored without its index, from the path "/b" -/
example := C47_partial exDB KV.empty (fun l => decide (1 ≤ l.length)) true false [7, 17] [7] [47, 98] exDB_exported (by decide) (by decide) (by decide)
  (.inr (by decide)) (by decide)

/-- C47 for the data alone, without any assumption on the numbers of the tables: if all dumped tables are requested, only the path matters. -/
theorem C47_all_partial (snap db0 : KV) (full : List Entry → Bool) (wd : Bool) (tables : List UInt8) (base : Bytes)
    (hk : ∀ k v, snap.get k = some v → Exported k) (hnd : tables.Nodup) (hidx : ¬ strIndex <:+: base) :
    ∃ d db1, dump snap (fun _ => snap) full wd tables = .ok d ∧ restore base d tables false db0 = .ok db1 ∧
      (∀ t r, t ∈ tables → db1.get (t :: 0 :: r) = (snap.get (t :: 0 :: r)).or (db0.get (t :: 0 :: r))) ∧
      (∀ t i r, t ∉ tables ∨ i ≠ 0 → db1.get (t :: i :: r) = db0.get (t :: i :: r)) := by
  have hk' : ∀ k v, (k, v) ∈ snap.l → Exported k := fun k v hm => hk k v ((snap.get_eq_some_iff k v).2 hm)
  obtain ⟨d, db1, h1, h2, h3, h4⟩ := restore_dump snap db0 _ full wd false tables tables base hk' (.same hk') hnd (fun _ h => h)
  refine ⟨d, db1, h1, h2, fun t r ht => ?_, fun t i r hno => ?_⟩
  · exact h3 t 0 r ht (Or.inl rfl) ⟨⟨t, ht, Or.inr (List.prefix_refl _)⟩, Or.inr ⟨hidx, rfl⟩⟩
  · apply h4
    rintro t' i' r' he ⟨ht, _, _, hw⟩
    cases he
    rcases hw with hw | hw
    · cases hw
    · exact hno.elim (fun h => h ht) (fun h => h hw.2)

/-- the theorem at tables 7 and 70 -/
example := C47_all_partial exDB KV.empty (fun l => decide (1 ≤ l.length)) true [7, 70] [47, 98] exDB_exported (by decide) (by decide)

/-- C46 and C47 for all choices about indexes, if all dumped tables are requested: the rows are restored always, the index entries exactly if both
calls ask for indexes; nothing else is touched. -/
theorem C47_flags_partial (snap db0 : KV) (full : List Entry → Bool) (wd wr : Bool) (tables : List UInt8) (base : Bytes)
    (hk : ∀ k v, snap.get k = some v → Exported k) (hnd : tables.Nodup) (hidx : wr = true ∨ ¬ strIndex <:+: base) :
    ∃ d db1, dump snap (fun _ => snap) full wd tables = .ok d ∧ restore base d tables wr db0 = .ok db1 ∧
      (∀ t i r, t ∈ tables → i = 0 ∨ (wd = true ∧ wr = true) → db1.get (t :: i :: r) = (snap.get (t :: i :: r)).or (db0.get (t :: i :: r))) ∧
      (∀ k, (∀ t i r, k = t :: i :: r → ¬ (t ∈ tables ∧ (i = 0 ∨ (wd = true ∧ wr = true)))) → db1.get k = db0.get k) := by
  have hk' : ∀ k v, (k, v) ∈ snap.l → Exported k := fun k v hm => hk k v ((snap.get_eq_some_iff k v).2 hm)
  obtain ⟨d, db1, h1, h2, h3, h4⟩ := restore_dump snap db0 _ full wd wr tables tables base hk' (.same hk') hnd (fun _ h => h)
  refine ⟨d, db1, h1, h2, fun t i r ht hi => ?_, fun k hno => h4 k ?_⟩
  · refine h3 t i r ht (hi.imp id (·.1)) ⟨⟨t, ht, Or.inr (List.prefix_refl _)⟩, ?_⟩
    rcases hi with hi | hi
    · exact hidx.imp id fun h => ⟨h, hi⟩
    · exact Or.inl hi.2
  · rintro t i r rfl ⟨ht, hi, _, hw⟩
    refine hno t i r rfl ⟨ht, ?_⟩
    rcases hw with hw | hw
    · exact hi.imp id fun h => ⟨h, hw⟩
    · exact Or.inl hw.2

/-- path "/b", tables 7 and 17, 7 requested -/
example : (∀ t ∈ ([7] : List UInt8), ¬ tableDirName t <:+: ([47, 98] : Bytes)) ∧ ¬ strIndex <:+: ([47, 98] : Bytes) ∧
    (∀ t ∈ ([7] : List UInt8), ∀ t' ∈ ([7, 17] : List UInt8), decimal t.toNat <+: decimal t'.toNat → t = t') ∧ ([7, 17] : List UInt8).Nodup := by
  decide

/-- what Restore leaves under a key, `none` if it returns an error -/
def restoredKey (r : Except DErr KV) (k : Bytes) : Option (Option Bytes) := r.toOption.map (·.get k)

/-- a database with one row in table 7 and one in table 70 -/
def exTwo : KV := (KV.empty.set (dataKey 7 [1]) [1]).set (dataKey 70 [2]) [2]

/-- C47 is false when the number of a requested table is the beginning of another one: restoring table 7 also restores table 70, overwriting
what is there. -/
theorem C47_refuted_prefix :
    let d : DumpTree := ⟨beBytes 4 1, [dumpData exTwo (fun _ => false) 7, dumpData exTwo (fun _ => false) 70]⟩
    dump exTwo (fun _ => exTwo) (fun _ => false) true [7, 70] = .ok d ∧
    restoredKey (restore [47, 98] d [7] true (KV.empty.set (dataKey 70 [2]) [9])) (dataKey 70 [2]) = some (some [2]) := by
  decide

/-- C47 is false for a dump directory whose path contains "index": without indexes, nothing is restored and no error is returned. -/
theorem C47_refuted_index :
    let d : DumpTree := ⟨beBytes 4 1, [dumpData exTwo (fun _ => false) 7]⟩
    dump exTwo (fun _ => exTwo) (fun _ => false) false [7] = .ok d ∧
    exTwo.get (dataKey 7 [1]) = some [1] ∧
    restoredKey (restore ([47] ++ strIndex) d [7] false KV.empty) (dataKey 7 [1]) = some none := by
  decide

/-- C47 is false for a dump directory whose path contains the name of a requested table: all tables are restored. -/
theorem C47_refuted_path :
    let d : DumpTree := ⟨beBytes 4 1, [dumpData exTwo (fun _ => false) 7, dumpData exTwo (fun _ => false) 70]⟩
    dump exTwo (fun _ => exTwo) (fun _ => false) true [7, 70] = .ok d ∧
    restoredKey (restore ([47] ++ tableDirName 70) d [70] true KV.empty) (dataKey 7 [1]) = some (some [1]) := by
  decide

/-! ## C48 Dump finds every index -/

/-- C48: the index ids found for a table are exactly the ids other than 0 that have an entry, each once. -/
theorem C48 (db : KV) (t : UInt8) (h2 : ∀ k v, db.get k = some v → 2 ≤ k.length) :
    ∃ ids, getIndexIDs db t = some ids ∧ ids.Pairwise (· < ·) ∧
      ∀ i, i ∈ ids ↔ i ≠ 0 ∧ ∃ k v, InSpace t i k ∧ db.get k = some v := by
  obtain ⟨ids, h1, h3, h4⟩ := indexIDsLoop_spec db t (fun k v hm => h2 k v ((db.get_eq_some_iff k v).2 hm)) 255 1 (by decide)
  refine ⟨ids, h1, h3, fun i => ?_⟩
  rw [h4]
  have hi1 : 1 ≤ i ↔ i ≠ 0 := by
    rw [UInt8.le_iff_toNat_le, ne_eq, ← UInt8.toNat_inj]
    have e0 : (0 : UInt8).toNat = 0 := rfl
    have e1 : (1 : UInt8).toNat = 1 := rfl
    omega
  rw [hi1]
  constructor
  · rintro ⟨h, r, v, hm⟩
    exact ⟨h, _, v, ⟨r, rfl⟩, (db.get_eq_some_iff _ v).2 hm⟩
  · rintro ⟨h, k, v, ⟨r, rfl⟩, hm⟩
    exact ⟨h, r, v, (db.get_eq_some_iff _ v).1 hm⟩

/-- ids 1 and 255, and another table behind -/
example : (let db := ((KV.empty.set [7, 1, 0] []).set [7, 255, 9] []).set [8, 3] []
    (∀ e ∈ db.l, 2 ≤ e.1.length) ∧ getIndexIDs db 7 = some [1, 255]) := by decide

/-! ## C67 A dump is the state of one moment -/

/-- C67 as far as no index loses its last entry: while others write, Dump exports the content the database had when it started, with every
index, provided that every index with an entry at the start still has one when its ids are looked up (for example if there are only inserts). -/
theorem C67_partial (snap db0 : KV) (live : Nat → KV) (full : List Entry → Bool) (tables : List UInt8) (base : Bytes)
    (hk : ∀ k v, snap.get k = some v → Exported k) (hnd : tables.Nodup) (hlen : ∀ n k v, (live n).get k = some v → 2 ≤ k.length)
    (hids : ∀ n t i k v, InSpace t i k → snap.get k = some v → ∃ k' v', InSpace t i k' ∧ (live n).get k' = some v') :
    ∃ d db1, dump snap live full true tables = .ok d ∧ restore base d tables true db0 = .ok db1 ∧
      (∀ t i r, t ∈ tables → db1.get (t :: i :: r) = (snap.get (t :: i :: r)).or (db0.get (t :: i :: r))) ∧
      (∀ t i r, t ∉ tables → db1.get (t :: i :: r) = db0.get (t :: i :: r)) := by
  have hk' : ∀ k v, (k, v) ∈ snap.l → Exported k := fun k v hm => hk k v ((snap.get_eq_some_iff k v).2 hm)
  have hl : LiveOK snap live := {
    len := fun n k v hm => hlen n k v (((live n).get_eq_some_iff k v).2 hm)
    ids := fun n t i r v hm => by
      obtain ⟨k', v', ⟨r', rfl⟩, h⟩ := hids n t i _ v ⟨r, rfl⟩ ((snap.get_eq_some_iff _ v).2 hm)
      exact ⟨r', v', ((live n).get_eq_some_iff _ v').1 h⟩ }
  obtain ⟨d, db1, h1, h2, h3, h4⟩ := restore_dump snap db0 live full true true tables tables base hk' hl hnd (fun _ h => h)
  refine ⟨d, db1, h1, h2, fun t i r ht => h3 t i r ht (Or.inr rfl) ⟨⟨t, ht, Or.inr (List.prefix_refl _)⟩, Or.inl rfl⟩,
    fun t i r ht => h4 _ ?_⟩
  rintro t' i' r' he ⟨ht', _⟩
  cases he
  exact ht ht'

/-- a row is inserted after the snapshot -/
example :
    let live := (exTable.insert (stdEnv exTable) exDB () none [(3, 5)]).db
    (∀ e ∈ live.l, 2 ≤ e.1.length) ∧ (∀ e ∈ exDB.l, (live.get e.1).isSome = true) ∧ getIndexIDs live 7 = some [1] := by
  decide

/-- C67 is false in general: the ids are looked up in the database after the snapshot was taken. The snapshot has row (1, 5) with its index
entry; the row is deleted before the lookup; the dump has the row but not its index entry. -/
theorem C67_refuted :
    let snap := (exTable.insert (stdEnv exTable) KV.empty () none [(1, 5)]).db
    let live := (exTable.delete (stdEnv exTable) snap () none [(1, 5)]).db
    let d : DumpTree := ⟨beBytes 4 1, [dumpData snap (fun _ => false) 7]⟩
    dump snap (fun _ => live) (fun _ => false) true [7] = .ok d ∧
    snap.get (encodeIndexKey 7 1 [5] [] [1]) = some [] ∧
    restoredKey (restore [47, 98] d [7] true KV.empty) (dataKey 7 [1]) = some (some [1, 5]) ∧
    restoredKey (restore [47, 98] d [7] true KV.empty) (encodeIndexKey 7 1 [5] [] [1]) = some none := by
  decide

/-! ## C66 Dump closes the iterators it opens -/

/-- C66 without indexes: as many iterators are closed as opened. -/
theorem C66_partial (counts : List Nat) : (dumpIters false counts).1 = (dumpIters false counts).2 := by
  have : ∀ (l : List Nat) (s : Nat × Nat), s.1 = s.2 →
      (l.foldl (fun (s : Nat × Nat) c => if false = true then (s.1 + 2 + c, s.2 + 1 + c) else (s.1 + 1, s.2 + 1)) s).1 =
      (l.foldl (fun (s : Nat × Nat) c => if false = true then (s.1 + 2 + c, s.2 + 1 + c) else (s.1 + 1, s.2 + 1)) s).2 := by
    intro l
    induction l with
    | nil => intro s h; exact h
    | cons c l ih => intro s h; exact ih _ (by simp [h])
  exact this counts (0, 0) rfl

example : (dumpIters false [2, 1]).1 = 2 := by decide

/-- C66 is false with indexes: one iterator stays open for each table. -/
theorem C66_refuted (counts : List Nat) : (dumpIters true counts).1 = (dumpIters true counts).2 + counts.length := by
  have : ∀ (l : List Nat) (s : Nat × Nat),
      (l.foldl (fun (s : Nat × Nat) c => if true = true then (s.1 + 2 + c, s.2 + 1 + c) else (s.1 + 1, s.2 + 1)) s).1 + s.2 =
      (l.foldl (fun (s : Nat × Nat) c => if true = true then (s.1 + 2 + c, s.2 + 1 + c) else (s.1 + 1, s.2 + 1)) s).2 + s.1 + l.length := by
    intro l
    induction l with
    | nil => intro s; simp only [List.foldl_nil, List.length_nil]; omega
    | cons c l ih =>
      intro s
      have := ih (s.1 + 2 + c, s.2 + 1 + c)
      simp only [List.foldl_cons, if_true, List.length_cons] at this ⊢
      omega
  have h := this counts (0, 0)
  simp only [Nat.add_zero] at h
  exact h

/-! ## C73 Restore refuses dumps it cannot restore -/

/-- C73: Restore returns no error exactly if the dump has the current version, a directory for every requested table, and the files it takes do
not overlap; otherwise the database and the dump are as before. -/
theorem C73 (base : Bytes) (d : DumpTree) (tables : List UInt8) (withIndex : Bool) (db : KV) :
    ((restoreMove base d tables withIndex db).2 = none ↔
      (∃ rest, d.version = [0, 0, 0, 1] ++ rest) ∧ (∀ t ∈ tables, ∃ x ∈ d.dirs, x.name = strTable ++ decimal t.toNat) ∧
      allApart ((restoreFiles base d.dirs tables withIndex).filter fun f => !f.isEmpty) = true) ∧
    ((restoreMove base d tables withIndex db).2 ≠ none → (restoreMove base d tables withIndex db).1 = (db, d)) := by
  have hv : (∃ rest, d.version = [0, 0, 0, 1] ++ rest) ↔ ¬ d.version.length < 4 ∧ beNat (d.version.take 4) = 1 := by
    constructor
    · rintro ⟨rest, h⟩
      rw [h]
      exact ⟨by simp, by simp only [List.cons_append, List.nil_append, List.take_succ_cons, List.take_zero]; decide⟩
    · rintro ⟨h1, h2⟩
      refine ⟨d.version.drop 4, ?_⟩
      have h3 : (d.version.take 4).length = 4 := by rw [List.length_take]; omega
      have h4 : d.version.take 4 = beBytes 4 1 := by have := beBytes_beNat (d.version.take 4); rw [h3, h2] at this; exact this.symm
      have h5 : beBytes 4 1 = [0, 0, 0, 1] := by decide
      rw [← h5, ← h4, List.take_append_drop]
  have ht : (tables.all (fun t => d.dirs.any fun x => x.name == tableDirName t)) = true ↔
      ∀ t ∈ tables, ∃ x ∈ d.dirs, x.name = strTable ++ decimal t.toNat := by
    simp [tableDirName]
  rw [hv, ← ht]
  unfold restoreMove restore
  by_cases h1 : d.version.length < 4
  · simp [h1]
  · by_cases h2 : beNat (d.version.take 4) = 1
    · cases h3 : tables.all (fun t => d.dirs.any fun x => x.name == tableDirName t) with
      | false => simp [h1, h2]
      | true =>
        cases h4 : allApart ((restoreFiles base d.dirs tables withIndex).filter fun f => !f.isEmpty) with
        | false => simp [h1, h2, ingest, h4]
        | true => simp [h1, h2, ingest, h4]
    · simp [h1, h2]

/-- a dump of table 7: accepted for table 7, refused for table 8 and with version 2 -/
example :
    let d : DumpTree := ⟨beBytes 4 1, [dumpData exTwo (fun _ => false) 7]⟩
    (restoreMove [47, 98] d [7] true KV.empty).2 = none ∧ (restoreMove [47, 98] d [8] true KV.empty).2 = some .missing ∧
    (restoreMove [47, 98] { d with version := beBytes 4 2 } [7] true KV.empty).2 = some .version := by decide

/-! ## C74 A dump can be restored again -/

theorem restoreFiles_consumed (base : Bytes) (dirs : List DumpDir) (tables tables' : List UInt8) (w w' : Bool) :
    restoreFiles base (dirs.map (fun x => ⟨x.table, x.index, x.name,
      (x.files.zipIdx 1).map (fun f => if wanted tables w (filePath base x f.2) then [] else f.1)⟩)) tables' w' =
    dirs.flatMap fun d => (d.files.zipIdx 1).filterMap fun f =>
      if wanted tables' w' (filePath base d f.2) then some (if wanted tables w (filePath base d f.2) then [] else f.1) else none := by
  have hz : ∀ (g : List Entry × Nat → List Entry) (l : List (List Entry)) (n : Nat),
      ((l.zipIdx n).map g).zipIdx n = (l.zipIdx n).map fun f => (g f, f.2) := by
    intro g l
    induction l with
    | nil => intro n; rfl
    | cons a l ih => intro n; simp [ih]
  unfold restoreFiles
  rw [List.flatMap_map]
  congr 1
  funext x
  simp only
  rw [hz, List.filterMap_map]
  rfl

/-- C74 is false, for every dump and every successful Restore: the same Restore again, into any database, returns no error and changes nothing. -/
theorem C74_refuted (base : Bytes) (d : DumpTree) (tables : List UInt8) (withIndex : Bool) (db db2 : KV)
    (hok : (restoreMove base d tables withIndex db).2 = none) :
    let d2 := (restoreMove base d tables withIndex db).1.2
    (restoreMove base d2 tables withIndex db2).2 = none ∧ (restoreMove base d2 tables withIndex db2).1.1 = db2 := by
  have hd : (restoreMove base d tables withIndex db).1.2 = consumed base d tables withIndex := by
    unfold restoreMove at hok ⊢
    cases h : restore base d tables withIndex db with
    | error e => rw [h] at hok; cases hok
    | ok db' => rfl
  obtain ⟨h1, h2, _⟩ := (C73 base d tables withIndex db).1.1 hok
  have hf : ∀ f ∈ restoreFiles base (consumed base d tables withIndex).dirs tables withIndex, f = [] := by
    intro f hf
    unfold consumed at hf
    simp only at hf
    rw [restoreFiles_consumed] at hf
    simp only [List.mem_flatMap, List.mem_filterMap] at hf
    obtain ⟨x, _, g, _, hg⟩ := hf
    by_cases hw : wanted tables withIndex (filePath base x g.2) = true
    · simp [hw] at hg; exact hg
    · simp [hw] at hg
  simp only
  rw [hd]
  have hn : (restoreMove base (consumed base d tables withIndex) tables withIndex db2).2 = none := by
    rw [(C73 _ _ _ _ _).1]
    refine ⟨h1, fun t ht => ?_, ?_⟩
    · obtain ⟨x, hx, hxn⟩ := h2 t ht
      exact ⟨_, List.mem_map.2 ⟨x, hx, rfl⟩, hxn⟩
    · have : (restoreFiles base (consumed base d tables withIndex).dirs tables withIndex).filter (fun f => !f.isEmpty) = [] := by
        rw [List.filter_eq_nil_iff]
        intro f h
        rw [hf f h]
        simp
      rw [this]
      rfl
  refine ⟨hn, ?_⟩
  unfold restoreMove at hn ⊢
  cases h : restore base (consumed base d tables withIndex) tables withIndex db2 with
  | error e => rfl
  | ok db' =>
    simp only
    unfold restore at h
    split at h
    · cases h
    · split at h
      · cases h
      · split at h
        · cases h
        · unfold ingest at h
          have hfl : (restoreFiles base (consumed base d tables withIndex).dirs tables withIndex).flatten = [] := by
            rw [List.flatten_eq_nil_iff]; exact hf
          split at h
          · cases h
          · rename_i db'' heq
            split at heq
            · rw [hfl] at heq
              simp only [List.foldl_nil, Option.some.injEq] at heq
              simp only [Except.ok.injEq] at h
              rw [← h, ← heq]
            · cases heq

/-- the dump of a database with a row in table 7: the first Restore brings the row, the second one does not -/
theorem C74_refuted_rows :
    let d : DumpTree := ⟨beBytes 4 1, [dumpData exTwo (fun _ => false) 7]⟩
    let r := restoreMove [47, 98] d [7] true KV.empty
    r.2 = none ∧ r.1.1.get (dataKey 7 [1]) = some [1] ∧
    (restoreMove [47, 98] r.1.2 [7] true KV.empty).2 = none ∧ (restoreMove [47, 98] r.1.2 [7] true KV.empty).1.1.get (dataKey 7 [1]) = none := by
  decide

/-- C74 for other tables: after a Restore of some tables, a Restore of tables of which none was restored is not affected. What is missing is
restoring the same tables again. -/
theorem C74_partial (snap : KV) (full : List Entry → Bool) (wd : Bool) (dumped : List UInt8) (base : Bytes) {d : DumpTree}
    (hk : ∀ k v, snap.get k = some v → Exported k) (hnd : dumped.Nodup) (hdump : dump snap (fun _ => snap) full wd dumped = .ok d)
    (a b : List UInt8) (wa wb : Bool) (db1 db2 : KV)
    (hpath : ∀ t ∈ a, ¬ tableDirName t <:+: base) (hpathb : ∀ t ∈ b, ¬ tableDirName t <:+: base)
    (hpre : ∀ t ∈ a, ∀ t' ∈ dumped, decimal t.toNat <+: decimal t'.toNat → t = t')
    (hpreb : ∀ t ∈ b, ∀ t' ∈ dumped, decimal t.toNat <+: decimal t'.toNat → t = t') (hdis : ∀ t ∈ a, t ∉ b) :
    let d2 := (restoreMove base d a wa db1).1.2
    (restoreMove base d2 b wb db2).2 = (restoreMove base d b wb db2).2 ∧
    (restoreMove base d2 b wb db2).1.1 = (restoreMove base d b wb db2).1.1 := by
  have hk' : ∀ k v, (k, v) ∈ snap.l → Exported k := fun k v hm => hk k v ((snap.get_eq_some_iff k v).2 hm)
  obtain ⟨tis, e1, _, e3, _⟩ := dumpLoop_ok snap (fun _ => snap) full wd (.same hk') dumped 0 [] hnd (by simp)
  have hd : d.dirs = tis.map fun p => mkDir snap full p.1 p.2 := by
    unfold dump at hdump
    rw [e1] at hdump
    simp only [Except.ok.injEq] at hdump
    rw [← hdump]
  have hnot : ∀ x ∈ d.dirs, ∀ n, wanted b wb (filePath base x n) = true → wanted a wa (filePath base x n) = false := by
    intro x hx n hb
    rw [hd] at hx
    obtain ⟨⟨t, i⟩, hti, rfl⟩ := List.mem_map.1 hx
    have hnm := mkDir_name snap full t i
    rw [wanted_iff _ _ _ _ _ (by rw [mkDir_table, mkDir_index]; exact hnm), mkDir_table, mkDir_index] at hb
    rw [← Bool.not_eq_true, wanted_iff _ _ _ _ _ (by rw [mkDir_table, mkDir_index]; exact hnm), mkDir_table, mkDir_index]
    rintro ⟨⟨r, hr, hr'⟩, _⟩
    obtain ⟨⟨q, hq, hq'⟩, _⟩ := hb
    have ht := (e3 t i hti).1
    have h1 : r = t := hr'.elim (fun h => absurd h (hpath r hr)) (fun h => hpre r hr t ht h)
    have h2 : q = t := hq'.elim (fun h => absurd h (hpathb q hq)) (fun h => hpreb q hq t ht h)
    exact hdis r hr (h1.trans h2.symm ▸ hq)
  have hfiles : restoreFiles base (consumed base d a wa).dirs b wb = restoreFiles base d.dirs b wb := by
    unfold consumed
    simp only
    rw [restoreFiles_consumed]
    unfold restoreFiles
    rw [List.flatMap_def, List.flatMap_def]
    congr 1
    apply List.map_congr_left
    intro x hx
    congr 1
    funext f
    by_cases hw : wanted b wb (filePath base x f.2) = true
    · simp [hw, hnot x hx f.2 hw]
    · simp [hw]
  have hdirs : ∀ t : UInt8, (consumed base d a wa).dirs.any (fun x => x.name == tableDirName t) = d.dirs.any (fun x => x.name == tableDirName t) := by
    intro t
    simp only [consumed, List.any_map]
    rfl
  have hr : restore base (consumed base d a wa) b wb db2 = restore base d b wb db2 := by
    unfold restore
    simp only [hfiles, hdirs]
    rfl
  simp only
  have hcase : (restoreMove base d a wa db1).1.2 = d ∨ (restoreMove base d a wa db1).1.2 = consumed base d a wa := by
    unfold restoreMove
    cases restore base d a wa db1 with
    | error e => exact Or.inl rfl
    | ok db' => exact Or.inr rfl
  rcases hcase with h | h
  · rw [h]; exact ⟨rfl, rfl⟩
  · rw [h]
    unfold restoreMove
    rw [hr]
    cases restore base d b wb db2 <;> exact ⟨rfl, rfl⟩

/-- tables 8 and 70 dumped to "/b"; first 70 is restored, then 8 — no number begins another requested one -/
example : (∀ t ∈ ([70] : List UInt8), ¬ tableDirName t <:+: ([47, 98] : Bytes)) ∧ (∀ t ∈ ([8] : List UInt8), ¬ tableDirName t <:+: ([47, 98] : Bytes)) ∧
    (∀ t ∈ ([70] : List UInt8), ∀ t' ∈ ([8, 70] : List UInt8), decimal t.toNat <+: decimal t'.toNat → t = t') ∧
    (∀ t ∈ ([8] : List UInt8), ∀ t' ∈ ([8, 70] : List UInt8), decimal t.toNat <+: decimal t'.toNat → t = t') ∧
    (∀ t ∈ ([70] : List UInt8), t ∉ ([8] : List UInt8)) := by decide


end Bond
