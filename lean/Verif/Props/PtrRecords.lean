import Verif.PtrRecordsLemmas
import Verif.Props.Writes

/- C108: calls leave the caller's record objects alone (tables of pointer records). -/

namespace Bond

variable {T F : Type}

/-- C108, specification: every object that existed before the call has the content it had (`before`, `after`: the objects
before and after the call) -/
def Spec.untouched (before after : RMem T) : Prop := ∀ p, p < before.next → after.cell p = before.cell p

/-- the test table with pointer records: objects 0, 1, 2 belong to the caller (nothing in /repo: test data) -/
def exObjs (xs : List Rec) : RMem Rec := { cell := fun p => xs.getD p (0, 0), next := xs.length }

/-- a serializer that decodes into the object it is given, as the ones for JSON, CBOR and MessagePack do (nothing in /repo: test data) -/
def exReuse : Decoder Rec := { reuse := true, junk := fun x _ => x }

/-- C108 is false: the caller upserts rows 1 and 1 (again) and 2, row 2 is stored with group 6, and the conflict function is
`TableUpsertOnConflictReplace`. Afterwards the first object of the caller, which was row 1, holds the stored row 2. -/
theorem C108_refuted :
    let m := exObjs [(1, 4), (1, 5), (2, 9)]
    let r := exTable.upsertP (stdEnv exTable) exReuse exDB () none upsertReplaceP m [0, 1, 2]
    exDB.get (exTable.key (2, 6)) = some [2, 6] ∧ r.1.err = none ∧ m.cell 0 = (1, 4) ∧ r.2.cell 0 = (2, 6) ∧
    ¬ Spec.untouched m r.2 := by
  intro m r
  refine ⟨by decide, by decide, by decide, by decide, fun h => ?_⟩
  have := h 0 (by decide)
  exact absurd this (by decide)

/-- The `old` record given to the conflict function can be an object of the caller: a conflict function that adds the new group
to the old record and returns it changes the caller's object, although no row is stored at all. -/
theorem C108_refuted_callback :
    let m := exObjs [(1, 4), (1, 5)]
    let oc : OnConflictP Rec := fun m old new => (m.set old ((m.cell old).1, (m.cell old).2 + (m.cell new).2), old)
    let r := exTable.upsertP (stdEnv exTable) exReuse KV.empty () none oc m [0, 1]
    r.1.err = none ∧ r.1.db.get (exTable.key (1, 9)) = some [1, 9] ∧ m.cell 0 = (1, 4) ∧ r.2.cell 0 = (1, 9) := by decide

/-- C108 for `Update`: whatever the rows, repeated keys included, every object that existed is as it was, and the call does what
it does on record values. -/
theorem C108_update_partial (t : Table T F) (env : Env T) {dec : Decoder T} (hf : dec.For t) (db : KV) (filt : F) (ob : Option Batch) (m : RMem T)
    {trs : List Nat} (h : ∀ p ∈ trs, p < m.next) :
    let r := t.updateP env dec db filt ob m trs
    Spec.untouched m r.2 ∧ r.1 = t.update env db filt ob (trs.map m.cell) := by
  obtain ⟨a, b⟩ := updatePBs_spec persistentBatchSize t env hf db filt ob m h
  exact ⟨b.same, a⟩

example :
    let m := exObjs [(1, 8), (2, 9), (1, 7)]
    let r := exTable.updateP (stdEnv exTable) exReuse exDB () none m [0, 1, 2]
    r.1.err = none ∧ r.1.db.get (exTable.key (1, 7)) = some [1, 7] ∧ r.2.next = 4 ∧ r.2.cell 2 = (1, 7) := by decide

/-- C108 for `Upsert` of rows with distinct keys: if the conflict function itself writes no object but the `old` one it is given,
every object of the caller is as it was, and the call does what it does on record values.
Missing for the full C108: repeated keys, see `C108_refuted`, `C108_refuted_callback`. -/
theorem C108_upsert_partial {t : Table T F} {env : Env T} (ok : env.OK t) {dec : Decoder T} (hf : dec.For t) {oc : OnConflictP T}
    {ov : Table.OnConflict T} (ha : oc.Acts ov) (db : KV) (filt : F) (ob : Option Batch) (m : RMem T) {trs : List Nat}
    (h : ∀ p ∈ trs, p < m.next) (hd : (trs.map (fun p => t.pk (m.cell p))).Nodup) :
    let r := t.upsertP env dec db filt ob oc m trs
    Spec.untouched m r.2 ∧ r.1 = t.upsert env db filt ob ov (trs.map m.cell) := by
  have hd' : (trs.map (fun p => t.key (m.cell p))).Nodup := by
    have e : trs.map (fun p => t.key (m.cell p)) = (trs.map (fun p => t.pk (m.cell p))).map (dataKey t.id) := by
      rw [List.map_map]; rfl
    rw [e]
    exact (List.pairwise_map.2 (hd.imp (fun hne he => hne (dataKey_inj he).2)))
  obtain ⟨a, b⟩ := upsertPBs_distinct persistentBatchSize ok hf ha db filt ob m h hd'
  exact ⟨b.same, a⟩

/-- what `upsertReplaceP` does on contents -/
theorem upsertReplaceP_acts : (upsertReplaceP : OnConflictP T).Acts (fun old new => (new, old)) where
  ret := fun _ _ _ _ _ _ => rfl
  old := fun _ _ _ _ _ _ => rfl
  alive := fun _ _ _ _ h _ => h
  next := fun _ _ _ _ _ _ => Nat.le_refl _
  same := fun _ _ _ _ _ _ _ _ _ => rfl

/-- a conflict function that adds the groups up in the old record and returns it -/
def exSumP : OnConflictP Rec := fun m old new => (m.set old ((m.cell old).1, (m.cell old).2 + (m.cell new).2), old)

theorem exSumP_acts : exSumP.Acts (fun old new => ((old.1, old.2 + new.2), (old.1, old.2 + new.2))) where
  ret := fun _ _ _ _ _ _ => by simp [exSumP, RMem.set]
  old := fun _ _ _ _ _ _ => by simp [exSumP, RMem.set]
  alive := fun _ _ _ h _ _ => h
  next := fun _ _ _ _ _ _ => Nat.le_refl _
  same := fun _ _ _ _ _ _ _ _ h => by simp [exSumP, RMem.set, h]

example :
    let m := exObjs [(2, 9), (1, 8), (3, 7)]
    let r := exTable.upsertP (stdEnv exTable) exReuse exDB () none exSumP m [0, 1, 2]
    ((([0, 1, 2] : List Nat).map (fun p => exTable.pk (m.cell p))).Nodup) ∧ r.1.err = none ∧
    r.1.db.get (exTable.key (2, 15)) = some [2, 15] ∧ r.2.cell 0 = (2, 9) ∧ r.2.next = 4 := by decide

/-- C108, repeated keys in key order: the objects of the caller may be overwritten (`C108_refuted`), but only after they were
read. What is stored, the answer and the filter are those of the call on record values, so C16 holds for pointer records too.
The rows are different objects, and the conflict function returns one of its arguments or a new object.
Missing for the full C108: that the objects are left alone. -/
theorem C108_sorted_partial {t : Table T F} {env : Env T} (ok : env.OK t) (st : env.Stable) {dec : Decoder T} (hf : dec.For t)
    {oc : OnConflictP T} {ov : Table.OnConflict T} (ha : oc.Acts ov) (ho : oc.Own) (db : KV) (filt : F) (ob : Option Batch) (m : RMem T)
    {trs : List Nat} (h : ∀ p ∈ trs, p < m.next) (hnd : trs.Nodup)
    (hs : (trs.map (fun p => t.key (m.cell p))).Pairwise (fun a b => ble a b = true)) :
    (t.upsertP env dec db filt ob oc m trs).1 = t.upsert env db filt ob ov (trs.map m.cell) :=
  upsertPBs_sorted (by decide) ok st hf ha ho db filt ob m h hnd hs

example : exSumP.Own := fun _ _ _ => Or.inl rfl

example :
    let m := exObjs [(1, 4), (1, 5), (2, 9)]
    let r := exTable.upsertP (stdEnv exTable) exReuse exDB () none exSumP m [0, 1, 2]
    ((([0, 1, 2] : List Nat).map (fun p => exTable.key (m.cell p))).Pairwise (fun a b => ble a b = true)) ∧ r.1.err = none ∧
    r.1.db.get (exTable.key (1, 14)) = some [1, 14] ∧ r.1.db.get (exTable.key (2, 15)) = some [2, 15] := by decide

/-- Without the key order the overwritten object can be one that was not read yet: rows 1, 2, 1, 1 are upserted, row 2 is stored
with group 6. On record values group 9 is stored for row 2; on pointer records the stored row is decoded into the caller's
object for row 2 before that is written, so the call reports success and row 2 keeps group 6. -/
theorem C108_refuted_stored :
    let m := exObjs [(1, 4), (2, 9), (1, 7), (1, 8)]
    let r := exTable.upsertP (stdEnv exTable) exReuse exDB () none upsertReplaceP m [0, 1, 2, 3]
    let v := exTable.upsert (stdEnv exTable) exDB () none (fun old new => (new, old)) [(1, 4), (2, 9), (1, 7), (1, 8)]
    r.1.err = none ∧ v.err = none ∧ v.db.get (exTable.key (2, 9)) = some [2, 9] ∧ r.1.db.get (exTable.key (2, 9)) = some [2, 6] := by
  decide

example : exReuse.For exTable := fun h => by simp [exReuse] at h

/-- C108 for serializers that decode into a new object (msgp_gen.go:68-79): for all rows, repeated keys included, every object is as
it was and the call does what it does on record values, if the conflict function itself writes no object.
Missing for the full C108: the other serializers, see `C108_refuted`, and conflict functions that write to `old`, see
`C108_refuted_callback`. -/
theorem C108_fresh_partial {t : Table T F} (env : Env T) {dec : Decoder T} (hf : dec.For t) (hr : dec.reuse = false) {oc : OnConflictP T}
    {ov : Table.OnConflict T} (ha : oc.Pure ov) (db : KV) (filt : F) (ob : Option Batch) (m : RMem T) {trs : List Nat}
    (h : ∀ p ∈ trs, p < m.next) :
    let r := t.upsertP env dec db filt ob oc m trs
    Spec.untouched m r.2 ∧ r.1 = t.upsert env db filt ob ov (trs.map m.cell) := by
  obtain ⟨a, b⟩ := upsertPBs_pure persistentBatchSize env hf hr ha db filt ob m h
  exact ⟨b.same, a⟩

/-- a serializer that decodes into a new object (nothing in /repo: test data) -/
def exNew : Decoder Rec := { reuse := false, junk := fun x _ => x }

example : exNew.For exTable := fun _ _ _ => rfl

theorem upsertReplaceP_pure : (upsertReplaceP : OnConflictP T).Pure (fun old new => (new, old)) where
  ret := fun _ _ _ _ _ => rfl
  old := fun _ _ => rfl
  alive := fun _ _ _ _ h => h
  next := fun _ _ _ _ _ => Nat.le_refl _
  same := fun _ _ _ _ _ _ _ => rfl

example :
    let m := exObjs [(1, 4), (2, 9), (1, 7), (1, 8)]
    let r := exTable.upsertP (stdEnv exTable) exNew exDB () none upsertReplaceP m [0, 1, 2, 3]
    r.1.err = none ∧ r.1.db.get (exTable.key (2, 9)) = some [2, 9] ∧ r.2.cell 1 = (2, 9) ∧ r.2.next = 6 := by decide

/-- C108 for `Get` with points: the rows handed out are new objects, each handed out once, with the contents the call has on record
values; nothing that existed is written. Rows that are not there are nil. -/
theorem C108_get_partial (t : Table T F) (env : Env T) (dec : Decoder T) (f : F) (db : KV) (ob : Option Batch) (m : RMem T)
    {points : List Nat} (h : ∀ p ∈ points, p < m.next) :
    let r := t.getManyP env dec f db ob m points
    Spec.untouched m r.2 ∧
    match t.getMany env f db ob (points.map m.cell) with
    | .ok xs => ∃ ps, r.1 = .ok ps ∧ ps.map (r.2.read t.nil) = xs ∧ (∀ p, some p ∈ ps → m.next ≤ p) ∧ (ps.filterMap id).Nodup
    | .error e => r.1 = .error e := by
  obtain ⟨_, b, c⟩ := getChunksP_spec t env dec f db ob points.length m (batched points points.length) m (Nat.le_refl _) (fun _ _ => rfl)
    (fun c hc p hp => h p ((batched_sublist hc).subset hp))
  refine ⟨b, ?_⟩
  rw [← batched_map] at c
  have e : t.getMany env f db ob (points.map m.cell) = t.getChunks env f db ob points.length (batched (points.map m.cell) points.length) := by
    unfold Table.getMany; rw [List.length_map]
  rw [e]
  cases hg : t.getChunks env f db ob points.length (batched (points.map m.cell) points.length) with
  | error er => rw [hg] at c; exact c
  | ok xs =>
    rw [hg] at c
    obtain ⟨ps, h1, h2, h3⟩ := c
    exact ⟨ps, h1, h2, fun p hp => (h3.made p hp).1, h3.once⟩

example :
    let m := exObjs [(2, 0), (9, 0), (1, 0), (2, 0)]
    let r := exTable.getManyP (stdEnv exTable) exReuse () exDB none m [0, 1, 2, 3]
    r.1 = .ok [some 4, none, some 5, some 6] ∧ r.2.cell 4 = (2, 6) ∧ r.2.cell 6 = (2, 6) := by decide

end Bond
