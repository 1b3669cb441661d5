import Verif.FilterLiveLemmas
import Verif.Props.Transactions
import Verif.Props.Reads
/-
C95: a filter that is initialised while the table is written.
-/
namespace Bond
open Spec
variable {T F : Type}

theorem initInv_run {t : Table T (Gate F)} (wf : t.WF) {fl : Filter F} (ht : t.filter = some (gateFilter fl)) (hf : FilterKeeps fl)
    {cfg : InitCfg F} {ks : List (Task T)} (hs : Separate t ks) {db : KV} (hcfg : cfg.OK t fl db)
    (hlow : ∀ k ∈ ks, ∀ pk, dataKey t.id pk ∈ taskKeys t k → ble (t.pk t.empty) pk = true)
    {f : F} (sched : List ((Nat ⊕ List WOp) ⊕ Bool)) : ∀ {x : InitWorld T F},
    (∀ ops, .inl (.inr ops) ∈ sched → OutsideOps t ops) → InitInv t fl ks db f x → InitInv t fl ks db f (x.run t fl cfg sched) := by
  induction sched with
  | nil => intro x _ h; exact h
  | cons a sched ih =>
    intro x ho h
    refine ih (x := x.step t fl cfg a) (fun ops hm => ho ops (List.mem_cons.2 (Or.inr hm))) ?_
    rcases a with a | ok
    · exact h.write wf ht hf hs hlow a (fun ops e => ho ops (by rw [e]; exact List.mem_cons_self))
    · exact h.init wf ht hf hcfg ok

/-- C95 (any number of goroutines filling and committing batches or making calls, any interleaving with any number of
initialisations of the filter by another goroutine, failing or not, and with what is in the store loaded or not): if no row key is
in two tasks, no row has a primary key below that of the table's empty record, the saved filter, if it can be loaded, knows the rows
there were at the start, and the table is among those scanned, then at every moment, before, during and after the initialisation,
Exist, Get of a point and Get of points answer as they would without a filter. -/
theorem C95_reads {t : Table T (Gate F)} (wf : t.WF) {fl : Filter F} (ht : t.filter = some (gateFilter fl)) (hf : FilterKeeps fl)
    {cfg : InitCfg F} {ks : List (Task T)} (hs : Separate t ks) {db : KV} (hcfg : cfg.OK t fl db)
    (hdb : ∀ pk, (db.get (dataKey t.id pk)).isSome = true → ble (t.pk t.empty) pk = true)
    (hlow : ∀ k ∈ ks, ∀ pk, dataKey t.id pk ∈ taskKeys t k → ble (t.pk t.empty) pk = true) (f : F)
    (sched : List ((Nat ⊕ List WOp) ⊕ Bool)) (ho : ∀ ops, .inl (.inr ops) ∈ sched → OutsideOps t ops)
    {env : Env T} (ok : env.OK t) (f0 : Gate F) (p : T) (pts : List T) :
    let w := ((t.initWorld db f ks).run t fl cfg sched).w
    t.exist w.filt w.db none p = t.noFilter.exist f0 w.db none p ∧
    t.getPoint w.filt w.db none p = t.noFilter.getPoint f0 w.db none p ∧
    t.getMany env w.filt w.db none pts = t.noFilter.getMany env f0 w.db none pts := by
  obtain ⟨s, h⟩ := (initInv_run wf ht hf hs hcfg hlow sched ho (InitInv.start wf ht hf hs (f0 := f) hdb)).tx
  exact reads_same ok f0 rfl h.covW p pts

/-- C95 (what is stored): under the same conditions the database and all results are at every moment those of carrying out the
tasks that have ended one after the other, in the order in which they ended, without any initialisation. -/
theorem C95_serial {t : Table T (Gate F)} (wf : t.WF) {fl : Filter F} (ht : t.filter = some (gateFilter fl)) (hf : FilterKeeps fl)
    {cfg : InitCfg F} {ks : List (Task T)} (hs : Separate t ks) {db : KV} (hcfg : cfg.OK t fl db)
    (hdb : ∀ pk, (db.get (dataKey t.id pk)).isSome = true → ble (t.pk t.empty) pk = true)
    (hlow : ∀ k ∈ ks, ∀ pk, dataKey t.id pk ∈ taskKeys t k → ble (t.pk t.empty) pk = true) (f : F)
    (sched : List ((Nat ⊕ List WOp) ⊕ Bool)) (ho : ∀ ops, .inl (.inr ops) ∈ sched → OutsideOps t ops) :
    let w := ((t.initWorld db f ks).run t fl cfg sched).w
    let s := t.batchRun (taskRw ks) (BatchWorld.start db ⟨f, false⟩) (oneByOne ks w.log)
    w.db = s.db ∧ w.outs = s.log := by
  obtain ⟨s, h⟩ := (initInv_run wf ht hf hs hcfg hlow sched ho (InitInv.start wf ht hf hs (f0 := f) hdb)).tx
  simp only
  rw [← h.seq]
  exact ⟨h.db, h.outs⟩

theorem initRun_append {t : Table T (Gate F)} {fl : Filter F} {cfg : InitCfg F} (x : InitWorld T F) (a b : List ((Nat ⊕ List WOp) ⊕ Bool)) :
    x.run t fl cfg (a ++ b) = (x.run t fl cfg a).run t fl cfg b := by simp [InitWorld.run]

theorem initRun_add {t : Table T (Gate F)} {fl : Filter F} {cfg : InitCfg F} (keys : List Bytes) (rest : List (Option (List Bytes))) :
    ∀ (w : TxWorld T (Gate F)), ∃ g : Gate F, (InitWorld.mk w (.add keys rest)).run t fl cfg (List.replicate (keys.length + 1) (.inr true)) =
      ⟨{ w with filt := g }, .scan rest⟩ := by
  induction keys with
  | nil => intro w; exact ⟨w.filt, rfl⟩
  | cons k keys ih =>
    intro w
    obtain ⟨g, hg⟩ := ih { w with filt := { w.filt with inner := fl.add w.filt.inner k } }
    refine ⟨g, ?_⟩
    rw [List.length_cons, List.replicate_succ]
    exact hg

theorem initRun_scan {t : Table T (Gate F)} (wf : t.WF) {fl : Filter F} {cfg : InitCfg F} (rest : List (Option (List Bytes))) :
    ∀ (w : TxWorld T (Gate F)), ∃ n, ((InitWorld.mk w (.scan rest)).run t fl cfg (List.replicate n (.inr true))).phase = .done ∧
      ((InitWorld.mk w (.scan rest)).run t fl cfg (List.replicate n (.inr true))).w.filt.ready = true := by
  induction rest with
  | nil => intro w; exact ⟨2, rfl, rfl⟩
  | cons c rest ih =>
    intro w
    have key : ∃ keys, (InitWorld.mk w (.scan (c :: rest))).step t fl cfg (.inr true) = ⟨w, .add keys rest⟩ := by
      cases c with
      | some keys => exact ⟨keys, rfl⟩
      | none =>
        obtain ⟨keys, hk, _⟩ := initKeys_mem wf w.db
        exact ⟨keys, by simp [InitWorld.step, Table.initStep, hk]⟩
    obtain ⟨keys, hk⟩ := key
    obtain ⟨g, hg⟩ := initRun_add (t := t) (fl := fl) (cfg := cfg) keys rest w
    obtain ⟨n, hn⟩ := ih { w with filt := g }
    refine ⟨1 + ((keys.length + 1) + n), ?_⟩
    rw [← List.replicate_append_replicate, ← List.replicate_append_replicate, initRun_append, initRun_append]
    rw [show (InitWorld.mk w (.scan (c :: rest))).run t fl cfg (List.replicate 1 (.inr true)) =
      (InitWorld.mk w (.scan (c :: rest))).step t fl cfg (.inr true) from rfl, hk, hg]
    exact hn

/-- C95 (the initialisation ends): wherever it is, if its remaining calls go well the initialisation ends after finitely many actions
and the filter is in use; also when what is in the store could not be loaded. -/
theorem C95_ends {t : Table T (Gate F)} (wf : t.WF) {fl : Filter F} {cfg : InitCfg F} (x : InitWorld T F) (hd : x.phase ≠ .done) :
    ∃ n, (x.run t fl cfg (List.replicate n (.inr true))).phase = .done ∧
      (x.run t fl cfg (List.replicate n (.inr true))).w.filt.ready = true := by
  obtain ⟨w, p⟩ := x
  cases p with
  | start => exact ⟨2, rfl, rfl⟩
  | failed => exact ⟨3, rfl, rfl⟩
  | store => exact ⟨1, rfl, rfl⟩
  | done => exact absurd rfl hd
  | clear =>
    obtain ⟨n, hn⟩ := initRun_scan (t := t) wf (fl := fl) (cfg := cfg) cfg.scans w
    refine ⟨1 + n, ?_⟩
    rw [← List.replicate_append_replicate, initRun_append]
    exact hn
  | scan rest => exact initRun_scan wf rest w
  | add keys rest =>
    obtain ⟨g, hg⟩ := initRun_add (t := t) (fl := fl) (cfg := cfg) keys rest w
    obtain ⟨n, hn⟩ := initRun_scan (t := t) wf (fl := fl) (cfg := cfg) rest { w with filt := g }
    refine ⟨(keys.length + 1) + n, ?_⟩
    rw [← List.replicate_append_replicate, initRun_append, hg]
    exact hn

/-- `exTable` with a filter that remembers exactly the added keys, behind FilterInitializable -/
def gateTable : Table Rec (Gate (List Bytes)) :=
  { id := 7, pk := exTable.pk, indexes := exTable.indexes, ser := exTable.ser, deser := exTable.deser, nil := (0, 0),
    empty := (0, 0), filter := some (gateFilter setFilter), prefetch := 100 }

/-- nothing is saved, so Load always fails; the table and another one are scanned -/
def exInit : InitCfg (List Bytes) := { load := fun b f => if b then [dataKey 7 [1], dataKey 7 [2]] ++ f else f, scans := [some [[9]], none] }

/-- one goroutine inserts row 3 and changes row 1, another deletes row 2 -/
def exInitTasks : List (Task Rec) :=
  [.batch true [.inl (stdEnv gateTable, .insert [(3, 3)]), .inl (stdEnv gateTable, .update [(1, 7)])] (some true),
   .direct (stdEnv gateTable) (.delete [(2, 6)])]

theorem gateTable_wf : gateTable.WF where
  ids := by decide
  nz := by intro idx h; simp [gateTable, exTable] at h; subst h; decide
  klen := by intro idx h x; simp [gateTable, exTable] at h; subst h; simp [exIndex]
  olen := by intro idx h x; simp [gateTable, exTable] at h; subst h; simp [exIndex]

theorem setFilter_keeps : FilterKeeps setFilter := by
  intro f k
  refine ⟨by simp [setFilter], fun k' h => ?_⟩
  simp [setFilter] at h ⊢
  exact Or.inr h

theorem exInitTasks_separate : Separate gateTable exInitTasks := by
  refine ⟨?_, ?_, Or.inr ?_, ?_⟩
  · intro i j a b hij hi hj
    have hi' : i < 2 := (List.getElem?_eq_some_iff.1 hi).1
    have hj' : j < 2 := (List.getElem?_eq_some_iff.1 hj).1
    have hk : ∀ i j : Fin 2, i ≠ j → ∀ k ∈ taskKeys gateTable (exInitTasks[i]'(by simp [exInitTasks])),
        k ∉ taskKeys gateTable (exInitTasks[j]'(by simp [exInitTasks])) := by decide
    have := hk ⟨i, hi'⟩ ⟨j, hj'⟩ (by simpa using hij)
    rw [List.getElem?_eq_some_iff] at hi hj
    obtain ⟨_, rfl⟩ := hi
    obtain ⟨_, rfl⟩ := hj
    exact this
  · intro a ha c hc
    simp only [exInitTasks, List.mem_cons, List.not_mem_nil, or_false] at ha
    rcases ha with rfl | rfl <;> simp [taskCalls] at hc
    · rcases hc with rfl | rfl <;> exact stdEnv_ok _
    · rcases hc with rfl; exact stdEnv_ok _
  · intro a ha c hc
    simp only [exInitTasks, List.mem_cons, List.not_mem_nil, or_false] at ha
    rcases ha with rfl | rfl <;> simp [taskCalls] at hc
    · rcases hc with rfl | rfl <;> intro trs olds h <;> cases h
    · rcases hc with rfl; intro trs olds h; cases h
  · intro a ha
    simp only [exInitTasks, List.mem_cons, List.not_mem_nil, or_false] at ha
    rcases ha with rfl | rfl
    · intro ops hops
      simp at hops
    · trivial

theorem gateTable_low (a : UInt8) : ble (gateTable.pk gateTable.empty) [a] = true := by
  simp [gateTable, exTable, ble, blt]

theorem exDB_dataKeys {pk : Bytes} (h : (exDB.get (dataKey 7 pk)).isSome = true) : pk = [1] ∨ pk = [2] := by
  obtain ⟨v, hv⟩ := Option.isSome_iff_exists.1 h
  have hm := (exDB.get_eq_some_iff _ v).1 hv
  have hl : exDB.l.map Prod.fst =
      [dataKey 7 [1], dataKey 7 [2], encodeIndexKey 7 1 [5] [] [1], encodeIndexKey 7 1 [6] [] [2]] := by decide
  have hk : dataKey 7 pk ∈ exDB.l.map Prod.fst := List.mem_map.2 ⟨_, hm, rfl⟩
  rw [hl] at hk
  rcases List.mem_cons.1 hk with e | hk
  · exact Or.inl (dataKey_inj e).2
  rcases List.mem_cons.1 hk with e | hk
  · exact Or.inr (dataKey_inj e).2
  rw [dataKey_eq] at hk
  simp [encodeIndexKey_eq] at hk

theorem exInit_ok : exInit.OK gateTable setFilter exDB where
  grows := by
    intro b f k h
    cases b
    · exact h
    · simp [exInit, setFilter] at h ⊢; exact Or.inr (Or.inr h)
  loads := by
    intro f pk h
    rcases exDB_dataKeys h with rfl | rfl <;> simp [exInit, setFilter, gateTable]
  scanned := by decide

/-- The insert is done, Load fails, the store is cleared, the iterator of the other table and then that of the table are opened, row 2 is
deleted, the batch is committed, and the keys of the iterator are added and the filter is put to use. -/
def exInitSched : List ((Nat ⊕ List WOp) ⊕ Bool) :=
  [.inl (.inl 0), .inl (.inl 0), .inr false, .inr true, .inr true, .inl (.inl 0), .inr true, .inr true, .inr true] ++
  List.replicate 4 (.inl (.inl 1)) ++ List.replicate 12 (.inl (.inl 0)) ++ List.replicate 5 (.inr true)

/-- The hypotheses of C95_reads hold, the initialisation ends after both tasks, and then the filter denies row 9, which never was there, but
neither row 1 nor row 3. -/
example : gateTable.WF ∧ gateTable.filter = some (gateFilter setFilter) ∧ FilterKeeps setFilter ∧ Separate gateTable exInitTasks ∧
    exInit.OK gateTable setFilter exDB ∧
    (∀ pk, (exDB.get (dataKey gateTable.id pk)).isSome = true → ble (gateTable.pk gateTable.empty) pk = true) ∧
    (∀ k ∈ exInitTasks, ∀ pk, dataKey gateTable.id pk ∈ taskKeys gateTable k → ble (gateTable.pk gateTable.empty) pk = true) ∧
    (∀ ops, .inl (.inr ops) ∈ exInitSched → OutsideOps gateTable ops) ∧
    (let x := (gateTable.initWorld exDB [] exInitTasks).run gateTable setFilter exInit exInitSched
     x.phase = .done ∧ x.w.filt.ready = true ∧ x.w.log = [.inl 1, .inl 0] ∧ (gateFilter setFilter).may x.w.filt (gateTable.key (9, 0)) = false ∧
     gateTable.getPoint x.w.filt x.w.db none (1, 0) = .ok (1, 7) ∧ gateTable.getPoint x.w.filt x.w.db none (3, 0) = .ok (3, 3) ∧
     gateTable.exist x.w.filt x.w.db none (2, 0) = false) := by
  refine ⟨gateTable_wf, rfl, setFilter_keeps, exInitTasks_separate, exInit_ok, ?_, ?_, ?_, by decide⟩
  · intro pk h
    rcases exDB_dataKeys h with rfl | rfl <;> exact gateTable_low _
  · intro k hk pk h
    simp only [exInitTasks, List.mem_cons, List.not_mem_nil, or_false] at hk
    rcases hk with rfl | rfl
    · have : dataKey gateTable.id pk ∈ [dataKey 7 [3], dataKey 7 [1]] := h
      simp only [List.mem_cons, List.not_mem_nil, or_false] at this
      rcases this with e | e <;> rw [(dataKey_inj e).2] <;> exact gateTable_low _
    · have : dataKey gateTable.id pk ∈ [dataKey 7 [2]] := h
      simp only [List.mem_cons, List.not_mem_nil, or_false] at this
      rw [(dataKey_inj this).2]; exact gateTable_low _
  · intro ops h
    simp [exInitSched] at h

/-- C95 is false for a filter used as it is, without FilterInitializable: until its initialisation has reached row 1, which has long been
there, Exist denies it. -/
theorem C95_refuted_plain :
    let t := { gateTable with filter := some (plainFilter setFilter) }
    let w := ((t.initWorld exDB [] []).run t setFilter exInit [.inr false, .inr true, .inr true]).w
    t.exist w.filt w.db none (1, 0) = false ∧ t.noFilter.exist w.filt w.db none (1, 0) = true := by decide

/-- one goroutine changes row 1 in a batch, another deletes it -/
def exInitSame : List (Task Rec) :=
  [.batch true [.inl (stdEnv gateTable, .update [(1, 7)])] (some true), .direct (stdEnv gateTable) (.delete [(1, 5)])]

/-- C95 is false for tasks with a common row key: the batch has read row 1 when the other goroutine deletes it, the iterator of the scan is
opened, and the commit stores the row again; Update adds nothing to the filter, so the row is denied from then on. -/
theorem C95_refuted_sameKey :
    let w := ((gateTable.initWorld exDB [] exInitSame).run gateTable setFilter exInit
      (List.replicate 3 (.inl (.inl 0)) ++ List.replicate 4 (.inl (.inl 1)) ++ [.inr false] ++ List.replicate 5 (.inr true) ++
        List.replicate 3 (.inl (.inl 0)) ++ List.replicate 4 (.inr true))).w
    w.outs = [.direct none, .commit 0 [none] none] ∧
    gateTable.getPoint w.filt w.db none (1, 0) = .error .notFound ∧ gateTable.noFilter.getPoint w.filt w.db none (1, 0) = .ok (1, 7) := by
  decide

/-- C95 is false if the table is not among those scanned, also without any writer -/
theorem C95_refuted_notScanned :
    let w := ((gateTable.initWorld exDB [] []).run gateTable setFilter { exInit with scans := [some [[9]]] }
      ([.inr false] ++ List.replicate 6 (.inr true))).w
    w.filt.ready = true ∧ gateTable.exist w.filt w.db none (1, 0) = false ∧ gateTable.noFilter.exist w.filt w.db none (1, 0) = true := by
  decide

/-- C95 is false for a row whose primary key is below that of the table's empty record -/
theorem C95_refuted_low :
    let t := { gateTable with empty := (2, 0) }
    let w := ((t.initWorld exDB [] []).run t setFilter exInit ([.inr false] ++ List.replicate 9 (.inr true))).w
    w.filt.ready = true ∧ t.exist w.filt w.db none (2, 0) = true ∧ t.exist w.filt w.db none (1, 0) = false ∧
    t.noFilter.exist w.filt w.db none (1, 0) = true := by
  decide

end Bond
