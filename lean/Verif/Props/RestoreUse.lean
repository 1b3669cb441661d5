import Verif.Props.Backup
import Verif.Props.ReIndex
import Verif.Props.Bloom
/-
Property C93: using tables after Restore.
-/
namespace Bond
open Spec
variable {T F : Type}

/-! ## C93 After Restore the tables work as if the rows had been written to them

Full statement: after Restore each restored table holds the rows of the dump on top of the rows it had, every index agrees with
them, and every read and write treats the restored rows as stored. False when a restored row replaces one with other index
values (its old index entries stay), and for tables with a filter that was initialised before Restore or is loaded from the
store (restored rows are not found, and can be inserted again). -/

/-- the rows `new` on top of the rows `old` -/
def Spec.over (new old : Rows T) : Rows T := fun pk => (new pk).or (old pk)

theorem over_data {t : Table T F} {snap db0 db1 : KV} {ms m0 : Rows T} (hs : Holds t snap ms) (h0 : Holds t db0 m0)
    (h : ∀ r, db1.get (t.id :: 0 :: r) = (snap.get (t.id :: 0 :: r)).or (db0.get (t.id :: 0 :: r))) :
    (∀ pk x, over ms m0 pk = some x → t.pk x = pk) ∧
    (∀ pk, over ms m0 pk = none → db1.get (dataKey t.id pk) = none) ∧
    (∀ pk x, over ms m0 pk = some x → ∃ b, t.ser x = some b ∧ db1.get (dataKey t.id pk) = some b) ∧
    (∀ k v, db1.get k = some v → InSpace t.id 0 k → ∃ pk, k = dataKey t.id pk) := by
  have hk : ∀ pk, db1.get (dataKey t.id pk) = (snap.get (dataKey t.id pk)).or (db0.get (dataKey t.id pk)) := by
    intro pk
    obtain ⟨r, hr⟩ := inSpace_dataKey t.id pk
    rw [hr]; exact h r
  refine ⟨?_, ?_, ?_, ?_⟩
  · intro pk x hx
    unfold over at hx
    cases hm : ms pk with
    | some y => rw [hm] at hx; simp at hx; subst hx; exact hs.row_pk _ _ hm
    | none => rw [hm] at hx; simp at hx; exact h0.row_pk _ _ hx
  · intro pk hx
    unfold over at hx
    cases hm : ms pk with
    | some y => rw [hm] at hx; simp at hx
    | none => rw [hm] at hx; simp at hx; rw [hk, hs.absent _ hm, h0.absent _ hx]; rfl
  · intro pk x hx
    unfold over at hx
    cases hm : ms pk with
    | some y =>
      rw [hm] at hx; simp at hx; subst hx
      obtain ⟨b, hb, hg⟩ := hs.present _ _ hm
      exact ⟨b, hb, by rw [hk, hg]; rfl⟩
    | none =>
      rw [hm] at hx; simp at hx
      obtain ⟨b, hb, hg⟩ := h0.present _ _ hx
      exact ⟨b, hb, by rw [hk, hs.absent _ hm, hg]; rfl⟩
  · rintro k v hg ⟨r, rfl⟩
    rw [h] at hg
    cases hsn : snap.get (t.id :: 0 :: r) with
    | some w => exact hs.only_data _ w hsn ⟨r, rfl⟩
    | none => rw [hsn] at hg; exact h0.only_data _ v (by simpa using hg) ⟨r, rfl⟩

/-- C93 for restoring rows and indexes: if a restored row replaces one, the one replaced has no index entries that the new one does not
have. Then the table holds the rows of the dump on top of those it had, and all its indexes agree with them. In particular
for tables that are empty, and for rows with other primary keys.
Missing for the full C93: rows with other index values, see `C93_refuted_stale`; filters, see `C93_refuted_filter`. -/
theorem C93_rows_partial (snap db0 : KV) (full : List Entry → Bool) (tables : List UInt8) (base : Bytes)
    (hk : ∀ k v, snap.get k = some v → Exported k) (hnd : tables.Nodup) :
    ∃ d db1, dump snap (fun _ => snap) full true tables = .ok d ∧ restore base d tables true db0 = .ok db1 ∧
      ∀ (T F : Type) (t : Table T F) (ms m0 : Rows T), t.id ∈ tables → Holds t snap ms → Holds t db0 m0 →
        (∀ pk x y, ms pk = some x → m0 pk = some y → ∀ idx ∈ t.indexes, idx.filter y = true →
          idx.filter x = true ∧ t.indexKey idx x = t.indexKey idx y) →
        Holds t db1 (over ms m0) := by
  obtain ⟨d, db1, h1, h2, h3, _⟩ := C46 snap db0 full tables base hk hnd
  refine ⟨d, db1, h1, h2, fun T F t ms m0 ht hs h0 hsame => ?_⟩
  obtain ⟨a, b, c, e⟩ := over_data hs h0 (fun r => h3 t.id (0 :: r) ht)
  refine ⟨a, b, c, e, ?_⟩
  rintro idx hi k v ⟨r, rfl⟩
  rw [h3 t.id (idx.id :: r) ht]
  have i1 := hs.index idx hi _ v ⟨r, rfl⟩
  have i0 := h0.index idx hi _ v ⟨r, rfl⟩
  constructor
  · intro hg
    cases hsn : snap.get (t.id :: idx.id :: r) with
    | some w =>
      rw [hsn] at hg
      simp only [Option.some_or, Option.some.injEq] at hg
      rw [hg] at hsn
      obtain ⟨hv, pk, x, hx, hf, he⟩ := i1.1 hsn
      exact ⟨hv, pk, x, by unfold over; rw [hx]; rfl, hf, he⟩
    | none =>
      rw [hsn] at hg
      obtain ⟨hv, pk, y, hy, hf, he⟩ := i0.1 (by simpa using hg)
      refine ⟨hv, pk, ?_⟩
      cases hm : ms pk with
      | none => exact ⟨y, by unfold over; rw [hm]; simpa using hy, hf, he⟩
      | some x =>
        obtain ⟨hf', he'⟩ := hsame pk x y hm hy idx hi hf
        exact ⟨x, by unfold over; rw [hm]; rfl, hf', by rw [he, he']⟩
  · rintro ⟨hv, pk, x, hx, hf, he⟩
    unfold over at hx
    cases hm : ms pk with
    | some y =>
      rw [hm] at hx; simp at hx; subst hx
      rw [i1.2 ⟨hv, pk, y, hm, hf, he⟩]; rfl
    | none =>
      rw [hm] at hx; simp at hx
      cases hsn : snap.get (t.id :: idx.id :: r) with
      | none => rw [i0.2 ⟨hv, pk, x, hx, hf, he⟩]; rfl
      | some w =>
        have := (hs.index idx hi _ w ⟨r, rfl⟩).1 hsn
        rw [this.1, hv]; rfl

/-- C93, exactly, for restoring rows and indexes: a restored table holds the rows of the dump on top of those it had, its indexes have the
entries of all these rows, those replaced included, and so every index agrees with the rows if and only if no replaced row had an entry that
the new one does not have. -/
theorem C93_exact (snap db0 : KV) (full : List Entry → Bool) (tables : List UInt8) (base : Bytes)
    (hk : ∀ k v, snap.get k = some v → Exported k) (hnd : tables.Nodup) :
    ∃ d db1, dump snap (fun _ => snap) full true tables = .ok d ∧ restore base d tables true db0 = .ok db1 ∧
      ∀ (T F : Type) (t : Table T F) (ms m0 : Rows T), t.id ∈ tables → t.WF → t.RoundTripFresh → Holds t snap ms → Holds t db0 m0 →
        (∀ pk, over ms m0 pk = none → db1.get (dataKey t.id pk) = none) ∧
        (∀ pk x, over ms m0 pk = some x → ∃ b, t.ser x = some b ∧ db1.get (dataKey t.id pk) = some b) ∧
        (∀ idx ∈ t.indexes, ∀ k, InSpace t.id idx.id k →
          ((db1.get k).isSome = true ↔ ∃ pk x, (ms pk = some x ∨ m0 pk = some x) ∧ idx.filter x = true ∧ k = t.indexKey idx x)) ∧
        ((∃ m', Holds t db1 m') ↔ ∀ pk x y, ms pk = some x → m0 pk = some y → ∀ idx ∈ t.indexes, idx.filter y = true →
          idx.filter x = true ∧ t.indexKey idx x = t.indexKey idx y) := by
  obtain ⟨d, db1, h1, h2, h3⟩ := C93_rows_partial snap db0 full tables base hk hnd
  obtain ⟨d', db1', h1', h2', h3', _⟩ := C46 snap db0 full tables base hk hnd
  have hd : d = d' := by rw [h1] at h1'; cases h1'; rfl
  subst hd
  have hdb : db1 = db1' := by rw [h2] at h2'; cases h2'; rfl
  subst hdb
  refine ⟨d, db1, h1, h2, fun T F t ms m0 ht wf rt hs h0 => ?_⟩
  obtain ⟨a, b, c, e⟩ := over_data hs h0 (fun r => h3' t.id (0 :: r) ht)
  have hidx : ∀ idx ∈ t.indexes, ∀ k, InSpace t.id idx.id k →
      ((db1.get k).isSome = true ↔ ∃ pk x, (ms pk = some x ∨ m0 pk = some x) ∧ idx.filter x = true ∧ k = t.indexKey idx x) := by
    rintro idx hi k ⟨r, rfl⟩
    rw [h3' t.id (idx.id :: r) ht]
    constructor
    · intro hg
      cases hsn : snap.get (t.id :: idx.id :: r) with
      | some w =>
        obtain ⟨_, pk, x, hx, hf, he⟩ := (hs.index idx hi _ w ⟨r, rfl⟩).1 hsn
        exact ⟨pk, x, Or.inl hx, hf, he⟩
      | none =>
        rw [hsn, Option.none_or, Option.isSome_iff_exists] at hg
        obtain ⟨v, hv⟩ := hg
        obtain ⟨_, pk, x, hx, hf, he⟩ := (h0.index idx hi _ v ⟨r, rfl⟩).1 hv
        exact ⟨pk, x, Or.inr hx, hf, he⟩
    · rintro ⟨pk, x, hx | hx, hf, he⟩
      · rw [(hs.index idx hi _ [] ⟨r, rfl⟩).2 ⟨rfl, pk, x, hx, hf, he⟩]; rfl
      · have := (h0.index idx hi _ [] ⟨r, rfl⟩).2 ⟨rfl, pk, x, hx, hf, he⟩
        rw [this]
        cases snap.get (t.id :: idx.id :: r) <;> rfl
  refine ⟨b, c, hidx, ?_, fun h => ⟨_, h3 T F t ms m0 ht hs h0 h⟩⟩
  rintro ⟨m', hH⟩ pk x y hx hy idx hi hf
  have hp := (hidx idx hi _ (inSpace_indexKey t idx y)).2 ⟨pk, y, Or.inr hy, hf, rfl⟩
  obtain ⟨v, hv⟩ := Option.isSome_iff_exists.1 hp
  obtain ⟨_, p', z, hz, hfz, hkz⟩ := (hH.index idx hi _ v (inSpace_indexKey t idx y)).1 hv
  have hpk : t.pk y = t.pk z := wf.indexKey_pk hi hkz
  have hp' : p' = pk := by rw [← hH.row_pk _ _ hz, ← hpk, h0.row_pk _ _ hy]
  subst hp'
  -- the row `z` of `m'` is the new row `x`
  obtain ⟨bz, hbz, hgz⟩ := hH.present _ _ hz
  obtain ⟨bx, hbx, hgx⟩ := c p' x (by unfold over; rw [hx]; rfl)
  rw [hgz] at hgx
  cases hgx
  have hxz : z = x := by
    have := rt z bz hbz
    rw [rt x bz hbx] at this
    cases this; rfl
  subst hxz
  exact ⟨hfz, hkz.symm⟩

/-- `C93_exact` at the case of `C93_refuted_stale`: row (1, 9) is stored, the dump has (1, 5) and (2, 6) -/
example : ∃ db1, ¬ ∃ m', Holds exTable db1 m' := by
  obtain ⟨d, db1, _, _, h⟩ := C93_exact exDB (exTable.insert (stdEnv exTable) KV.empty () none [(1, 9)]).db (fun _ => false) [7] [47, 98]
    exDB_exported (by decide)
  refine ⟨db1, fun hc => ?_⟩
  have := (h _ _ exTable _ _ (by decide) exTable_wf (fun x b hb => exTable_rt x b hb _) exDB_holds (insert_view exTable_wf (stdEnv_ok exTable) exTable_fs (by decide : 0 < persistentBatchSize) (ob := none) (f := ())
    (trs := [(1, 9)]) (holds_empty exTable) (covers_nofilter rfl _ _) (callReads_none (Or.inl (by decide))) (by decide)).1).2.2.2.1 hc [1] (1, 5) (1, 9) (by decide) (by decide) exIndex
    (by simp [exTable]) (by decide)
  exact absurd this (by decide)

/-- the database that the example restores into: row (3, 7) -/
def exOther : KV := (exTable.insert (stdEnv exTable) KV.empty () none [(3, 7)]).db

example : let d := dump exDB (fun _ => exDB) (fun _ => false) true [7]
    (d.toOption.bind fun d => (restore [47, 98] d [7] true exOther).toOption.bind fun db =>
      (exTable.scanIndex (stdEnv exTable) () db none exIndex (.range (0, 0) (9, 9)) false 9 []).map (·.s)) = some [(1, 5), (2, 6), (3, 7)] := by
  decide +kernel

/-- C93 for restoring and then rebuilding all indexes, with or without restoring index entries: the table holds the rows of the dump on
top of those it had and all its indexes agree with them, whatever the rows are. Index ids other than 255 (see C36); without
indexes, paths that do not contain "index" (see C47). -/
theorem C93_reindex_partial (snap db0 : KV) (full : List Entry → Bool) (wd wi : Bool) (tables : List UInt8) (base : Bytes)
    (hk : ∀ k v, snap.get k = some v → Exported k) (hnd : tables.Nodup) (hwi : wi = true ∧ wd = true ∨ wi = false ∧ ¬ strIndex <:+: base) :
    ∃ d db1, dump snap (fun _ => snap) full wd tables = .ok d ∧ restore base d tables wi db0 = .ok db1 ∧
      ∀ (T F : Type) (t : Table T F) (ms m0 : Rows T), t.id ∈ tables → t.WF → t.RoundTripFresh → (∀ idx ∈ t.indexes, idx.id ≠ 0xFF) →
        Holds t snap ms → Holds t db0 m0 →
        (t.reIndex (fun _ => true) db1 t.indexes).err = none ∧
        Holds t ((t.reIndex (fun _ => true) db1 t.indexes).db db1) (over ms m0) := by
  have key : ∃ d db1, dump snap (fun _ => snap) full wd tables = .ok d ∧ restore base d tables wi db0 = .ok db1 ∧
      ∀ t r, t ∈ tables → db1.get (t :: 0 :: r) = (snap.get (t :: 0 :: r)).or (db0.get (t :: 0 :: r)) := by
    rcases hwi with ⟨rfl, rfl⟩ | ⟨rfl, hb⟩
    · obtain ⟨d, db1, h1, h2, h3, _⟩ := C46 snap db0 full tables base hk hnd
      exact ⟨d, db1, h1, h2, fun t r ht => h3 t (0 :: r) ht⟩
    · obtain ⟨d, db1, h1, h2, h3, _⟩ := C47_all_partial snap db0 full wd tables base hk hnd hb
      exact ⟨d, db1, h1, h2, h3⟩
  obtain ⟨d, db1, h1, h2, h3⟩ := key
  refine ⟨d, db1, h1, h2, fun T F t ms m0 ht wf rt h255 hs h0 => ?_⟩
  obtain ⟨a, b, c, e⟩ := over_data hs h0 (fun r => h3 t.id r ht)
  have hw : Holds (t.without t.indexes) db1 (over ms m0) := by
    refine ⟨a, b, c, e, ?_⟩
    intro idx hi
    exfalso
    simp only [Table.without, List.mem_filter, Bool.not_eq_true', List.contains_eq_mem, decide_eq_false_iff_not] at hi
    exact hi.2 (List.mem_map.2 ⟨idx, hi.1, rfl⟩)
  have hok := C36_success reindexBatchSize wf rt (fun _ h => h) hw
  exact ⟨hok, C36_partial _ wf rt _ (fun _ h => h) h255 hw hok⟩

/-- rebuilding the index repairs the case of `C93_refuted_stale` -/
example : let db0 := (exTable.insert (stdEnv exTable) KV.empty () none [(1, 9)]).db
    ((dump exDB (fun _ => exDB) (fun _ => false) true [7]).toOption.bind fun d => (restore [47, 98] d [7] true db0).toOption.bind fun db =>
      let db1 := (exTable.reIndex (fun _ => true) db exTable.indexes).db db
      (exTable.scanIndex (stdEnv exTable) () db1 none exIndex (.range (0, 0) (9, 9)) false 9 []).map (·.s)) = some [(1, 5), (2, 6)] := by
  decide +kernel

/-- the example database dumped with its indexes and restored into `db0` -/
def exRestored (db0 : KV) : Option KV :=
  (dump exDB (fun _ => exDB) (fun _ => false) true [7]).toOption.bind fun d => (restore [47, 98] d [7] true db0).toOption

/-- C93 is false when a restored row replaces one with another index value: row (1, 9) is stored, the dump has (1, 5). After Restore, with
indexes and without error, a scan of the index for 9 returns the row (1, 5). -/
theorem C93_refuted_stale :
    (exRestored (exTable.insert (stdEnv exTable) KV.empty () none [(1, 9)]).db).map
      (fun db1 => (exTable.scanIndex (stdEnv exTable) () db1 none exIndex (.point (0, 9)) false 9 []).map fun o => (o.s, o.err)) =
    some (some ([(1, 5)], none)) := by
  decide +kernel

/-- C93 is false for a table with a filter that was initialised before Restore: the database is empty, Initialize succeeds, the rows
(1, 5) and (2, 6) are restored. The row 1 is stored but Get says that it does not exist; Insert of (1, 9) succeeds and replaces the row,
and its old index entry stays beside the new one. -/
theorem C93_refuted_filter :
    let f := filterInitialize exHash exCodec true (BloomFilter.new 8 1 1 exPrefix) KV.empty.get [⟨[], true⟩]
    f.2.2 = .ok ∧
    (exRestored KV.empty).map (fun db1 =>
      ((db1.get (dataKey 7 [1])).isSome, (exBloomTable.getOne f.1 db1 none (1, 0)).toOption.isNone,
        let w := exBloomTable.insert (stdEnv exBloomTable) db1 f.1 none [(1, 9)]
        (w.err.isNone, (w.db.get (exBloomTable.indexKey exIndex (1, 5))).isSome,
          (w.db.get (exBloomTable.indexKey exIndex (1, 9))).isSome))) =
    some (true, true, true, true, true) := by
  decide +kernel

end Bond
