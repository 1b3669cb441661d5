import Verif.Props.Writes
import Verif.Props.Reads
import Verif.Props.Queries
import Verif.LiveScanLemmas
/-
Exact results where the code does not do what C17, C20 and C34 ask for: what Delete removes, what Get of several points
returns, what an intersect query with a batch returns.
-/
namespace Bond
open Spec
variable {T F : Type}

/-! ## C17: exactly the keys Delete removes -/

/-- the keys that belong to the given records, as they are given -/
def Spec.KeyOfGiven (t : Table T F) (trs : List T) (k : Bytes) : Prop :=
  ∃ x ∈ trs, k = dataKey t.id (t.pk x) ∨ ∃ idx ∈ t.indexes, idx.filter x = true ∧ k = t.indexKey idx x

theorem get_dels (V : KV) (ks : List Bytes) (k : Bytes) :
    (k ∈ ks → (V.apply (ks.map WOp.del)).get k = none) ∧ (k ∉ ks → (V.apply (ks.map WOp.del)).get k = V.get k) := by
  induction ks generalizing V with
  | nil => exact ⟨by simp, fun _ => rfl⟩
  | cons a ks ih =>
    rw [List.map_cons, KV.apply_cons]
    have h := ih (V.apply1 (.del a))
    simp only [KV.apply1, KV.get_del] at h ⊢
    refine ⟨fun hk => ?_, fun hk => ?_⟩
    · by_cases hk' : k ∈ ks
      · exact h.1 hk'
      · rw [h.2 hk', if_pos]
        rcases List.mem_cons.1 hk with e | e
        · exact e
        · exact absurd e hk'
    · rw [List.mem_cons, not_or] at hk
      rw [h.2 hk.2, if_neg hk.1]

/-- the writes of the loop of Delete: deletions of the keys of the given records -/
theorem deleteLoop_ops {t : Table T F} {env : Env T} (ok : env.OK t) {trs : List T} {s s' : WSt T F}
    (he : t.deleteLoop env trs s = (s', none)) :
    ∃ ks : List Bytes, s'.ops = s.ops ++ ks.map WOp.del ∧ ∀ k, k ∈ ks ↔ KeyOfGiven t trs k := by
  induction trs generalizing s with
  | nil =>
    simp only [Table.deleteLoop, Prod.mk.injEq, and_true] at he
    subst he; exact ⟨[], by simp, fun k => by simp [KeyOfGiven]⟩
  | cons x xs ih =>
    rw [Table.deleteLoop] at he
    split at he
    · simp at he
    obtain ⟨ks, h1, h2⟩ := ih he
    refine ⟨t.key x :: ((env.order s.clock).filter (fun idx => idx.filter x)).map (fun idx => t.indexKey idx x) ++ ks, ?_, fun k => ?_⟩
    · rw [h1]
      have e : (env.order s.clock).flatMap (fun idx => onDelete t idx x) =
          (((env.order s.clock).filter (fun idx => idx.filter x)).map (fun idx => t.indexKey idx x)).map WOp.del := by
        generalize env.order s.clock = l
        induction l with
        | nil => rfl
        | cons i l ih' =>
          rw [List.flatMap_cons, ih']
          unfold onDelete
          by_cases hf : i.filter x = true <;> simp [hf]
      simp [e]
    · rw [List.mem_append, List.mem_cons, h2 k]
      unfold KeyOfGiven
      constructor
      · rintro ((h | h) | ⟨y, hy, h⟩)
        · exact ⟨x, by simp, Or.inl h⟩
        · obtain ⟨idx, hi, rfl⟩ := List.mem_map.1 h
          rw [List.mem_filter] at hi
          exact ⟨x, by simp, Or.inr ⟨idx, (ok.order s.clock).mem_iff.1 hi.1, hi.2, rfl⟩⟩
        · exact ⟨y, by simp [hy], h⟩
      · rintro ⟨y, hy, h⟩
        rcases List.mem_cons.1 hy with rfl | hy
        · rcases h with h | ⟨idx, hi, hf, rfl⟩
          · exact Or.inl (Or.inl h)
          · exact Or.inl (Or.inr (List.mem_map.2 ⟨idx, List.mem_filter.2 ⟨(ok.order s.clock).mem_iff.2 hi, hf⟩, rfl⟩))
        · exact Or.inr ⟨y, hy, h⟩

/-- C17, exactly what Delete does: with or without a batch, and whatever records are given (repeated, not stored, agreeing with
the stored row or not), a successful call removes the data keys and index keys of the records as given, and nothing else. -/
theorem C17_exact {t : Table T F} {env : Env T} (ok : env.OK t) {db : KV} {f : F} {ob : Option Batch} {trs : List T}
    (he : (t.delete env db f ob trs).err = none) (k : Bytes) :
    (KeyOfGiven t trs k → (t.delete env db f ob trs).view.get k = none) ∧
    (¬ KeyOfGiven t trs k → (t.delete env db f ob trs).view.get k = (baseView db ob).get k) := by
  unfold Table.delete at *
  obtain ⟨h1, h2⟩ := finish_ok he
  obtain ⟨ks, h3, h4⟩ := deleteLoop_ops ok (s := t.start f) (trs := trs)
    (s' := (t.deleteLoop env trs (t.start f)).1) (Prod.ext rfl h1)
  rw [h2]
  have h5 : (t.deleteLoop env trs { ops := [], filt := f, clock := 0, oldTr := t.nil }).1.ops = ks.map WOp.del := by
    simpa [Table.start] using h3
  rw [h5]
  have := get_dels (baseView db ob) ks k
  exact ⟨fun h => this.1 ((h4 k).2 h), fun h => this.2 (fun h' => h ((h4 k).1 h'))⟩

/-- the theorem at a delete that gives another group than the stored one -/
example := C17_exact (stdEnv_ok exTable) (db := exDB) (f := ()) (ob := none) (trs := [(1, 9)]) (by decide) (exTable.indexKey exIndex (1, 5))

/-- C17, exactly when the indexes stay right: after a successful Delete rows and indexes of the table still agree (for some
content) if and only if every index entry of every stored row that was deleted is the index entry of one of the given records. -/
theorem C17_iff {t : Table T F} (wf : t.WF) {env : Env T} (ok : env.OK t) {db : KV} {f : F} {ob : Option Batch} {m : Rows T}
    {trs : List T} (hH : Holds t (baseView db ob) m) (he : (t.delete env db f ob trs).err = none) :
    (∃ m', Holds t (t.delete env db f ob trs).view m') ↔
      ∀ p ∈ trs.map t.pk, ∀ old, m p = some old → ∀ idx ∈ t.indexes, idx.filter old = true →
        ∃ x ∈ trs, idx.filter x = true ∧ t.indexKey idx x = t.indexKey idx old := by
  have hex := C17_exact ok he
  have hspace : ∀ idx ∈ t.indexes, ∀ k, InSpace t.id idx.id k → KeyOfGiven t trs k →
      ∃ x ∈ trs, idx.filter x = true ∧ k = t.indexKey idx x := by
    rintro idx hi k hk ⟨x, hx, h | ⟨i, hi', hf, h⟩⟩
    · exact absurd h (ne_dataKey_of_index wf hi hk)
    · have hk' := inSpace_indexKey t i x
      rw [← h] at hk'
      have := wf.id_inj hi' hi (C09_disjoint hk' hk).2
      subst this
      exact ⟨x, hx, hf, h⟩
  have hdata : ∀ p, KeyOfGiven t trs (dataKey t.id p) ↔ p ∈ trs.map t.pk := by
    intro p
    constructor
    · rintro ⟨x, hx, h | ⟨i, hi, _, h⟩⟩
      · exact List.mem_map.2 ⟨x, hx, (dataKey_inj h).2.symm⟩
      · exact absurd h.symm (ne_dataKey_of_index wf hi (inSpace_indexKey t i x))
    · intro h
      obtain ⟨x, hx, rfl⟩ := List.mem_map.1 h
      exact ⟨x, hx, Or.inl rfl⟩
  constructor
  · rintro ⟨m', hH'⟩ p hp old hold idx hi hf
    have hentry : (baseView db ob).get (t.indexKey idx old) = some [] :=
      (hH.index idx hi _ _ (inSpace_indexKey t idx old)).2 ⟨rfl, p, old, hold, hf, rfl⟩
    by_cases hg : KeyOfGiven t trs (t.indexKey idx old)
    · obtain ⟨x, hx, h1, h2⟩ := hspace idx hi _ (inSpace_indexKey t idx old) hg
      exact ⟨x, hx, h1, h2.symm⟩
    · exfalso
      have := (hex (t.indexKey idx old)).2 hg
      rw [hentry] at this
      obtain ⟨_, p', y, hy, _, hk⟩ := (hH'.index idx hi _ _ (inSpace_indexKey t idx old)).1 this
      have hpk : t.pk old = t.pk y := wf.indexKey_pk hi hk
      rw [hH.row_pk _ _ hold] at hpk
      have hpy : p' = p := by rw [hpk, hH'.row_pk _ _ hy]
      subst hpy
      obtain ⟨b, _, hb⟩ := hH'.present _ _ hy
      rw [(hex _).1 ((hdata p').2 hp)] at hb
      simp at hb
  · intro hc
    refine ⟨fun p => if p ∈ trs.map t.pk then none else m p, ⟨?_, ?_, ?_, ?_, ?_⟩⟩
    · intro p x h
      split at h
      · simp at h
      · exact hH.row_pk _ _ h
    · intro p h
      split at h
      · rename_i hp; exact (hex _).1 ((hdata p).2 hp)
      · rename_i hp; rw [(hex _).2 (fun h' => hp ((hdata p).1 h'))]; exact hH.absent _ h
    · intro p x h
      split at h
      · simp at h
      · rename_i hp; rw [(hex _).2 (fun h' => hp ((hdata p).1 h'))]; exact hH.present _ _ h
    · intro k v hv hk
      by_cases hg : KeyOfGiven t trs k
      · rw [(hex _).1 hg] at hv; simp at hv
      · rw [(hex _).2 hg] at hv; exact hH.only_data k v hv hk
    · intro idx hi k v hk
      by_cases hg : KeyOfGiven t trs k
      · rw [(hex _).1 hg]
        refine ⟨by simp, ?_⟩
        rintro ⟨_, p, y, hy, _, rfl⟩
        exfalso
        split at hy
        · simp at hy
        rename_i hp
        obtain ⟨x, hx, _, he'⟩ := hspace idx hi _ hk hg
        have hpk := wf.indexKey_pk hi he'
        rw [hH.row_pk _ _ hy] at hpk
        exact hp (List.mem_map.2 ⟨x, hx, hpk.symm⟩)
      · rw [(hex _).2 hg, hH.index idx hi k v hk]
        constructor
        · rintro ⟨rfl, p, y, hy, hf, rfl⟩
          refine ⟨rfl, p, y, ?_, hf, rfl⟩
          rw [if_neg]
          · exact hy
          · intro hp
            obtain ⟨x, hx, h1, h2⟩ := hc p hp y hy idx hi hf
            exact hg ⟨x, hx, Or.inr ⟨idx, hi, h1, h2.symm⟩⟩
        · rintro ⟨rfl, p, y, hy, hf, rfl⟩
          split at hy
          · simp at hy
          · exact ⟨rfl, p, y, hy, hf, rfl⟩

/-- the record (1,0) has the key of the stored row (1,5) and another index value: the condition of `C17_iff` fails; the
records (1,0) and (1,5) together meet it -/
example : (exTable.delete (stdEnv exTable) exDB () none [(1, 0)]).err = none ∧
    ¬ (∃ x ∈ [((1, 0) : Rec)], exIndex.filter x = true ∧ exTable.indexKey exIndex x = exTable.indexKey exIndex (1, 5)) ∧
    (exTable.delete (stdEnv exTable) exDB () none [(1, 0), (1, 5)]).err = none ∧
    (exTable.delete (stdEnv exTable) exDB () none [(1, 0), (1, 5)]).db.get (exTable.indexKey exIndex (1, 5)) = none ∧
    (exTable.delete (stdEnv exTable) exDB () none [(1, 0), (1, 5)]).db.get (exTable.indexKey exIndex (2, 6)) = some [] := by
  decide

/-! ## C20: exactly what Get of several points returns -/

/-- C20, exactly: one result per point, in order; the stored row, except that the zero value stands for rows that are not stored
and for rows whose serialized form has no bytes. -/
theorem C20_exact {t : Table T F} (rt : t.RoundTripFresh) {env : Env T} (ok : env.OK t) {f : F} {m : Rows T} {db : KV}
    {ob : Option Batch} (hb : Readable ob) (hH : Holds t (baseView db ob) m) (hF : FilterCovers t f m) (pts : List T) :
    ∃ res : List T, t.getMany env f db ob pts = .ok res ∧ res.length = pts.length ∧
      ∀ (i : Nat) (p r : T), pts[i]? = some p → res[i]? = some r →
        (m (t.pk p) = none → r = t.nil) ∧
        ∀ x, m (t.pk p) = some x → r = if t.ser x = some [] then t.nil else x := by
  rw [getMany_values ok (readable_eq hb) hH hF]
  generalize baseView db ob = V at hH
  induction pts with
  | nil => exact ⟨[], rfl, rfl, by intro i p r h; simp at h⟩
  | cons q qs ih =>
    obtain ⟨res, h1, h2, h3⟩ := ih
    rw [List.map_cons, Table.decodeAll, h1]
    have hstep : ∃ r, (if (V.get (t.key q)).getD [] = [] then (Except.ok res : Except Err (List T)).map (t.nil :: ·)
        else match t.deser t.nil ((V.get (t.key q)).getD []) with
          | none => .error .deser
          | some x => (Except.ok res : Except Err (List T)).map (x :: ·)) = .ok (r :: res) ∧
        (m (t.pk q) = none → r = t.nil) ∧ ∀ x, m (t.pk q) = some x → r = if t.ser x = some [] then t.nil else x := by
      unfold Table.key
      cases hm : m (t.pk q) with
      | none => rw [hH.absent _ hm]; exact ⟨t.nil, by simp [Except.map], fun _ => rfl, by simp⟩
      | some x =>
        obtain ⟨b, hb', hg⟩ := hH.present _ _ hm
        rw [hg]
        by_cases he : b = []
        · subst he
          refine ⟨t.nil, by simp [Except.map], by simp, ?_⟩
          intro y hy; simp at hy; subst hy; simp [hb']
        · refine ⟨x, by simp [Except.map, he, rt x b hb'], by simp, ?_⟩
          intro y hy; simp at hy; subst hy; simp [hb', he]
    obtain ⟨r, g1, g2⟩ := hstep
    refine ⟨r :: res, g1, by simp [h2], ?_⟩
    intro i p r' hp hr'
    cases i with
    | zero => simp at hp hr'; subst hp hr'; exact g2
    | succ i => simp at hp hr'; exact h3 i p r' hp hr'

/-- a stored row without bytes, a stored row, a key that is not stored -/
example :
    let db := (protoTable.insert (stdEnv protoTable) KV.empty () none [some 0, some 3]).db
    db.get (dataKey protoTable.id (protoTable.pk (some 0))) = some [] ∧
    protoTable.getMany (stdEnv protoTable) () db none [some 3, some 0, some 9] = .ok [some 3, none, none] := by
  constructor <;> rfl

/-! ## C34: exactly what an intersect query with a batch returns -/

theorem inAll_keys {t : Table T F} {env : Env T} {filt : F} {db : KV} {ob : Option Batch} {m : Rows T} (S : Setting t env filt db ob m)
    (q : Query T) (hi : IsIndex t q.index) (hs : q.sel.OK q.index) (hqs : ∀ q' ∈ q.intersects, IsIndex t q'.index ∧ q'.sel.OK q'.index) :
    ∃ rows, t.intersect env db ob q.index q.sel q.intersects = .ok (rows.map t.key) ∧
      IsRows t t.primaryIndex m (InAll t env filt db ob (q :: q.intersects)) rows := by
  obtain ⟨prts, _, h2, _⟩ := S.parts hi hs
  have hy := h2 false
  obtain ⟨rows, h1, h3⟩ := intersect_eq S hi hs q.intersects hqs hy
  exact ⟨rows, h1, h3.congr (fun x _ => inAll_cons hy x)⟩

/-- C34, exactly, if the keys are all stored in the database: the keys are those of the rows that all parts select as seen through
the batch, the records those of the database without the batch (`m0`); Filter, Order, Offset and Limit see the latter. -/
theorem C34_exact {t : Table T F} {env : Env T} {filt : F} {db : KV} {ob : Option Batch} {m m0 : Rows T} (S : Setting t env filt db ob m)
    (hH : Holds t db m0) (hF : FilterCovers t filt m0)
    (srt : (T → T → Bool) → List T → List T) (q : Query T) (hne : q.intersects ≠ []) (hchk : q.checkIntersect = true)
    (hi : IsIndex t q.index) (hs : q.sel.OK q.index) (hqs : ∀ q' ∈ q.intersects, IsIndex t q'.index ∧ q'.sel.OK q'.index)
    (hsome : ∀ x, InAll t env filt db ob (q :: q.intersects) x → (m0 (t.pk x)).isSome)
    (haft : q.after = none) (ho : q.offset.toNat < 2 ^ 63) (hL : q.limit.toNat < 2 ^ 63) :
    ∃ rows, IsRows t t.primaryIndex m (InAll t env filt db ob (q :: q.intersects)) rows ∧
      Returns t env srt filt db ob q
        (page q.offset.toNat q.limit.toNat (ordered srt q (rows.filterMap (fun x => m0 (t.pk x))))) := by
  obtain ⟨rows, h1, h3⟩ := inAll_keys S q hi hs hqs
  refine ⟨rows, h3, 0, fun fuel _ => ?_⟩
  have hcur : ∀ x ∈ rows, m0 (t.pk x) = some (cur t m0 x) := fun x hx => cur_eq (hsome x ((h3.2 x).1 hx).2)
  have hmap : rows.filterMap (fun x => m0 (t.pk x)) = rows.map (cur t m0) := by
    clear h1 h3
    induction rows with
    | nil => rfl
    | cons x xs ih =>
      rw [List.filterMap_cons_some (f := fun x => m0 (t.pk x)) (hcur x (by simp)), List.map_cons, ih (fun y hy => hcur y (by simp [hy]))]
  have h1' : t.intersect env db ob q.index q.sel q.intersects = .ok ((rows.map (cur t m0)).map t.key) := by
    rw [h1, List.map_map]
    congr 1
    exact List.map_congr_left (fun x _ => (key_cur hH x).symm)
  have := executeIntersect_eq (db := db) (ob := ob) S.rt S.ok srt hH hF hchk h1' (by
    intro y hy
    obtain ⟨x, hx, rfl⟩ := List.mem_map.1 hy
    rw [pk_cur hH]; exact hcur x hx) ho hL
  unfold Query.execute
  rw [if_neg (by simpa using hne), this, haft, hmap]
  simp [Query.skipAfter, haft]

/-- a batch that updated a row: the key is selected through the batch by its new index value 7, Filter sees the stored record -/
example :
    let b' := (exTable.update (stdEnv exTable) exDB () (some ⟨true, []⟩) [(2, 7)]).batch
    let q : Query Rec := { exQuery with sel := .point (0, 7), intersects := [exQuery] }
    q.execute exTable (stdEnv exTable) insSort () exDB b' 9 = some (.ok [(2, 6)]) ∧
    ({ q with filter := some (fun x => x.2 == 7) }).execute exTable (stdEnv exTable) insSort () exDB b' 9 = some (.ok []) ∧
    ({ q with intersects := [] }).execute exTable (stdEnv exTable) insSort () exDB b' 9 = some (.ok [(2, 7)]) := by
  decide

/-- C34, exactly, if a key is not stored in the database (the batch inserted the row): the query fails with "not found". With
Filter, Order or After any such row is enough, without them it has to lie within Offset and Limit. -/
theorem C34_missing {t : Table T F} {env : Env T} {filt : F} {db : KV} {ob : Option Batch} {m m0 : Rows T} (S : Setting t env filt db ob m)
    (hH : Holds t db m0) (hF : FilterCovers t filt m0)
    (srt : (T → T → Bool) → List T → List T) (q : Query T) (hne : q.intersects ≠ []) (hchk : q.checkIntersect = true)
    (hi : IsIndex t q.index) (hs : q.sel.OK q.index) (hqs : ∀ q' ∈ q.intersects, IsIndex t q'.index ∧ q'.sel.OK q'.index)
    (ho : q.offset.toNat < 2 ^ 63) (hL : q.limit.toNat < 2 ^ 63) :
    ∃ rows, IsRows t t.primaryIndex m (InAll t env filt db ob (q :: q.intersects)) rows ∧
      ∀ x ∈ (if q.filter.isNone ∧ q.less.isNone ∧ q.after.isNone then page q.offset.toNat q.limit.toNat rows else rows),
        m0 (t.pk x) = none → ∀ fuel, q.execute t env srt filt db ob fuel = some (.error .notFound) := by
  obtain ⟨rows, h1, h3⟩ := inAll_keys S q hi hs hqs
  refine ⟨rows, h3, fun x hx hm fuel => ?_⟩
  unfold Query.execute
  rw [if_neg (by simpa using hne)]
  unfold Query.executeIntersect
  rw [if_neg (by rw [hchk]; simp), h1]
  simp only [sliceKeys_eq ho hL]
  have e : (if q.filter.isNone ∧ q.less.isNone ∧ q.after.isNone then page q.offset.toNat q.limit.toNat (rows.map t.key) else rows.map t.key) =
      (if q.filter.isNone ∧ q.less.isNone ∧ q.after.isNone then page q.offset.toNat q.limit.toNat rows else rows).map t.key := by
    split
    · rw [page_map]
    · rfl
  rw [e]
  generalize (if q.filter.isNone ∧ q.less.isNone ∧ q.after.isNone then page q.offset.toNat q.limit.toNat rows else rows) = l at hx
  rw [getKeys_missing t S.ok filt db none (keys := l.map t.key) (by
    intro k hk
    obtain ⟨y, _, rfl⟩ := List.mem_map.1 hk
    exact dataKey_lt_end t _) (Nat.le_refl _) ⟨t.key x, List.mem_map.2 ⟨x, hx, rfl⟩, by
    rw [show t.key x = dataKey t.id (t.pk x) from rfl, lookup_eq (V := db) rfl hH hF]
    exact hH.absent _ hm⟩]

/-- a batch that inserted (3,7): not found; with Limit 2 the row is not reached and the query answers -/
example :
    let b := (exTable.insert (stdEnv exTable) exDB () (some ⟨true, []⟩) [(3, 7)]).batch
    ({ exQuery with intersects := [exQuery] }).execute exTable (stdEnv exTable) insSort () exDB b 9 = some (.error .notFound) ∧
    ({ exQuery with intersects := [exQuery], limit := 2 }).execute exTable (stdEnv exTable) insSort () exDB b 9 =
      some (.ok [(1, 5), (2, 6)]) := by
  decide

/-! ## C33: exactly what an intersect query with After, without Filter and Order, returns -/

theorem dropAfter_absent {pk : T → Bytes} {l : List T} {a : T} (h : ∀ x ∈ l, pk x ≠ pk a) : dropAfter pk a l = none := by
  induction l with
  | nil => rfl
  | cons x xs ih =>
    rw [dropAfter, if_neg (fun e => h x (by simp) e.symm)]
    exact ih (fun y hy => h y (by simp [hy]))

/-- C33, exactly, with After and neither Filter nor Order: all selected rows after the After row, in primary key order; Offset and
Limit are ignored. If the After row is not among them, all selected rows. -/
theorem C33_after_exact {t : Table T F} {env : Env T} {filt : F} {db : KV} {m : Rows T} (S : Setting t env filt db none m)
    (srt : (T → T → Bool) → List T → List T) (q : Query T) (hne : q.intersects ≠ [])
    (hchk : q.checkIntersect = true) (hi : IsIndex t q.index) (hs : q.sel.OK q.index)
    (hqs : ∀ q' ∈ q.intersects, IsIndex t q'.index ∧ q'.sel.OK q'.index)
    {a : T} (haft : q.after = some a) (hf : q.filter = none) (hl : q.less = none) (ho : q.offset.toNat < 2 ^ 63)
    (hL : q.limit.toNat < 2 ^ 63) :
    ∃ rows, IsRows t t.primaryIndex m (InAll t env filt db none (q :: q.intersects)) rows ∧
      (∀ pre suf, rows = pre ++ a :: suf → Returns t env srt filt db none q suf) ∧
      ((∀ x ∈ rows, t.pk x ≠ t.pk a) → Returns t env srt filt db none q rows) := by
  obtain ⟨rows, h1, h3⟩ := inAll_keys S q hi hs hqs
  obtain ⟨V, hV, hH⟩ := S.content
  have hVdb : V = db := by simpa [readable] using hV.symm
  subst hVdb
  have := executeIntersect_eq (db := V) (ob := none) S.rt S.ok srt hH S.covers hchk h1 (fun x hx => ((h3.2 x).1 hx).1.1) ho hL
  rw [if_pos ⟨by simp [hf], by simp [hl], by simp [haft]⟩] at this
  refine ⟨rows, h3, fun pre suf hsplit => ⟨0, fun fuel _ => ?_⟩, fun hno => ⟨0, fun fuel _ => ?_⟩⟩
  · unfold Query.execute
    rw [if_neg (by simpa using hne), this]
    simp only [Query.skipAfter, haft, dropAfter_split hsplit (h3.nodup_pk S.wf (Or.inr rfl))]; rfl
  · unfold Query.execute
    rw [if_neg (by simpa using hne), this]
    simp only [Query.skipAfter, haft, dropAfter_absent hno]; rfl

example :
    ({ exQuery with intersects := [exQuery], limit := 1, offset := 5, after := some (1, 5) }).execute exTable (stdEnv exTable) insSort () exDB3
      none 9 = some (.ok [(2, 6), (3, 7)]) ∧
    ({ exQuery with intersects := [exQuery], limit := 1, after := some (9, 5) }).execute exTable (stdEnv exTable) insSort () exDB3 none 9 =
      some (.ok [(1, 5), (2, 6), (3, 7)]) := by
  decide

end Bond
