import Verif.InsertRaceLemmas
/-
Invariant of calls on the same rows at the same time, when the rows that can be stored under one key have the same index values.
-/
namespace Bond
open Spec
variable {T F : Type}

/-- rows with the same key that satisfy `A` have the same index entries -/
def Spec.SameEntries (t : Table T F) (A : T → Prop) : Prop :=
  ∀ x y, A x → A y → t.pk x = t.pk y → ∀ idx ∈ t.indexes, idx.filter x = idx.filter y ∧ (idx.filter x = true → t.indexKey idx x = t.indexKey idx y)

/-- the rows given to the call satisfy `A`; a conflict function stays within `A` and does not change the key; the call is not a
Delete or UnsafeUpdate, and an Upsert has no key twice -/
def Spec.CallIn (t : Table T F) (A : T → Prop) : WCall T → Prop
  | .insert trs => ∀ x ∈ trs, A x
  | .update trs => ∀ x ∈ trs, A x
  | .unsafeInsert trs => ∀ x ∈ trs, A x
  | .upsert oc trs => (∀ x ∈ trs, A x) ∧ (trs.map t.pk).Nodup ∧ ∀ x y, A x → A y → t.pk x = t.pk y →
      (A (oc x y).1 ∧ t.pk (oc x y).1 = t.pk x) ∧ A (oc x y).2 ∧ t.pk (oc x y).2 = t.pk x
  | _ => False

/-- the index entries of `x` are there -/
def Entered (t : Table T F) (db : KV) (x : T) : Prop := ∀ idx ∈ t.indexes, idx.filter x = true → db.get (t.indexKey idx x) = some []

/-- the stored rows are in `A` and have their index entries, and there are no other entries (proof notion) -/
structure DbWithin (t : Table T F) (A : T → Prop) (db : KV) : Prop where
  rows : ∀ pk v, db.get (dataKey t.id pk) = some v → ∃ x, A x ∧ t.pk x = pk ∧ t.ser x = some v ∧ Entered t db x
  only_data : ∀ k v, db.get k = some v → InSpace t.id 0 k → ∃ pk, k = dataKey t.id pk
  index : ∀ idx ∈ t.indexes, ∀ k v, InSpace t.id idx.id k → db.get k = some v →
    v = [] ∧ ∃ x, A x ∧ idx.filter x = true ∧ k = t.indexKey idx x ∧ (db.get (t.key x)).isSome

/-- pending writes -/
structure OpsWithin (t : Table T F) (A : T → Prop) (db : KV) (ops : List WOp) : Prop where
  shape : ∀ o ∈ ops, (∃ x b, A x ∧ t.ser x = some b ∧ o = .set (t.key x) b) ∨
    ∃ idx ∈ t.indexes, ∃ x b, A x ∧ idx.filter x = true ∧ o = .set (t.indexKey idx x) [] ∧ .set (t.key x) b ∈ ops
  full : ∀ x b, A x → .set (t.key x) b ∈ ops → ∀ idx ∈ t.indexes, idx.filter x = true →
    .set (t.indexKey idx x) [] ∈ ops ∨ db.get (t.indexKey idx x) = some []

/-- what a running call has read and is about to write stays within `A` (proof notion) -/
structure LocWithin (t : Table T F) (A : T → Prop) (db : KV) (l : Loc T) : Prop where
  ops : OpsWithin t A db l.ops
  entries : ∀ pk v, (dataKey t.id pk, v) ∈ l.entries → ∃ x, A x ∧ t.pk x = pk ∧ t.ser x = some v ∧ Entered t db x

/-- index entries of the table stay -/
def EntriesStay (t : Table T F) (db db' : KV) : Prop :=
  ∀ idx ∈ t.indexes, ∀ x, db.get (t.indexKey idx x) = some [] → db'.get (t.indexKey idx x) = some []

theorem Entered.mono {t : Table T F} {db db' : KV} (h : EntriesStay t db db') {x : T} (hx : Entered t db x) : Entered t db' x :=
  fun idx hi hf => h idx hi x (hx idx hi hf)

theorem OpsWithin.mono {t : Table T F} {A : T → Prop} {db db' : KV} (h : EntriesStay t db db') {ops : List WOp} (ho : OpsWithin t A db ops) : OpsWithin t A db' ops :=
  ⟨ho.shape, fun x b hx hs idx hi hf => (ho.full x b hx hs idx hi hf).imp id (h idx hi x)⟩

theorem LocWithin.mono {t : Table T F} {A : T → Prop} {db db' : KV} (h : EntriesStay t db db') {l : Loc T} (hl : LocWithin t A db l) : LocWithin t A db' l :=
  ⟨hl.ops.mono h, fun pk v hv => by
    obtain ⟨x, h1, h2, h3, h4⟩ := hl.entries pk v hv
    exact ⟨x, h1, h2, h3, h4.mono h⟩⟩

theorem key_ne_indexKey {t : Table T F} (wf : t.WF) {idx : Index T} (hi : idx ∈ t.indexes) (pk : Bytes) (x : T) : dataKey t.id pk ≠ t.indexKey idx x := by
  intro e
  have h0 := inSpace_dataKey t.id pk
  rw [e] at h0
  obtain ⟨r, e1⟩ := h0
  obtain ⟨r', e2⟩ := inSpace_indexKey t idx x
  rw [e1] at e2
  exact wf.nz idx hi (head2 e2).2.symm

theorem OpsWithin.sets {t : Table T F} {A : T → Prop} {db : KV} {ops : List WOp} (h : OpsWithin t A db ops) : ∀ o ∈ ops, ∃ k v, o = .set k v := by
  intro o hm
  rcases h.shape o hm with ⟨x, b, _, _, rfl⟩ | ⟨idx, _, x, b, _, _, rfl, _⟩ <;> exact ⟨_, _, rfl⟩

theorem OpsWithin.atIndex {t : Table T F} (wf : t.WF) {A : T → Prop} {db : KV} {ops : List WOp} (h : OpsWithin t A db ops) {idx : Index T} (hi : idx ∈ t.indexes)
    {k v : Bytes} (hk : InSpace t.id idx.id k) (hm : .set k v ∈ ops) :
    v = [] ∧ ∃ x b, A x ∧ idx.filter x = true ∧ k = t.indexKey idx x ∧ .set (t.key x) b ∈ ops := by
  rcases h.shape _ hm with ⟨x, b, _, _, e⟩ | ⟨idx', hi', x, b, hx, hf, e, hs⟩
  · simp only [WOp.set.injEq] at e
    obtain ⟨r, e1⟩ := hk
    obtain ⟨r', e2⟩ := inSpace_dataKey t.id (t.pk x)
    have e3 : t.id :: idx.id :: r = t.id :: 0 :: r' := by rw [← e1, e.1, ← e2]; rfl
    exact absurd (head2 e3).2 (wf.nz idx hi)
  · simp only [WOp.set.injEq] at e
    have := idx_eq_of_space wf hi hi' hk (by rw [e.1]; exact inSpace_indexKey t idx' x)
    subst this
    exact ⟨e.2, x, b, hx, hf, e.1, hs⟩

theorem OpsWithin.atData {t : Table T F} (wf : t.WF) {A : T → Prop} {db : KV} {ops : List WOp} (h : OpsWithin t A db ops) {pk v : Bytes}
    (hm : .set (dataKey t.id pk) v ∈ ops) : ∃ x, A x ∧ t.pk x = pk ∧ t.ser x = some v := by
  rcases h.shape _ hm with ⟨x, b, hx, hb, e⟩ | ⟨idx', hi', x, b, hx, hf, e, hs⟩
  · simp only [WOp.set.injEq] at e
    exact ⟨x, hx, (dataKey_inj e.1).2.symm, by rw [hb, e.2]⟩
  · simp only [WOp.set.injEq] at e
    exact absurd e.1 (key_ne_indexKey wf hi' pk x)

theorem OpsWithin.stay {t : Table T F} (wf : t.WF) {A : T → Prop} {db : KV} {ops : List WOp} (h : OpsWithin t A db ops) : EntriesStay t db (db.apply ops) := by
  intro idx hi x hg
  rcases get_apply_onlySets ops h.sets (t.indexKey idx x) db with ⟨e, _⟩ | ⟨v, hm, e⟩
  · rw [e, hg]
  · rw [e, (h.atIndex wf hi (inSpace_indexKey t idx x) hm).1]

theorem stored_apply {t : Table T F} {A : T → Prop} {db : KV} {ops : List WOp} (h : OpsWithin t A db ops) {k : Bytes}
    (hk : (db.get k).isSome ∨ ∃ v, .set k v ∈ ops) : ((db.apply ops).get k).isSome := by
  rcases get_apply_onlySets ops h.sets k db with ⟨e, hn⟩ | ⟨v, _, e⟩
  · rcases hk with hk | ⟨v, hv⟩
    · rw [e]; exact hk
    · exact absurd hv (hn v)
  · rw [e]; rfl

theorem DbWithin.commit {t : Table T F} (wf : t.WF) {A : T → Prop} {db : KV} (h : DbWithin t A db) {ops : List WOp} (ho : OpsWithin t A db ops) :
    DbWithin t A (db.apply ops) := by
  refine ⟨fun pk v hg => ?_, fun k v hg hk => ?_, fun idx hi k v hk hg => ?_⟩
  · rcases get_apply_onlySets ops ho.sets (dataKey t.id pk) db with ⟨e, _⟩ | ⟨v', hm, e⟩
    · rw [e] at hg
      obtain ⟨x, h1, h2, h3, h4⟩ := h.rows pk v hg
      exact ⟨x, h1, h2, h3, h4.mono (ho.stay wf)⟩
    · rw [e] at hg; simp only [Option.some.injEq] at hg; subst hg
      obtain ⟨x, h1, h2, h3⟩ := ho.atData wf hm
      refine ⟨x, h1, h2, h3, fun idx hi hf => ?_⟩
      subst h2
      rcases ho.full x _ h1 hm idx hi hf with hs | hs
      · rcases get_apply_onlySets ops ho.sets (t.indexKey idx x) db with ⟨_, hn⟩ | ⟨w, hw, e'⟩
        · exact absurd hs (hn [])
        · rw [e', (ho.atIndex wf hi (inSpace_indexKey t idx x) hw).1]
      · exact ho.stay wf idx hi x hs
  · rcases get_apply_onlySets ops ho.sets k db with ⟨e, _⟩ | ⟨v', hm, e⟩
    · rw [e] at hg; exact h.only_data k v hg hk
    · rcases ho.shape _ hm with ⟨x, b, _, _, e'⟩ | ⟨idx', hi', x, b, hx, hf, e', hs⟩
      · simp only [WOp.set.injEq] at e'; exact ⟨_, e'.1⟩
      · simp only [WOp.set.injEq] at e'
        obtain ⟨r, e1⟩ := hk
        obtain ⟨r', e2⟩ := inSpace_indexKey t idx' x
        have e3 : t.id :: idx'.id :: r' = t.id :: 0 :: r := by rw [← e1, e'.1, ← e2]
        exact absurd (head2 e3).2 (wf.nz idx' hi')
  · rcases get_apply_onlySets ops ho.sets k db with ⟨e, _⟩ | ⟨v', hm, e⟩
    · rw [e] at hg
      obtain ⟨h1, x, h2, h3, h4, h5⟩ := h.index idx hi k v hk hg
      exact ⟨h1, x, h2, h3, h4, stored_apply ho (.inl h5)⟩
    · rw [e] at hg; simp only [Option.some.injEq] at hg; subst hg
      obtain ⟨h1, x, b, h2, h3, h4, h5⟩ := ho.atIndex wf hi hk hm
      exact ⟨h1, x, h2, h3, h4, stored_apply ho (.inr ⟨b, h5⟩)⟩

theorem OpsWithin.insert {t : Table T F} (wf : t.WF) {A : T → Prop} (hs : SameEntries t A) {db : KV} {ops : List WOp} (h : OpsWithin t A db ops) {x : T} {b : Bytes} (hx : A x)
    (hb : t.ser x = some b) {order : List (Index T)} (ho : order.Perm t.indexes) :
    OpsWithin t A db (ops ++ .set (t.key x) b :: order.flatMap (fun idx => onInsert t idx x)) := by
  have e : ∀ o, o ∈ order.flatMap (fun idx => onInsert t idx x) ↔ ∃ idx ∈ t.indexes, idx.filter x = true ∧ o = .set (t.indexKey idx x) [] := by
    intro o
    rw [List.mem_flatMap]
    constructor
    · rintro ⟨idx, hi, hm⟩
      unfold onInsert at hm
      by_cases hf : idx.filter x = true
      · rw [if_pos hf] at hm; exact ⟨idx, ho.mem_iff.1 hi, hf, by simpa [indexKeyValue] using hm⟩
      · rw [if_neg hf] at hm; exact absurd hm (by simp)
    · rintro ⟨idx, hi, hf, rfl⟩
      exact ⟨idx, ho.mem_iff.2 hi, by unfold onInsert; rw [if_pos hf]; simp [indexKeyValue]⟩
  have mem : ∀ o, o ∈ ops ++ .set (t.key x) b :: order.flatMap (fun idx => onInsert t idx x) ↔
      o ∈ ops ∨ o = .set (t.key x) b ∨ ∃ idx ∈ t.indexes, idx.filter x = true ∧ o = .set (t.indexKey idx x) [] := by
    intro o; rw [List.mem_append, List.mem_cons, e]
  refine ⟨fun o hm => ?_, fun y b' hy hm idx hi hf => ?_⟩
  · rcases (mem o).1 hm with hm | rfl | ⟨idx, hi, hf, rfl⟩
    · rcases h.shape o hm with h1 | ⟨idx, hi, y, b', h1, h2, h3, h4⟩
      · exact .inl h1
      · exact .inr ⟨idx, hi, y, b', h1, h2, h3, (mem _).2 (.inl h4)⟩
    · exact .inl ⟨x, b, hx, hb, rfl⟩
    · exact .inr ⟨idx, hi, x, b, hx, hf, rfl, (mem _).2 (.inr (.inl rfl))⟩
  · by_cases hp : t.pk y = t.pk x
    · obtain ⟨h1, h2⟩ := hs y x hy hx hp idx hi
      left; rw [h2 hf]
      exact (mem _).2 (.inr (.inr ⟨idx, hi, by rw [← h1]; exact hf, rfl⟩))
    · rcases (mem _).1 hm with hm | hm | ⟨idx', hi', hf', e'⟩
      · exact (h.full y b' hy hm idx hi hf).imp (fun h => (mem _).2 (.inl h)) id
      · simp only [WOp.set.injEq] at hm; exact absurd (dataKey_inj hm.1).2 hp
      · simp only [WOp.set.injEq] at e'
        exact absurd e'.1 (key_ne_indexKey wf hi' (t.pk y) x)

theorem OpsWithin.update {t : Table T F} {A : T → Prop} (hs : SameEntries t A) {db : KV} {ops : List WOp} (h : OpsWithin t A db ops) {old x : T} {b : Bytes}
    (hx : A x) (hb : t.ser x = some b) (ho : A old) (hp : t.pk old = t.pk x) (he : Entered t db x) {order : List (Index T)} (hord : order.Perm t.indexes) :
    OpsWithin t A db (ops ++ .set (t.key x) b :: order.flatMap (fun idx => onUpdate t idx old x)) := by
  have e : order.flatMap (fun idx => onUpdate t idx old x) = [] := by
    rw [List.flatMap_eq_nil_iff]
    intro idx hi
    obtain ⟨h1, h2⟩ := hs old x ho hx hp idx (hord.mem_iff.1 hi)
    unfold onUpdate
    by_cases hf : idx.filter old = true
    · have hf' : idx.filter x = true := by rw [← h1]; exact hf
      simp [hf, hf', h2 hf]
    · have hf' : ¬ idx.filter x = true := by rw [← h1]; exact hf
      simp [hf, hf']
  rw [e]
  have mem : ∀ o, o ∈ ops ++ [.set (t.key x) b] ↔ o ∈ ops ∨ o = .set (t.key x) b := by
    intro o; rw [List.mem_append, List.mem_singleton]
  refine ⟨fun o hm => ?_, fun y b' hy hm idx hi hf => ?_⟩
  · rcases (mem o).1 hm with hm | rfl
    · rcases h.shape o hm with h1 | ⟨idx, hi, y, b', h1, h2, h3, h4⟩
      · exact .inl h1
      · exact .inr ⟨idx, hi, y, b', h1, h2, h3, (mem _).2 (.inl h4)⟩
    · exact .inl ⟨x, b, hx, hb, rfl⟩
  · by_cases hp : t.pk y = t.pk x
    · obtain ⟨h1, h2⟩ := hs y x hy hx hp idx hi
      right; rw [h2 hf]
      exact he idx hi (by rw [← h1]; exact hf)
    · rcases (mem _).1 hm with hm | hm
      · exact (h.full y b' hy hm idx hi hf).imp (fun h => (mem _).2 (.inl h)) id
      · simp only [WOp.set.injEq] at hm; exact absurd (dataKey_inj hm.1).2 hp

theorem Entered.same {t : Table T F} {A : T → Prop} (hs : SameEntries t A) {db : KV} {x y : T} (hx : A x) (hy : A y) (hp : t.pk x = t.pk y)
    (h : Entered t db x) : Entered t db y := by
  intro idx hi hf
  obtain ⟨h1, h2⟩ := hs x y hx hy hp idx hi
  rw [← h1] at hf
  rw [← h2 hf]
  exact h idx hi hf

/-- the writes of the call contain one for `k` -/
def Loc.Has (l : Loc T) (k : Bytes) : Prop := ∃ v, WOp.set k v ∈ l.ops

/-- whatever the database is when each of the actions happens, they only write within `A`; and if they all succeed, there is a write for each
key of `K` -/
def ActsWithin (t : Table T F) (A : T → Prop) (K : List Bytes) : List (Act T F) → Loc T → Prop
  | [], l => ∀ k ∈ K, l.Has k
  | a :: as, l => ∀ db f, DbWithin t A db → LocWithin t A db l →
      ∀ r, a db f l = (r, none) → LocWithin t A db r.1 ∧ ActsWithin t A K as r.1

/-- the keys of `c` are in `K` -/
def ItemsOf (t : Table T F) (c : List T) (items : List (Bytes × Nat)) : Prop := ∀ e ∈ items, ∃ x ∈ c, c[e.2]? = some x ∧ e.1 = t.key x

theorem itemsOf_sort {t : Table T F} {env : Env T} (ok : env.OK t) (c : List T) : ItemsOf t c (sortKeys env (c.map t.key)) := by
  intro e he
  have hk := sortKeys_key t env c e he
  unfold sortKeys at he
  obtain ⟨j, hj, rfl⟩ := List.mem_map.1 he
  have hj := (ok.sort_perm _).mem_iff.1 hj
  rw [List.mem_range, List.length_map] at hj
  exact ⟨c[j], List.getElem_mem _, by simp [hj], hk _ (by simp [hj])⟩

theorem sort_hasKey {t : Table T F} {env : Env T} (ok : env.OK t) (c : List T) {x : T} (hx : x ∈ c) : ∃ e ∈ sortKeys env (c.map t.key), e.1 = t.key x := by
  obtain ⟨j, hj, rfl⟩ := List.mem_iff_getElem.1 hx
  refine ⟨((c.map t.key).getD j [], j), ?_, by simp [hj]⟩
  exact List.mem_map.2 ⟨j, (ok.sort_perm _).mem_iff.2 (by rw [List.mem_range, List.length_map]; exact hj), rfl⟩

theorem entries_open {t : Table T F} {A : T → Prop} {db : KV} (h : DbWithin t A db) {lo hi : Bytes} (pk v : Bytes) (hm : (dataKey t.id pk, v) ∈ db.scan lo hi) :
    ∃ x, A x ∧ t.pk x = pk ∧ t.ser x = some v ∧ Entered t db x := h.rows pk v ((KV.mem_scan _ _ _ _ _).1 hm).1

theorem seekExact_mem {l : List (Bytes × Bytes)} {k v : Bytes} (h : seekExact l k = some v) : (k, v) ∈ l := by
  unfold seekExact seekGE at h
  cases hf : l.find? (fun e => ble k e.1) with
  | none => rw [hf] at h; simp at h
  | some e =>
    rw [hf] at h
    simp only [Option.ite_none_right_eq_some, Option.some.injEq] at h
    obtain ⟨h1, h2⟩ := h
    have := List.mem_of_find?_eq_some hf
    rw [← h1, ← h2]; exact this

theorem existIter_mem {t : Table T F} {f : F} {l : List (Bytes × Bytes)} {k v : Bytes} (h : t.existIter f l k = some v) : (k, v) ∈ l := by
  unfold Table.existIter at h
  split at h
  · split at h
    · simp at h
    · exact seekExact_mem h
  · exact seekExact_mem h

theorem insert_item {t : Table T F} (wf : t.WF) {A : T → Prop} (hs : SameEntries t A) {env : Env T} (ok : env.OK t) {c : List T} (hc : ∀ x ∈ c, A x) {db : KV} {f : F}
    {l : Loc T} {e : Bytes × Nat} {rest : List (Bytes × Nat)} (hl : l.items = e :: rest) (hi : ItemsOf t c l.items) (hw : LocWithin t A db l) {r : Loc T × F}
    (hr : insertRow t env c db f l = (r, none)) : LocWithin t A db r.1 ∧ r.1.items = rest ∧ r.1.Has e.1 ∧ ∀ k, l.Has k → r.1.Has k := by
  obtain ⟨x, hxc, hcx, hkx⟩ := hi e (by rw [hl]; simp)
  unfold insertRow at hr
  rw [hl] at hr
  simp only [Table.insertLoop, Loc.toW, hcx] at hr
  split at hr
  · simp at hr
  · split at hr
    · simp at hr
    · cases hb : t.ser x with
      | none => rw [hb] at hr; simp at hr
      | some b =>
        rw [hb] at hr
        simp only [Loc.upd, Prod.mk.injEq, and_true] at hr
        subst hr
        refine ⟨⟨?_, hw.entries⟩, rfl, ⟨b, by simp⟩, fun k ⟨v, hv⟩ => ⟨v, by simp [hv]⟩⟩
        simp only; rw [hkx]; exact hw.ops.insert wf hs (hc x hxc) hb (ok.order _)

theorem upsert_item {t : Table T F} (wf : t.WF) (rt : t.RoundTrip) {A : T → Prop} (hs : SameEntries t A) {env : Env T} (ok : env.OK t) {c : List T} (hc : ∀ x ∈ c, A x)
    {oc : Table.OnConflict T} (hoc : ∀ x y, A x → A y → t.pk x = t.pk y →
      (A (oc x y).1 ∧ t.pk (oc x y).1 = t.pk x) ∧ A (oc x y).2 ∧ t.pk (oc x y).2 = t.pk x) {db : KV} {f : F}
    {l : Loc T} {e : Bytes × Nat} {rest : List (Bytes × Nat)} (hl : l.items = e :: rest) (hn : ∀ e' ∈ rest, e'.1 ≠ e.1) (hi : ItemsOf t c l.items) (hw : LocWithin t A db l)
    {r : Loc T × F} (hr : upsertRow t env oc c db f l = (r, none)) : LocWithin t A db r.1 ∧ r.1.items = rest ∧ r.1.Has e.1 ∧ ∀ k, l.Has k → r.1.Has k := by
  obtain ⟨x, hxc, hcx, hkx⟩ := hi e (by rw [hl]; simp)
  have hdrop : rest.dropWhile (fun x => x.1 == e.1) = rest := by
    cases rest with
    | nil => rfl
    | cons e' rest => rw [List.dropWhile_cons, if_neg]; simpa using hn e' (by simp)
  have hdup : ∀ i tr o, Table.upsertDup oc c e.1 rest i tr o = some (rest, i, tr, o) := by
    intro i tr o
    cases rest with
    | nil => rfl
    | cons e' rest =>
      obtain ⟨k', j'⟩ := e'
      rw [Table.upsertDup, if_neg]
      exact hn (k', j') (by simp)
  have hA := hc x hxc
  unfold upsertRow at hr
  rw [hl] at hr
  obtain ⟨ek, ej⟩ := e
  simp only at hcx hkx
  simp only [Table.upsertLoop, Loc.toW, hcx, hdup, hdrop] at hr
  split at hr
  · simp at hr
  · cases hf : t.existIter f l.entries ek with
    | none =>
      rw [hf] at hr
      simp only at hr
      cases hb : t.ser x with
      | none => rw [hb] at hr; simp at hr
      | some b =>
        rw [hb] at hr
        simp only [Loc.upd, Prod.mk.injEq, and_true] at hr
        subst hr
        refine ⟨⟨?_, hw.entries⟩, rfl, ⟨b, by simp⟩, fun k ⟨v, hv⟩ => ⟨v, by simp [hv]⟩⟩
        simp only; rw [hkx]; exact hw.ops.insert wf hs hA hb (ok.order _)
    | some v =>
      have hm := existIter_mem hf
      rw [hkx] at hm
      obtain ⟨y, hy, hpy, hsy, hey⟩ := hw.entries (t.pk x) v hm
      obtain ⟨⟨h1, h2⟩, h3, h4⟩ := hoc y x hy hA hpy
      rw [hf] at hr
      simp only [rt y v hsy, Option.map_some] at hr
      cases hb : t.ser (oc y x).1 with
      | none => rw [hb] at hr; simp at hr
      | some b =>
        rw [hb] at hr
        simp only [Loc.upd, Prod.mk.injEq, and_true] at hr
        subst hr
        have hk : ek = t.key (oc y x).1 := by rw [hkx]; show dataKey t.id _ = dataKey t.id _; rw [h2, hpy]
        refine ⟨⟨?_, hw.entries⟩, rfl, ⟨b, by simp⟩, fun k ⟨v, hv⟩ => ⟨v, by simp [hv]⟩⟩
        simp only; rw [hk]
        exact hw.ops.update hs h1 hb h3 (h4.trans h2.symm) (hey.same hs hy h1 h2.symm) (ok.order _)

theorem update_items {t : Table T F} (rt : t.RoundTrip) {A : T → Prop} (hs : SameEntries t A) {env : Env T} (ok : env.OK t) {c : List T} (hc : ∀ x ∈ c, A x)
    {db : KV} (entries : List (Bytes × Bytes))
    (he : ∀ pk v, (dataKey t.id pk, v) ∈ entries → ∃ x, A x ∧ t.pk x = pk ∧ t.ser x = some v ∧ Entered t db x) (items : List (Bytes × Nat)) :
    ∀ (s s' : WSt T F), ItemsOf t c items → OpsWithin t A db s.ops → t.updateLoop env entries c items s = (s', none) →
      OpsWithin t A db s'.ops ∧ (∀ e ∈ items, ∃ v, WOp.set e.1 v ∈ s'.ops) ∧ ∀ o ∈ s.ops, o ∈ s'.ops := by
  induction items with
  | nil =>
    intro s s' _ ho h
    simp only [Table.updateLoop, Prod.mk.injEq, and_true] at h
    subst h
    exact ⟨ho, by simp, fun _ h => h⟩
  | cons e items ih =>
    intro s s' hi ho h
    obtain ⟨x, hxc, hcx, hkx⟩ := hi e (by simp)
    have hi' : ItemsOf t c items := fun e he => hi e (by simp [he])
    obtain ⟨ek, ej⟩ := e
    simp only at hcx hkx
    simp only [Table.updateLoop] at h
    split at h
    · simp at h
    · split at h
      · rename_i hh
        obtain ⟨h1, h2, h3⟩ := ih { s with clock := s.clock + 1 } _ hi' ho h
        refine ⟨h1, ?_, h3⟩
        intro e he
        rcases List.mem_cons.1 he with rfl | he
        · cases items with
          | nil => simp at hh
          | cons e' items =>
            simp only [List.head?_cons, Option.map_some, Option.some.injEq] at hh
            obtain ⟨v, hv⟩ := h2 e' (by simp)
            exact ⟨v, by simp only; rw [← hh]; exact hv⟩
        · exact h2 e he
      · cases hv : seekExact entries ek with
        | none => rw [hv] at h; simp at h
        | some v =>
          have hm := seekExact_mem hv
          rw [hkx] at hm
          obtain ⟨y, hy, hpy, hsy, hey⟩ := he (t.pk x) v hm
          rw [hv] at h
          simp only [rt y v hsy, hcx] at h
          cases hb : t.ser x with
          | none => rw [hb] at h; simp at h
          | some b =>
            rw [hb] at h
            simp only at h
            have ho' := ho.update hs (hc x hxc) hb hy hpy (hey.same hs hy (hc x hxc) hpy) (ok.order s.clock)
            obtain ⟨h1, h2, h3⟩ := ih _ _ hi' (by simp only; rw [hkx]; exact ho') h
            refine ⟨h1, ?_, fun o ho => h3 o (by simp [ho])⟩
            intro e he
            rcases List.mem_cons.1 he with rfl | he
            · exact ⟨b, h3 _ (by simp)⟩
            · exact h2 e he

/-- the rest of a slice handled row by row -/
theorem within_rows {t : Table T F} {A : T → Prop} {K : List Bytes} {c : List T} (a : Act T F) (P : List (Bytes × Nat) → Prop) (hP : ∀ e rest, P (e :: rest) → P rest)
    (ha : ∀ db f (l : Loc T) e rest r, l.items = e :: rest → P l.items → ItemsOf t c l.items → LocWithin t A db l → a db f l = (r, none) →
      LocWithin t A db r.1 ∧ r.1.items = rest ∧ r.1.Has e.1 ∧ ∀ k, l.Has k → r.1.Has k) (as : List (Act T F)) (items : List (Bytes × Nat)) :
    ∀ (l : Loc T), l.items = items → P items → ItemsOf t c items →
      (∀ l' : Loc T, (∀ k, l.Has k → l'.Has k) → (∀ e ∈ items, l'.Has e.1) → ActsWithin t A K as l') →
      ActsWithin t A K (items.map (fun _ => a) ++ as) l := by
  induction items with
  | nil => intro l _ _ _ h; exact h l (fun _ h => h) (by simp)
  | cons e items ih =>
    intro l hl hp hi h
    intro db f _ hw r hr
    obtain ⟨h1, h2, h3, h4⟩ := ha db f l e items r hl (by rw [hl]; exact hp) (by rw [hl]; exact hi) hw hr
    refine ⟨h1, ih r.1 h2 (hP _ _ hp) (fun e he => hi e (by simp [he])) (fun l' h5 h6 => ?_)⟩
    refine h l' (fun k hk => h5 k (h4 k hk)) (fun e' he' => ?_)
    rcases List.mem_cons.1 he' with rfl | he'
    · exact h5 _ h3
    · exact h6 e' he'

theorem within_open {t : Table T F} {A : T → Prop} {K : List Bytes} {env : Env T} (c : List T) (as : List (Act T F)) (l : Loc T)
    (h : ∀ l' : Loc T, l'.items = sortKeys env (c.map t.key) → (∀ k, l.Has k → l'.Has k) → ActsWithin t A K as l') :
    ActsWithin t A K (openSlice t env c :: as) l := by
  intro db f hdb hw r hr
  simp only [openSlice, Prod.mk.injEq, and_true] at hr
  subst hr
  exact ⟨⟨hw.ops, fun pk v hm => entries_open hdb pk v hm⟩, h _ rfl (fun _ h => h)⟩

/-- calls whose slices are handled one after the other -/
theorem within_slices {t : Table T F} {A : T → Prop} {K : List Bytes} (body : List T → List (Act T F)) (chunks : List (List T))
    (hb : ∀ c ∈ chunks, ∀ (as : List (Act T F)) (l : Loc T),
      (∀ l' : Loc T, (∀ k, l.Has k → l'.Has k) → (∀ x ∈ c, l'.Has (t.key x)) → ActsWithin t A K as l') → ActsWithin t A K (body c ++ as) l) :
    ∀ (l : Loc T), (∀ k ∈ K, l.Has k ∨ ∃ c ∈ chunks, ∃ x ∈ c, t.key x = k) → ActsWithin t A K (chunks.flatMap body) l := by
  induction chunks with
  | nil =>
    intro l h k hk
    rcases h k hk with h | ⟨c, hc, _⟩
    · exact h
    · simp at hc
  | cons c chunks ih =>
    intro l h
    rw [List.flatMap_cons]
    refine hb c (by simp) _ l (fun l' h1 h2 => ?_)
    refine ih (fun c hc => hb c (by simp [hc])) l' (fun k hk => ?_)
    rcases h k hk with h | ⟨c', hc', x, hx, rfl⟩
    · exact .inl (h1 k h)
    · rcases List.mem_cons.1 hc' with rfl | hc'
      · exact .inl (h2 x hx)
      · exact .inr ⟨c', hc', x, hx, rfl⟩

theorem acts_within {t : Table T F} (wf : t.WF) (rt : t.RoundTrip) {A : T → Prop} (hs : SameEntries t A) {env : Env T} (ok : env.OK t) {c : WCall T} (hc : CallIn t A c) :
    ActsWithin t A (c.keys t) (t.acts env c) t.loc0 := by
  have hcov : ∀ (trs : List T) (k : Bytes), k ∈ trs.map t.key → ∃ c ∈ batched trs persistentBatchSize, ∃ x ∈ c, t.key x = k := by
    intro trs k hk
    obtain ⟨x, hx, rfl⟩ := List.mem_map.1 hk
    rw [← batched_flatten trs (show 0 < persistentBatchSize by decide)] at hx
    obtain ⟨c, hc, hx⟩ := List.mem_flatten.1 hx
    exact ⟨c, hc, x, hx, rfl⟩
  have hsub : ∀ (trs : List T), ∀ c ∈ batched trs persistentBatchSize, ∀ x ∈ c, x ∈ trs := by
    intro trs c hc x hx
    rw [← batched_flatten trs (show 0 < persistentBatchSize by decide)]
    exact List.mem_flatten.2 ⟨c, hc, hx⟩
  cases c with
  | insert trs =>
    refine within_slices _ _ (fun c hcm as l h => ?_) _ (fun k hk => .inr (hcov trs k hk))
    refine within_open c _ l (fun l1 hl1 hk1 => ?_)
    refine within_rows (c := c) _ (fun _ => True) (fun _ _ _ => trivial) ?_ as _ l1 hl1 trivial (itemsOf_sort ok c) (fun l2 h1 h2 => ?_)
    · intro db f l e rest r hl _ hi hw hr
      exact insert_item wf hs ok (fun x hx => hc x (hsub trs c hcm x hx)) hl hi hw hr
    · refine h l2 (fun k hk => h1 k (hk1 k hk)) (fun x hx => ?_)
      obtain ⟨e, he, hek⟩ := sort_hasKey ok c hx
      rw [← hek]; exact h2 e he
  | update trs =>
    refine within_slices _ _ (fun c hcm as l h => ?_) _ (fun k hk => .inr (hcov trs k hk))
    refine within_open c _ l (fun l1 hl1 hk1 => ?_)
    intro db f _ hw r hr
    simp only [updateRows, Prod.mk.injEq] at hr
    obtain ⟨hr, herr⟩ := hr
    subst hr
    obtain ⟨h1, h2, h3⟩ := update_items rt hs ok (fun x hx => hc x (hsub trs c hcm x hx)) l1.entries hw.entries l1.items (l1.toW f) _
      (by rw [hl1]; exact itemsOf_sort ok c) hw.ops (Prod.ext rfl herr)
    refine ⟨⟨h1, hw.entries⟩, h _ (fun k hk => ?_) (fun x hx => ?_)⟩
    · obtain ⟨v, hv⟩ := hk1 k hk; exact ⟨v, h3 _ hv⟩
    · obtain ⟨e, he, hek⟩ := sort_hasKey ok c hx
      rw [← hek]; exact h2 e (by rw [hl1]; exact he)
  | upsert oc trs =>
    obtain ⟨hc1, hc2, hc3⟩ := hc
    refine within_slices _ _ (fun c hcm as l h => ?_) _ (fun k hk => .inr (hcov trs k hk))
    refine within_open c _ l (fun l1 hl1 hk1 => ?_)
    refine within_rows (c := c) _ (fun items => (items.map Prod.fst).Nodup) (fun e rest h => (List.nodup_cons.1 h).2) ?_ as _ l1 hl1 ?_ (itemsOf_sort ok c) (fun l2 h1 h2 => ?_)
    · intro db f l e rest r hl hn hi hw hr
      refine upsert_item wf rt hs ok (fun x hx => hc1 x (hsub trs c hcm x hx)) hc3 hl (fun e' he' heq => ?_) hi hw hr
      rw [hl, List.map_cons, List.nodup_cons] at hn
      exact hn.1 (List.mem_map.2 ⟨e', he', heq⟩)
    · have hn : (c.map t.key).Nodup := by
        have h0 : (c.map t.pk).Nodup := by
          rw [← batched_flatten trs (show 0 < persistentBatchSize by decide), List.map_flatten] at hc2
          exact (List.pairwise_flatten.1 hc2).1 _ (List.mem_map.2 ⟨c, hcm, rfl⟩)
        have e : c.map t.key = (c.map t.pk).map (dataKey t.id) := by rw [List.map_map]; rfl
        rw [e]
        exact List.Pairwise.map _ (fun a b hab e => hab (dataKey_inj e).2) h0
      have hperm : ((sortKeys env (c.map t.key)).map Prod.fst).Perm (c.map t.key) := by
        unfold sortKeys
        rw [List.map_map]
        have p := (ok.sort_perm (c.map t.key)).map (fun j => (c.map t.key).getD j [])
        refine p.trans ?_
        rw [show (List.range (c.map t.key).length).map (fun j => (c.map t.key).getD j []) = c.map t.key from ?_]
        apply List.ext_getElem?
        intro i
        by_cases hi : i < c.length <;> simp [hi]
      exact hperm.nodup_iff.2 hn
    · refine h l2 (fun k hk => h1 k (hk1 k hk)) (fun x hx => ?_)
      obtain ⟨e, he, hek⟩ := sort_hasKey ok c hx
      rw [← hek]; exact h2 e he
  | unsafeInsert trs =>
    refine within_slices _ _ (fun c hcm as l h => ?_) _ (fun k hk => .inr (hcov trs k hk))
    have hA : ∀ x ∈ c, A x := fun x hx => hc x (hsub trs c hcm x hx)
    clear hcm
    induction c generalizing l with
    | nil => exact h l (fun _ h => h) (by simp)
    | cons x c ih =>
      intro db f _ hw r hr
      simp only [unsafeInsertRow, Table.unsafeInsertLoop] at hr
      by_cases hd : env.done (l.toW f).clock = true
      · rw [if_pos hd] at hr; simp at hr
      · rw [if_neg hd] at hr
        cases hb : t.ser x with
        | none => rw [hb] at hr; simp at hr
        | some b =>
          rw [hb] at hr
          simp only [Loc.upd, Prod.mk.injEq, and_true] at hr
          subst hr
          refine ⟨⟨hw.ops.insert wf hs (hA x (by simp)) hb (ok.order _), hw.entries⟩, ?_⟩
          refine ih _ (fun l' h1 h2 => h l' (fun k ⟨v, hv⟩ => h1 k ⟨v, by simp [Loc.toW, hv]⟩) (fun y hy => ?_)) (fun y hy => hA y (by simp [hy]))
          rcases List.mem_cons.1 hy with rfl | hy
          · exact h1 _ ⟨b, by simp⟩
          · exact h2 y hy
  | delete trs => exact absurd hc (by simp [CallIn])
  | unsafeUpdate trs olds => exact absurd hc (by simp [CallIn])

/-- the world while the calls run: what is stored is within `A`, and the keys of calls that have succeeded are stored -/
structure WorldWithin (t : Table T F) (A : T → Prop) (S : Bytes → Prop) (cs : List (Env T × WCall T)) (w : World T F) : Prop where
  len : w.threads.length = cs.length
  db : DbWithin t A w.db
  running : ∀ (i : Nat) (th : Thread T F) (c : Env T × WCall T), w.threads[i]? = some th → cs[i]? = some c → th.res = none →
    LocWithin t A w.db th.loc ∧ ActsWithin t A (c.2.keys t) th.acts th.loc
  done : ∀ (i : Nat) (th : Thread T F) (c : Env T × WCall T), w.threads[i]? = some th → cs[i]? = some c → th.res = some none →
    ∀ k ∈ c.2.keys t, (w.db.get k).isSome
  kept : ∀ pk, S pk → (w.db.get (dataKey t.id pk)).isSome

theorem WorldWithin.frame {t : Table T F} {A : T → Prop} {S : Bytes → Prop} {cs : List (Env T × WCall T)} {w : World T F} (h : WorldWithin t A S cs w) {db' : KV} {log : List (Nat ⊕ List WOp)} {f : F}
    (hd : DbWithin t A db') (he : EntriesStay t w.db db') (hs : ∀ pk, (w.db.get (dataKey t.id pk)).isSome → (db'.get (dataKey t.id pk)).isSome) :
    WorldWithin t A S cs { w with db := db', log := log, filt := f } :=
  ⟨h.len, hd, fun i th c hi hc hr => ⟨(h.running i th c hi hc hr).1.mono he, (h.running i th c hi hc hr).2⟩, fun i th c hi hc hr k hk => by
    obtain ⟨pk, rfl⟩ := keys_data hk
    exact hs pk (h.done i th c hi hc hr _ hk), fun pk hp => hs pk (h.kept pk hp)⟩

theorem WorldWithin.set {t : Table T F} {A : T → Prop} {S : Bytes → Prop} {cs : List (Env T × WCall T)} {w : World T F} (h : WorldWithin t A S cs w) {i : Nat} {c : Env T × WCall T} (hc : cs[i]? = some c)
    (th : Thread T F) (h1 : th.res = none → LocWithin t A w.db th.loc ∧ ActsWithin t A (c.2.keys t) th.acts th.loc)
    (h2 : th.res = some none → ∀ k ∈ c.2.keys t, (w.db.get k).isSome) {log : List (Nat ⊕ List WOp)} {f : F} :
    WorldWithin t A S cs { w with threads := w.threads.set i th, log := log, filt := f } := by
  refine ⟨by simp [h.len], h.db, fun j thj cj hj hcj hr => ?_, fun j thj cj hj hcj hr => ?_, h.kept⟩
  all_goals
    simp only at hj
    rw [List.getElem?_set] at hj
    by_cases hij : i = j
    · subst hij
      rw [if_pos rfl] at hj
      split at hj
      · simp only [Option.some.injEq] at hj; subst hj
        rw [hc] at hcj; simp only [Option.some.injEq] at hcj; subst hcj
        first | exact h1 hr | exact h2 hr
      · simp at hj
    · rw [if_neg hij] at hj
      first | exact h.running j thj cj hj hcj hr | exact h.done j thj cj hj hcj hr

theorem WorldWithin.step {t : Table T F} (wf : t.WF) {A : T → Prop} {S : Bytes → Prop} {cs : List (Env T × WCall T)} {w : World T F} (h : WorldWithin t A S cs w) (x : Nat ⊕ List WOp)
    (hx : ∀ ops, x = .inr ops → ∀ o ∈ ops, ∀ k, o.touches k → Outside t k) : WorldWithin t A S cs (w.step x) := by
  cases x with
  | inr ops =>
    have hd : ∀ k, InSpace t.id 0 k → (w.db.apply ops).get k = w.db.get k := fun k hk =>
      get_apply_of_not_touch _ _ _ (fun o hm ht => (hx ops rfl o hm _ ht).1 hk)
    have hix : ∀ idx ∈ t.indexes, ∀ k, InSpace t.id idx.id k → (w.db.apply ops).get k = w.db.get k := fun idx hi k hk =>
      get_apply_of_not_touch _ _ _ (fun o hm ht => (hx ops rfl o hm _ ht).2 idx hi hk)
    have hst : EntriesStay t w.db (w.db.apply ops) := fun idx hi x hg => by rw [hix idx hi _ (inSpace_indexKey t idx x)]; exact hg
    refine h.frame ⟨fun pk v hg => ?_, fun k v hg hk => ?_, fun idx hi k v hk hg => ?_⟩ hst (fun pk hp => by rw [hd _ (inSpace_dataKey t.id pk)]; exact hp)
    · rw [hd _ (inSpace_dataKey t.id pk)] at hg
      obtain ⟨x, h1, h2, h3, h4⟩ := h.db.rows pk v hg
      exact ⟨x, h1, h2, h3, h4.mono hst⟩
    · rw [hd k hk] at hg; exact h.db.only_data k v hg hk
    · rw [hix idx hi k hk] at hg
      obtain ⟨h1, x, h2, h3, h4, h5⟩ := h.db.index idx hi k v hk hg
      exact ⟨h1, x, h2, h3, h4, by rw [show t.key x = dataKey t.id (t.pk x) from rfl, hd _ (inSpace_dataKey t.id _)]; exact h5⟩
  | inl i =>
    simp only [World.step]
    cases hth : w.threads[i]? with
    | none => exact h
    | some th =>
      simp only
      cases hres : th.res with
      | some r => exact h
      | none =>
        simp only
        obtain ⟨c, hci⟩ : ∃ c, cs[i]? = some c := by
          have : i < cs.length := h.len ▸ (List.getElem?_eq_some_iff.1 hth).1
          exact ⟨cs[i], by simp [this]⟩
        obtain ⟨hl, ha⟩ := h.running i th c hth hci hres
        cases hacts : th.acts with
        | cons a acts =>
          simp only
          rw [hacts] at ha
          cases hr : a w.db w.filt th.loc with
          | mk r e =>
            cases e with
            | none =>
              obtain ⟨h1, h2⟩ := ha w.db w.filt h.db hl r hr
              exact h.set hci _ (fun _ => ⟨h1, h2⟩) (by simp)
            | some e => exact h.set hci _ (by simp) (by simp)
        | nil =>
          simp only
          rw [hacts] at ha
          have hfin : (finish th.env w.db none (th.loc.toW w.filt, none)).err = none ∧
                (finish th.env w.db none (th.loc.toW w.filt, none)).db = w.db.apply th.loc.ops ∨
              (finish th.env w.db none (th.loc.toW w.filt, none)).err ≠ none ∧
                (finish th.env w.db none (th.loc.toW w.filt, none)).db = w.db := by
            simp only [finish, Loc.toW]
            by_cases h0 : th.loc.ops = []
            · left; simp [h0, KV.apply]
            · by_cases hc : th.env.commitOk = true
              · left; simp [h0, hc]
              · right; simp [h0, hc]
          rcases hfin with ⟨he, hd⟩ | ⟨he, hd⟩
          · rw [hd]
            have h' : WorldWithin t A S cs { w with db := w.db.apply th.loc.ops, log := w.log ++ [.inl i] } :=
              h.frame (h.db.commit wf hl.ops) (hl.ops.stay wf) (fun pk hp => stored_apply hl.ops (.inl hp))
            exact h'.set hci { th with acts := [], res := some (finish th.env w.db none (th.loc.toW w.filt, none)).err } (by simp)
              (fun _ k hk => stored_apply hl.ops (.inr (ha k hk)))
          · rw [hd]
            exact h.set hci { th with acts := [], res := some (finish th.env w.db none (th.loc.toW w.filt, none)).err } (by simp)
              (fun hn => by simp only [Option.some.injEq] at hn; exact absurd hn he)

theorem WorldWithin.run {t : Table T F} (wf : t.WF) {A : T → Prop} {S : Bytes → Prop} {cs : List (Env T × WCall T)} (sched : List (Nat ⊕ List WOp)) :
    ∀ {w : World T F}, OthersOutside t sched → WorldWithin t A S cs w → WorldWithin t A S cs (w.run sched) := by
  induction sched with
  | nil => intro w _ h; exact h
  | cons x sched ih =>
    intro w ho h
    exact ih (fun ops hm => ho ops (by simp [hm])) (h.step wf x (fun ops e => ho ops (by simp [e])))

theorem WorldWithin.start {t : Table T F} (wf : t.WF) (rt : t.RoundTrip) {A : T → Prop} (hs : SameEntries t A) {db : KV} {m : Rows T} (hH : Holds t db m)
    (hm : ∀ pk x, m pk = some x → A x) {cs : List (Env T × WCall T)} (hok : ∀ c ∈ cs, c.1.OK t) (hc : ∀ c ∈ cs, CallIn t A c.2) (f : F) :
    WorldWithin t A (fun pk => (m pk).isSome) cs (t.world db f cs) := by
  refine ⟨by simp [Table.world], ⟨fun pk v hg => ?_, hH.only_data, fun idx hi k v hk hg => ?_⟩, fun i th c hi hci hr => ?_, fun i th c hi hci hr => ?_, fun pk hp => ?_⟩
  · have hg : db.get (dataKey t.id pk) = some v := hg
    cases hp : m pk with
    | none => rw [hH.absent pk hp] at hg; simp at hg
    | some x =>
      obtain ⟨b, hb, hb'⟩ := hH.present pk x hp
      rw [hb'] at hg; simp only [Option.some.injEq] at hg; subst hg
      refine ⟨x, hm pk x hp, hH.row_pk pk x hp, hb, fun idx hi hf => ?_⟩
      exact (hH.index idx hi _ _ (inSpace_indexKey t idx x)).2 ⟨rfl, pk, x, hp, hf, rfl⟩
  · obtain ⟨h1, pk, x, hp, hf, hk'⟩ := (hH.index idx hi k v hk).1 hg
    refine ⟨h1, x, hm pk x hp, hf, hk', ?_⟩
    obtain ⟨b, _, hb'⟩ := hH.present pk x hp
    show (db.get (dataKey t.id (t.pk x))).isSome = true
    rw [hH.row_pk pk x hp, hb']; rfl
  · simp only [Table.world, List.getElem?_map, hci, Option.map_some, Option.some.injEq] at hi
    subst hi
    have hcm := List.mem_of_getElem? hci
    exact ⟨⟨⟨by simp [Table.spawn, Table.loc0], by simp [Table.spawn, Table.loc0]⟩, by simp [Table.spawn, Table.loc0]⟩, acts_within wf rt hs (hok c hcm) (hc c hcm)⟩
  · simp only [Table.world, List.getElem?_map, hci, Option.map_some, Option.some.injEq] at hi
    subst hi
    simp [Table.spawn] at hr
  · obtain ⟨x, hx⟩ := Option.isSome_iff_exists.1 hp
    obtain ⟨b, _, hb⟩ := hH.present pk x hx
    show (db.get (dataKey t.id pk)).isSome = true
    rw [hb]; rfl

theorem DbWithin.holds {t : Table T F} {A : T → Prop} (hs : SameEntries t A) {db : KV} (h : DbWithin t A db) :
    ∃ m, Holds t db m ∧ ∀ pk x, m pk = some x → A x := by
  classical
  have hx : ∀ pk, ∃ o : Option T, (o = none → db.get (dataKey t.id pk) = none) ∧
      ∀ x, o = some x → A x ∧ t.pk x = pk ∧ (∃ b, t.ser x = some b ∧ db.get (dataKey t.id pk) = some b) ∧ Entered t db x := by
    intro pk
    cases hg : db.get (dataKey t.id pk) with
    | none => exact ⟨none, fun _ => rfl, by simp⟩
    | some v =>
      obtain ⟨x, h1, h2, h3, h4⟩ := h.rows pk v hg
      exact ⟨some x, by simp, fun y hy => by simp only [Option.some.injEq] at hy; subst hy; exact ⟨h1, h2, ⟨v, h3, rfl⟩, h4⟩⟩
  obtain ⟨m, hm⟩ : ∃ m : Rows T, ∀ pk, (m pk = none → db.get (dataKey t.id pk) = none) ∧
      ∀ x, m pk = some x → A x ∧ t.pk x = pk ∧ (∃ b, t.ser x = some b ∧ db.get (dataKey t.id pk) = some b) ∧ Entered t db x :=
    ⟨fun pk => (hx pk).choose, fun pk => (hx pk).choose_spec⟩
  refine ⟨m, ⟨fun pk x hp => ((hm pk).2 x hp).2.1, fun pk hp => (hm pk).1 hp, fun pk x hp => ((hm pk).2 x hp).2.2.1, h.only_data, fun idx hi k v hk => ?_⟩,
    fun pk x hp => ((hm pk).2 x hp).1⟩
  constructor
  · intro hg
    obtain ⟨h1, x, h2, h3, h4, h5⟩ := h.index idx hi k v hk hg
    cases hp : m (t.pk x) with
    | none =>
      have : db.get (t.key x) = none := (hm _).1 hp
      rw [this] at h5; simp at h5
    | some y =>
      obtain ⟨g1, g2, _, _⟩ := (hm _).2 y hp
      obtain ⟨e1, e2⟩ := hs x y h2 g1 g2.symm idx hi
      exact ⟨h1, _, y, hp, by rw [← e1]; exact h3, by rw [h4, e2 h3]⟩
  · rintro ⟨rfl, pk, x, hp, hf, rfl⟩
    exact ((hm pk).2 x hp).2.2.2 idx hi hf

end Bond
