import Verif.SameRowsLemmas
/-
Lemmas for C114: whatever write calls run at the same time, what they leave behind comes from rows that were given.
-/
namespace Bond
open Spec
variable {T F : Type}

/-- the rows that the call may store satisfy `A`: those given to it, and what the conflict function of an Upsert makes of such rows, which has
the key of its first argument. If the Upsert has no key twice, the conflict function need do so only for rows with the same key. Deletes may be
given any records, and so may the old records of UnsafeUpdate. -/
def Spec.CallOf (t : Table T F) (A : T → Prop) : WCall T → Prop
  | .insert trs => ∀ x ∈ trs, A x
  | .update trs => ∀ x ∈ trs, A x
  | .unsafeInsert trs => ∀ x ∈ trs, A x
  | .upsert oc trs => (∀ x ∈ trs, A x) ∧ (((trs.map t.pk).Nodup ∧ ∀ x y, A x → A y → t.pk x = t.pk y → A (oc x y).1 ∧ t.pk (oc x y).1 = t.pk x) ∨
      ∀ x y, A x → A y → A (oc x y).1 ∧ t.pk (oc x y).1 = t.pk x)
  | .unsafeUpdate trs _ => ∀ x ∈ trs, A x
  | .delete _ => True

/-- rows and index entries come from `A` (proof notion) -/
structure DbOf (t : Table T F) (A : T → Prop) (db : KV) : Prop where
  rows : ∀ pk v, db.get (dataKey t.id pk) = some v → ∃ x, A x ∧ t.pk x = pk ∧ t.ser x = some v
  only_data : ∀ k v, db.get k = some v → InSpace t.id 0 k → ∃ pk, k = dataKey t.id pk
  index : ∀ idx ∈ t.indexes, ∀ k v, InSpace t.id idx.id k → db.get k = some v → v = [] ∧ ∃ x, A x ∧ idx.filter x = true ∧ k = t.indexKey idx x

/-- a write that stores a row of `A`, an index entry of such a row, or deletes (proof notion) -/
def OpOf (t : Table T F) (A : T → Prop) (o : WOp) : Prop :=
  (∃ x b, A x ∧ t.ser x = some b ∧ o = .set (t.key x) b) ∨ (∃ idx ∈ t.indexes, ∃ x, A x ∧ idx.filter x = true ∧ o = .set (t.indexKey idx x) []) ∨
  ∃ k, o = .del k

/-- what a running call has read and is about to write comes from `A` (proof notion) -/
structure LocOf (t : Table T F) (A : T → Prop) (l : Loc T) : Prop where
  ops : ∀ o ∈ l.ops, OpOf t A o
  entries : ∀ pk v, (dataKey t.id pk, v) ∈ l.entries → ∃ x, A x ∧ t.pk x = pk ∧ t.ser x = some v

/-- one write -/
theorem DbOf.apply1 {t : Table T F} (wf : t.WF) {A : T → Prop} {db : KV} (h : DbOf t A db) {o : WOp} (ho : OpOf t A o) : DbOf t A (db.apply1 o) := by
  rcases ho with ⟨x, b, hx, hb, rfl⟩ | ⟨idx', hi', x, hx, hf, rfl⟩ | ⟨k0, rfl⟩
  · refine ⟨fun pk v hg => ?_, fun k v hg hk => ?_, fun idx hi k v hk hg => ?_⟩
    all_goals
      simp only [KV.apply1, KV.get_set] at hg
      split at hg
      · rename_i e
        first
        | (simp only [Option.some.injEq] at hg; subst hg; exact ⟨x, hx, (dataKey_inj e).2.symm, hb⟩)
        | (subst e; exact ⟨t.pk x, rfl⟩)
        | (subst e; exact absurd (C09_disjoint hk (inSpace_dataKey t.id (t.pk x))).2 (wf.nz idx hi))
      · first
        | exact h.rows pk v hg
        | exact h.only_data k v hg hk
        | exact h.index idx hi k v hk hg
  · refine ⟨fun pk v hg => ?_, fun k v hg hk => ?_, fun idx hi k v hk hg => ?_⟩
    all_goals
      simp only [KV.apply1, KV.get_set] at hg
      split at hg
      · rename_i e
        first
        | exact absurd e (key_ne_indexKey wf hi' pk x)
        | (subst e; exact absurd (C09_disjoint hk (inSpace_indexKey t idx' x)).2.symm (wf.nz idx' hi'))
        | (subst e
           have hid := (C09_disjoint hk (inSpace_indexKey t idx' x)).2
           have : idx = idx' := wf.id_inj hi hi' hid
           subst this
           simp only [Option.some.injEq] at hg
           exact ⟨hg.symm, x, hx, hf, rfl⟩)
      · first
        | exact h.rows pk v hg
        | exact h.only_data k v hg hk
        | exact h.index idx hi k v hk hg
  · refine ⟨fun pk v hg => ?_, fun k v hg hk => ?_, fun idx hi k v hk hg => ?_⟩
    all_goals
      simp only [KV.apply1, KV.get_del] at hg
      split at hg
      · simp at hg
      · first
        | exact h.rows pk v hg
        | exact h.only_data k v hg hk
        | exact h.index idx hi k v hk hg

theorem DbOf.apply {t : Table T F} (wf : t.WF) {A : T → Prop} (ops : List WOp) : ∀ {db : KV}, DbOf t A db → (∀ o ∈ ops, OpOf t A o) → DbOf t A (db.apply ops) := by
  induction ops with
  | nil => intro db h _; exact h
  | cons o ops ih =>
    intro db h ho
    rw [KV.apply_cons]
    exact ih (h.apply1 wf (ho o (by simp))) (fun o' h' => ho o' (by simp [h']))

theorem opOf_insert {t : Table T F} {A : T → Prop} {ops : List WOp} (h : ∀ o ∈ ops, OpOf t A o) {x : T} {b : Bytes} (hx : A x) (hb : t.ser x = some b)
    {order : List (Index T)} (ho : order.Perm t.indexes) : ∀ o ∈ ops ++ .set (t.key x) b :: order.flatMap (fun idx => onInsert t idx x), OpOf t A o := by
  intro o hm
  simp only [List.mem_append, List.mem_cons, List.mem_flatMap] at hm
  rcases hm with hm | rfl | ⟨idx, hi, hm⟩
  · exact h o hm
  · exact Or.inl ⟨x, b, hx, hb, rfl⟩
  · unfold onInsert at hm
    split at hm
    · rename_i hf
      simp only [indexKeyValue, List.mem_singleton] at hm
      exact Or.inr (Or.inl ⟨idx, ho.mem_iff.1 hi, x, hx, hf, hm⟩)
    · simp at hm

theorem opOf_update {t : Table T F} {A : T → Prop} {ops : List WOp} (h : ∀ o ∈ ops, OpOf t A o) (old : T) {x : T} {b : Bytes} (hx : A x) (hb : t.ser x = some b)
    {order : List (Index T)} (ho : order.Perm t.indexes) : ∀ o ∈ ops ++ .set (t.key x) b :: order.flatMap (fun idx => onUpdate t idx old x), OpOf t A o := by
  intro o hm
  simp only [List.mem_append, List.mem_cons, List.mem_flatMap] at hm
  rcases hm with hm | rfl | ⟨idx, hi, hm⟩
  · exact h o hm
  · exact Or.inl ⟨x, b, hx, hb, rfl⟩
  · have hi := ho.mem_iff.1 hi
    unfold onUpdate at hm
    by_cases hf : idx.filter x = true
    · simp only [hf, if_true] at hm
      have hset : o = .set (t.indexKey idx x) [] → OpOf t A o := fun e => Or.inr (Or.inl ⟨idx, hi, x, hx, hf, e⟩)
      split at hm
      · rename_i e2
        split at hm
        · simp only [List.mem_cons, List.not_mem_nil, or_false] at hm
          rcases hm with rfl | hm
          · exact Or.inr (Or.inr ⟨_, rfl⟩)
          · exact hset (by cases e2; exact hm)
        · simp at hm
      · rename_i e2; simp at e2
      · rename_i e2
        simp only [List.mem_singleton] at hm
        exact hset (by cases e2; exact hm)
      · simp at hm
    · simp only [hf] at hm
      split at hm
      · rename_i e2; simp at e2
      · simp only [List.mem_singleton] at hm; exact Or.inr (Or.inr ⟨_, hm⟩)
      · rename_i e2; simp at e2
      · simp at hm

/-- whatever the database is when each of the actions happens, they write only what comes from `A` (proof notion) -/
def ActsOf (t : Table T F) (A : T → Prop) : List (Act T F) → Loc T → Prop
  | [], _ => True
  | a :: as, l => ∀ db f, DbOf t A db → LocOf t A l → ∀ r, a db f l = (r, none) → LocOf t A r.1 ∧ ActsOf t A as r.1

/-- what an iterator of the call sees comes from `A` (proof notion) -/
def EntriesOf (t : Table T F) (A : T → Prop) (entries : List (Bytes × Bytes)) : Prop :=
  ∀ pk v, (dataKey t.id pk, v) ∈ entries → ∃ x, A x ∧ t.pk x = pk ∧ t.ser x = some v

theorem insertLoop_of {t : Table T F} {A : T → Prop} {env : Env T} (ok : env.OK t) {c : List T} (hc : ∀ x ∈ c, A x) (entries : List (Bytes × Bytes))
    (items : List (Bytes × Nat)) : ∀ (prev : Option Bytes) (s : WSt T F), ItemsOf t c items → (∀ o ∈ s.ops, OpOf t A o) →
      ∀ o ∈ (t.insertLoop env entries c prev items s).1.ops, OpOf t A o := by
  induction items with
  | nil => intro prev s _ ho; exact ho
  | cons e items ih =>
    intro prev s hi ho
    obtain ⟨x, hxc, hcx, hkx⟩ := hi e (by simp)
    obtain ⟨ek, ej⟩ := e
    simp only at hcx hkx
    simp only [Table.insertLoop, hcx]
    split
    · exact ho
    · split
      · exact ho
      · cases hb : t.ser x with
        | none => exact ho
        | some b =>
          refine ih _ _ (fun e he => hi e (by simp [he])) ?_
          simp only; rw [hkx]; exact opOf_insert ho (hc x hxc) hb (ok.order _)

theorem updateLoop_of {t : Table T F} {A : T → Prop} {env : Env T} (ok : env.OK t) {c : List T} (hc : ∀ x ∈ c, A x) (entries : List (Bytes × Bytes))
    (items : List (Bytes × Nat)) : ∀ (s : WSt T F), ItemsOf t c items → (∀ o ∈ s.ops, OpOf t A o) →
      ∀ o ∈ (t.updateLoop env entries c items s).1.ops, OpOf t A o := by
  induction items with
  | nil => intro s _ ho; exact ho
  | cons e items ih =>
    intro s hi ho
    obtain ⟨x, hxc, hcx, hkx⟩ := hi e (by simp)
    have hi' : ItemsOf t c items := fun e he => hi e (by simp [he])
    obtain ⟨ek, ej⟩ := e
    simp only at hcx hkx
    simp only [Table.updateLoop]
    split
    · exact ho
    · split
      · exact ih { s with clock := s.clock + 1 } hi' ho
      · cases hv : seekExact entries ek with
        | none => exact ho
        | some v =>
          simp only
          cases hd : t.deser s.oldTr v with
          | none => exact ho
          | some y =>
            simp only [hcx]
            cases hb : t.ser x with
            | none => exact ho
            | some b => exact ih _ hi' (by simp only; rw [hkx]; exact opOf_update ho y (hc x hxc) hb (ok.order _))

theorem deleteLoop_of {t : Table T F} {A : T → Prop} {env : Env T} (trs : List T) : ∀ (s : WSt T F), (∀ o ∈ s.ops, OpOf t A o) →
    ∀ o ∈ (t.deleteLoop env trs s).1.ops, OpOf t A o := by
  induction trs with
  | nil => intro s ho; exact ho
  | cons x trs ih =>
    intro s ho
    rw [Table.deleteLoop]
    split
    · exact ho
    · refine ih _ ?_
      intro o hm
      simp only [List.mem_append, List.mem_cons, List.mem_flatMap] at hm
      rcases hm with hm | rfl | ⟨idx, hi, hm⟩
      · exact ho o hm
      · exact Or.inr (Or.inr ⟨_, rfl⟩)
      · unfold onDelete at hm
        split at hm
        · simp only [List.mem_singleton] at hm; exact Or.inr (Or.inr ⟨_, hm⟩)
        · simp at hm

theorem unsafeInsertLoop_of {t : Table T F} {A : T → Prop} {env : Env T} (ok : env.OK t) (trs : List T) : ∀ (s : WSt T F), (∀ x ∈ trs, A x) →
    (∀ o ∈ s.ops, OpOf t A o) → ∀ o ∈ (t.unsafeInsertLoop env trs s).1.ops, OpOf t A o := by
  induction trs with
  | nil => intro s _ ho; exact ho
  | cons x trs ih =>
    intro s hA ho
    rw [Table.unsafeInsertLoop]
    split
    · exact ho
    · cases hb : t.ser x with
      | none => exact ho
      | some b => exact ih _ (fun y hy => hA y (by simp [hy])) (opOf_insert ho (hA x (by simp)) hb (ok.order _))

theorem unsafeUpdateLoop_of {t : Table T F} {A : T → Prop} {env : Env T} (ok : env.OK t) (ps : List (T × T)) : ∀ (s : WSt T F), (∀ p ∈ ps, A p.1) →
    (∀ o ∈ s.ops, OpOf t A o) → ∀ o ∈ (t.unsafeUpdateLoop env ps s).1.ops, OpOf t A o := by
  induction ps with
  | nil => intro s _ ho; exact ho
  | cons p ps ih =>
    obtain ⟨x, old⟩ := p
    intro s hA ho
    rw [Table.unsafeUpdateLoop]
    split
    · exact ho
    · cases hb : t.ser x with
      | none => exact ho
      | some b => exact ih _ (fun p hp => hA p (by simp [hp])) (opOf_update ho old (hA (x, old) (by simp)) hb (ok.order _))

/-- the two ways in which an Upsert may be given (proof notion) -/
def OcOf (t : Table T F) (A : T → Prop) (oc : Table.OnConflict T) (items : List (Bytes × Nat)) : Prop :=
  ((items.map Prod.fst).Nodup ∧ ∀ x y, A x → A y → t.pk x = t.pk y → A (oc x y).1 ∧ t.pk (oc x y).1 = t.pk x) ∨
  ∀ x y, A x → A y → A (oc x y).1 ∧ t.pk (oc x y).1 = t.pk x

theorem OcOf.sub {t : Table T F} {A : T → Prop} {oc : Table.OnConflict T} {l l' : List (Bytes × Nat)} (h : OcOf t A oc l) (hs : l'.Sublist l) :
    OcOf t A oc l' := by
  rcases h with h | h
  · exact Or.inl ⟨(hs.map _).nodup h.1, h.2⟩
  · exact Or.inr h

theorem OcOf.same {t : Table T F} {A : T → Prop} {oc : Table.OnConflict T} {l : List (Bytes × Nat)} (h : OcOf t A oc l) {x y : T} (hx : A x) (hy : A y)
    (hp : t.pk x = t.pk y) : A (oc x y).1 ∧ t.pk (oc x y).1 = t.pk x := by
  rcases h with h | h
  · exact h.2 x y hx hy hp
  · exact h x y hx hy

theorem upsertDup_of {t : Table T F} {A : T → Prop} {c : List T} (hc : ∀ x ∈ c, A x) {oc : Table.OnConflict T} {k : Bytes} (items : List (Bytes × Nat)) :
    ∀ (i j : Nat) (tr old : T) r, OcOf t A oc ((k, j) :: items) → A tr → Table.upsertDup oc c k items i tr old = some r →
      A r.2.2.1 ∧ t.pk r.2.2.1 = t.pk tr := by
  induction items with
  | nil => intro i j tr old r _ hA h; simp only [Table.upsertDup, Option.some.injEq] at h; subst h; exact ⟨hA, rfl⟩
  | cons e items ih =>
    intro i j tr old r ho hA h
    obtain ⟨k', j'⟩ := e
    rw [Table.upsertDup] at h
    split at h
    · rename_i hk
      subst hk
      have hall : ∀ x y, A x → A y → A (oc x y).1 ∧ t.pk (oc x y).1 = t.pk x := by
        rcases ho with ho | ho
        · simp at ho
        · exact ho
      cases hx : c[i + 1]? with
      | none => rw [hx] at h; simp at h
      | some x =>
        rw [hx] at h
        obtain ⟨h1, h2⟩ := hall tr x hA (hc x (List.mem_of_getElem? hx))
        obtain ⟨h3, h4⟩ := ih (i + 1) j' _ _ r (Or.inr hall) h1 h
        exact ⟨h3, h4.trans h2⟩
    · simp only [Option.some.injEq] at h; subst h; exact ⟨hA, rfl⟩

theorem upsertLoop_of {t : Table T F} (rt : t.RoundTrip) {A : T → Prop} {env : Env T} (ok : env.OK t) {c : List T} (hc : ∀ x ∈ c, A x)
    {oc : Table.OnConflict T} {entries : List (Bytes × Bytes)} (he : EntriesOf t A entries) (fuel : Nat) :
    ∀ (i : Nat) (items : List (Bytes × Nat)) (s : WSt T F), ItemsOf t c items → OcOf t A oc items → (∀ o ∈ s.ops, OpOf t A o) →
      ∀ o ∈ (t.upsertLoop env oc entries c fuel i items s).1.ops, OpOf t A o := by
  induction fuel with
  | zero => intro i items s _ _ ho; exact ho
  | succ fuel ih =>
    intro i items s hi hoc ho
    cases items with
    | nil => exact ho
    | cons e items =>
      obtain ⟨x, hxc, hcx, hkx⟩ := hi e (by simp)
      obtain ⟨ek, ej⟩ := e
      simp only at hcx hkx
      have hA := hc x hxc
      simp only [Table.upsertLoop, hcx]
      split
      · exact ho
      · cases hf : t.existIter s.filt entries ek with
        | none =>
          simp only
          cases hd : Table.upsertDup oc c ek items i x s.oldTr with
          | none => exact ho
          | some r =>
            obtain ⟨h1, h2⟩ := upsertDup_of hc items i ej x s.oldTr r hoc hA hd
            obtain ⟨hr1, _⟩ := upsertDup_rest items i x s.oldTr r hd
            obtain ⟨rest, i', tr', old'⟩ := r
            simp only at h1 h2 hr1 ⊢
            have hk : ek = t.key tr' := by rw [hkx]; show dataKey t.id _ = dataKey t.id _; rw [h2]
            have hsub : rest.Sublist items := by rw [hr1]; exact List.dropWhile_sublist _
            cases hb : t.ser tr' with
            | none => exact ho
            | some b =>
              refine ih _ _ _ (fun e he => hi e (by simp [hsub.subset he])) (hoc.sub (hsub.trans (List.sublist_cons_self _ _))) ?_
              simp only; rw [hk]; exact opOf_insert ho h1 hb (ok.order _)
        | some v =>
          have hm := existIter_mem hf
          rw [hkx] at hm
          obtain ⟨y, hy, hpy, hsy⟩ := he (t.pk x) v hm
          obtain ⟨g1, g2⟩ := hoc.same hy hA hpy
          simp only [rt y v hsy, Option.map_some]
          cases hd : Table.upsertDup oc c ek items i (oc y x).1 (oc y x).2 with
          | none => exact ho
          | some r =>
            obtain ⟨h1, h2⟩ := upsertDup_of hc items i ej _ _ r hoc g1 hd
            obtain ⟨hr1, _⟩ := upsertDup_rest items i _ _ r hd
            obtain ⟨rest, i', tr', old'⟩ := r
            simp only at h1 h2 hr1 ⊢
            have hk : ek = t.key tr' := by rw [hkx]; show dataKey t.id _ = dataKey t.id _; rw [h2, g2, hpy]
            have hsub : rest.Sublist items := by rw [hr1]; exact List.dropWhile_sublist _
            cases hb : t.ser tr' with
            | none => exact ho
            | some b =>
              refine ih _ _ _ (fun e he => hi e (by simp [hsub.subset he])) (hoc.sub (hsub.trans (List.sublist_cons_self _ _))) ?_
              simp only; rw [hk]; exact opOf_update ho _ h1 hb (ok.order _)

theorem actsOf_rows {t : Table T F} {A : T → Prop} (a : Act T F) (P : List (Bytes × Nat) → Prop)
    (ha : ∀ db f (l : Loc T) r, P l.items → LocOf t A l → a db f l = (r, none) → LocOf t A r.1 ∧ P r.1.items) (as : List (Act T F)) (n : Nat) :
    ∀ (l : Loc T), P l.items → (∀ l' : Loc T, ActsOf t A as l') → ActsOf t A (List.replicate n a ++ as) l := by
  induction n with
  | zero => intro l _ h; exact h l
  | succ n ih =>
    intro l hp h db f _ hw r hr
    obtain ⟨h1, h2⟩ := ha db f l r hp hw hr
    exact ⟨h1, ih r.1 h2 h⟩

theorem actsOf_open {t : Table T F} {A : T → Prop} {env : Env T} (c : List T) (as : List (Act T F)) (l : Loc T)
    (h : ∀ l' : Loc T, l'.items = sortKeys env (c.map t.key) → ActsOf t A as l') : ActsOf t A (openSlice t env c :: as) l := by
  intro db f hdb hw r hr
  simp only [openSlice, Prod.mk.injEq, and_true] at hr
  subst hr
  exact ⟨⟨hw.ops, fun pk v hm => hdb.rows pk v ((KV.mem_scan _ _ _ _ _).1 hm).1⟩, h _ rfl⟩

theorem actsOf_slices {t : Table T F} {A : T → Prop} (body : List T → List (Act T F)) (chunks : List (List T))
    (hb : ∀ c ∈ chunks, ∀ (as : List (Act T F)) (l : Loc T), (∀ l' : Loc T, ActsOf t A as l') → ActsOf t A (body c ++ as) l) :
    ∀ (l : Loc T), ActsOf t A (chunks.flatMap body) l := by
  induction chunks with
  | nil => intro l; trivial
  | cons c chunks ih =>
    intro l
    rw [List.flatMap_cons]
    exact hb c (by simp) _ l (fun l' => ih (fun c hc => hb c (by simp [hc])) l')

theorem mem_of_batched {α : Type} (trs : List α) : ∀ c ∈ batched trs persistentBatchSize, ∀ x ∈ c, x ∈ trs := by
  intro c hc x hx
  rw [← batched_flatten trs (show 0 < persistentBatchSize by decide)]
  exact List.mem_flatten.2 ⟨c, hc, hx⟩

theorem ocOf_sort {t : Table T F} {A : T → Prop} {env : Env T} (ok : env.OK t) {oc : Table.OnConflict T} {trs : List T} (h : CallOf t A (.upsert oc trs))
    {c : List T} (hcm : c ∈ batched trs persistentBatchSize) : OcOf t A oc (sortKeys env (c.map t.key)) := by
  rcases h.2 with ⟨hn, hoc⟩ | hoc
  · refine Or.inl ⟨?_, hoc⟩
    have hn : (c.map t.key).Nodup := by
      have h0 : (c.map t.pk).Nodup := by
        rw [← batched_flatten trs (show 0 < persistentBatchSize by decide), List.map_flatten] at hn
        exact (List.pairwise_flatten.1 hn).1 _ (List.mem_map.2 ⟨c, hcm, rfl⟩)
      have e : c.map t.key = (c.map t.pk).map (dataKey t.id) := by rw [List.map_map]; rfl
      rw [e]
      exact List.Pairwise.map _ (fun a b hab e => hab (dataKey_inj e).2) h0
    have hperm : ((sortKeys env (c.map t.key)).map Prod.fst).Perm (c.map t.key) := by
      unfold sortKeys
      rw [List.map_map]
      have p := (ok.sort_perm (c.map t.key)).map (fun j => (c.map t.key).getD j [])
      refine p.trans ?_
      rw [show (List.range (c.map t.key).length).map (fun j => (c.map t.key).getD j []) = c.map t.key from ?_]
      apply List.ext_getElem?
      intro i
      by_cases hi : i < c.length <;> simp [hi]
    exact hperm.nodup_iff.2 hn
  · exact Or.inr hoc

theorem acts_of {t : Table T F} (rt : t.RoundTrip) {A : T → Prop} {env : Env T} (ok : env.OK t) {c : WCall T} (hc : CallOf t A c) :
    ActsOf t A (t.acts env c) t.loc0 := by
  cases c with
  | insert trs =>
    refine actsOf_slices _ _ (fun c hcm as l h => ?_) _
    refine actsOf_open c _ l (fun l1 hl1 => ?_)
    rw [List.map_const']
    refine actsOf_rows _ (ItemsOf t c) ?_ as _ l1 (by rw [hl1]; exact itemsOf_sort ok c) h
    intro db f l r hi hw hr
    unfold insertRow at hr
    split at hr
    · simp only [Prod.mk.injEq, and_true] at hr; subst hr; exact ⟨hw, hi⟩
    · rename_i e rest hl
      rw [hl] at hi
      simp only [Prod.mk.injEq] at hr
      rw [← hr.1]
      exact ⟨⟨insertLoop_of ok (fun x hx => hc x (mem_of_batched trs c hcm x hx)) _ [e] _ _ (fun e' he' => hi e' (by simp at he'; simp [he'])) hw.ops,
        hw.entries⟩, fun e' he' => hi e' (by simp only at he'; simp [he'])⟩
  | update trs =>
    refine actsOf_slices _ _ (fun c hcm as l h => ?_) _
    refine actsOf_open c _ l (fun l1 hl1 => ?_)
    intro db f _ hw r hr
    simp only [updateRows, Prod.mk.injEq] at hr
    obtain ⟨hr, herr⟩ := hr
    subst hr
    exact ⟨⟨updateLoop_of ok (fun x hx => hc x (mem_of_batched trs c hcm x hx)) l1.entries l1.items (l1.toW f)
      (by rw [hl1]; exact itemsOf_sort ok c) hw.ops, hw.entries⟩, h _⟩
  | upsert oc trs =>
    refine actsOf_slices _ _ (fun c hcm as l h => ?_) _
    refine actsOf_open c _ l (fun l1 hl1 => ?_)
    rw [List.map_const']
    refine actsOf_rows _ (fun items => ItemsOf t c items ∧ OcOf t A oc items) ?_ as _ l1 (by rw [hl1]; exact ⟨itemsOf_sort ok c, ocOf_sort ok hc hcm⟩) h
    intro db f l r hi hw hr
    unfold upsertRow at hr
    split at hr
    · simp only [Prod.mk.injEq, and_true] at hr; subst hr; exact ⟨hw, hi⟩
    · rename_i e rest hl
      rw [hl] at hi
      simp only [Prod.mk.injEq] at hr
      rw [← hr.1]
      have hsub : (rest.dropWhile (fun x => x.1 == e.1)).Sublist (e :: rest) := (List.dropWhile_sublist _).trans (List.sublist_cons_self _ _)
      exact ⟨⟨upsertLoop_of rt ok (fun x hx => hc.1 x (mem_of_batched trs c hcm x hx)) hw.entries 1 _ _ _ hi.1 hi.2 hw.ops, hw.entries⟩,
        fun e' he' => hi.1 e' (hsub.subset he'), hi.2.sub hsub⟩
  | unsafeInsert trs =>
    refine actsOf_slices _ _ (fun c hcm as l h => ?_) _
    have hA : ∀ x ∈ c, A x := fun x hx => hc x (mem_of_batched trs c hcm x hx)
    clear hcm
    induction c generalizing l with
    | nil => exact h l
    | cons x c ih =>
      intro db f _ hw r hr
      simp only [unsafeInsertRow, Prod.mk.injEq] at hr
      obtain ⟨hr, herr⟩ := hr
      subst hr
      exact ⟨⟨unsafeInsertLoop_of ok [x] _ (fun y hy => hA y (by simp at hy; simp [hy])) hw.ops, hw.entries⟩, ih _ (fun y hy => hA y (by simp [hy]))⟩
  | delete trs =>
    intro db f _ hw r hr
    simp only [deleteRows, Prod.mk.injEq] at hr
    obtain ⟨hr, herr⟩ := hr
    subst hr
    exact ⟨⟨deleteLoop_of trs _ hw.ops, hw.entries⟩, trivial⟩
  | unsafeUpdate trs olds =>
    simp only [Table.acts]
    split
    · intro db f _ _ r hr; simp at hr
    · intro db f _ hw r hr
      simp only [unsafeUpdateRows, Prod.mk.injEq] at hr
      obtain ⟨hr, herr⟩ := hr
      subst hr
      exact ⟨⟨unsafeUpdateLoop_of ok _ _ (fun p hp => hc p.1 (List.of_mem_zip hp).1) hw.ops, hw.entries⟩, trivial⟩

theorem forChunks_of {t : Table T F} {A : T → Prop} {α : Type} {g : List α → WSt T F → WSt T F × Option Err} (cs : List (List α))
    (hg : ∀ c ∈ cs, ∀ s, (∀ o ∈ s.ops, OpOf t A o) → ∀ o ∈ (g c s).1.ops, OpOf t A o) :
    ∀ (s : WSt T F), (∀ o ∈ s.ops, OpOf t A o) → ∀ o ∈ (forChunks g cs s).1.ops, OpOf t A o := by
  induction cs with
  | nil => intro s ho; exact ho
  | cons c cs ih =>
    intro s ho
    have h1 := hg c (by simp) s ho
    rw [forChunks]
    cases hr : g c s with
    | mk s' e =>
      rw [hr] at h1
      cases e with
      | none => exact ih (fun c hc => hg c (by simp [hc])) s' h1
      | some e => exact h1

/-- a write of a call, or one outside the table (proof notion) -/
def OpOut (t : Table T F) (A : T → Prop) (o : WOp) : Prop := OpOf t A o ∨ ∀ k, o.touches k → Outside t k

theorem DbOf.others {t : Table T F} {A : T → Prop} {db : KV} (h : DbOf t A db) {ops : List WOp} (hx : ∀ o ∈ ops, ∀ k, o.touches k → Outside t k) :
    DbOf t A (db.apply ops) := by
  have hd : ∀ k, InSpace t.id 0 k → (db.apply ops).get k = db.get k := fun k hk =>
    get_apply_of_not_touch _ _ _ (fun o hm ht => (hx o hm _ ht).1 hk)
  have hix : ∀ idx ∈ t.indexes, ∀ k, InSpace t.id idx.id k → (db.apply ops).get k = db.get k := fun idx hi k hk =>
    get_apply_of_not_touch _ _ _ (fun o hm ht => (hx o hm _ ht).2 idx hi hk)
  refine ⟨fun pk v hg => ?_, fun k v hg hk => ?_, fun idx hi k v hk hg => ?_⟩
  · exact h.rows pk v (by rw [← hd _ (inSpace_dataKey t.id pk)]; exact hg)
  · exact h.only_data k v (by rw [← hd k hk]; exact hg) hk
  · exact h.index idx hi k v hk (by rw [← hix idx hi k hk]; exact hg)

theorem DbOf.applyOut {t : Table T F} (wf : t.WF) {A : T → Prop} (ops : List WOp) : ∀ {db : KV}, DbOf t A db → (∀ o ∈ ops, OpOut t A o) → DbOf t A (db.apply ops) := by
  induction ops with
  | nil => intro db h _; exact h
  | cons o ops ih =>
    intro db h ho
    rw [KV.apply_cons]
    refine ih ?_ (fun o' h' => ho o' (by simp [h']))
    rcases ho o (by simp) with h1 | h1
    · exact h.apply1 wf h1
    · exact h.others (ops := [o]) (by simpa using h1)

/-- what a call adds to its batch, or commits, comes from `A`, whether it fails or not -/
theorem body_of {t : Table T F} (wf : t.WF) (rt : t.RoundTrip) {A : T → Prop} {env : Env T} (ok : env.OK t) {c : WCall T} (hc : CallOf t A c) {db : KV}
    (hd : DbOf t A db) {ob : Option Batch} (hb : ∀ b, ob = some b → ∀ o ∈ b.ops, OpOut t A o) (f : F) :
    ∀ o ∈ (t.body env db ob (t.start f) c).1.ops, OpOf t A o := by
  have hv : ∀ (ops : List WOp), (∀ o ∈ ops, OpOf t A o) → ∀ lo hi, EntriesOf t A ((readView db ob ops).scan lo hi) := by
    intro ops ho lo hi pk v hm
    have hm := ((KV.mem_scan _ _ _ _ _).1 hm).1
    unfold readView at hm
    cases ob with
    | none => exact hd.rows pk v hm
    | some b =>
      simp only at hm
      split at hm
      · refine (DbOf.applyOut wf _ hd ?_).rows pk v hm
        intro o h
        rcases List.mem_append.1 h with h | h
        · exact hb b rfl o h
        · exact Or.inl (ho o h)
      · exact hd.rows pk v hm
  have h0 : ∀ o ∈ (t.start f).ops, OpOf t A o := by simp [Table.start]
  cases c with
  | insert trs =>
    exact forChunks_of _ (fun c hcm s ho => insertLoop_of ok (fun x hx => hc x (mem_of_batched trs c hcm x hx)) _ _ _ _ (itemsOf_sort ok c) ho) _ h0
  | update trs =>
    exact forChunks_of _ (fun c hcm s ho => updateLoop_of ok (fun x hx => hc x (mem_of_batched trs c hcm x hx)) _ _ _ (itemsOf_sort ok c) ho) _ h0
  | upsert oc trs =>
    exact forChunks_of _ (fun c hcm s ho => upsertLoop_of rt ok (fun x hx => hc.1 x (mem_of_batched trs c hcm x hx)) (hv s.ops ho _ _) _ _ _ _
      (itemsOf_sort ok c) (ocOf_sort ok hc hcm) ho) _ h0
  | delete trs => exact deleteLoop_of trs _ h0
  | unsafeInsert trs =>
    exact forChunks_of _ (fun c hcm s ho => unsafeInsertLoop_of ok c s (fun x hx => hc x (mem_of_batched trs c hcm x hx)) ho) _ h0
  | unsafeUpdate trs olds => exact unsafeUpdateLoop_of ok _ _ (fun p hp => hc p.1 (List.of_mem_zip hp).1) h0

/-- the world while the calls run (proof notion) -/
structure WorldOf (t : Table T F) (A : T → Prop) (w : World T F) : Prop where
  db : DbOf t A w.db
  running : ∀ th ∈ w.threads, th.res = none → LocOf t A th.loc ∧ ActsOf t A th.acts th.loc

theorem WorldOf.set {t : Table T F} {A : T → Prop} {w : World T F} (h : WorldOf t A w) (i : Nat) (th : Thread T F)
    (h1 : th.res = none → LocOf t A th.loc ∧ ActsOf t A th.acts th.loc) {db : KV} (hd : DbOf t A db) {log : List (Nat ⊕ List WOp)} {f : F} :
    WorldOf t A { w with db := db, threads := w.threads.set i th, log := log, filt := f } := by
  refine ⟨hd, fun th' hm hr => ?_⟩
  rcases List.mem_or_eq_of_mem_set hm with hm | rfl
  · exact h.running th' hm hr
  · exact h1 hr

theorem WorldOf.step {t : Table T F} (wf : t.WF) {A : T → Prop} {w : World T F} (h : WorldOf t A w) (x : Nat ⊕ List WOp)
    (hx : ∀ ops, x = .inr ops → ∀ o ∈ ops, ∀ k, o.touches k → Outside t k) : WorldOf t A (w.step x) := by
  cases x with
  | inr ops =>
    have hd : ∀ k, InSpace t.id 0 k → (w.db.apply ops).get k = w.db.get k := fun k hk =>
      get_apply_of_not_touch _ _ _ (fun o hm ht => (hx ops rfl o hm _ ht).1 hk)
    have hix : ∀ idx ∈ t.indexes, ∀ k, InSpace t.id idx.id k → (w.db.apply ops).get k = w.db.get k := fun idx hi k hk =>
      get_apply_of_not_touch _ _ _ (fun o hm ht => (hx ops rfl o hm _ ht).2 idx hi hk)
    refine ⟨⟨fun pk v hg => ?_, fun k v hg hk => ?_, fun idx hi k v hk hg => ?_⟩, h.running⟩
    · exact h.db.rows pk v (by rw [← hd _ (inSpace_dataKey t.id pk)]; exact hg)
    · exact h.db.only_data k v (by rw [← hd k hk]; exact hg) hk
    · exact h.db.index idx hi k v hk (by rw [← hix idx hi k hk]; exact hg)
  | inl i =>
    simp only [World.step]
    cases hth : w.threads[i]? with
    | none => exact h
    | some th =>
      simp only
      cases hres : th.res with
      | some r => exact h
      | none =>
        simp only
        obtain ⟨hl, ha⟩ := h.running th (List.mem_of_getElem? hth) hres
        cases hacts : th.acts with
        | cons a acts =>
          simp only
          rw [hacts] at ha
          cases hr : a w.db w.filt th.loc with
          | mk r e =>
            cases e with
            | none => exact h.set i _ (fun _ => ha w.db w.filt h.db hl r hr) h.db
            | some e => exact h.set i _ (by simp) h.db
        | nil =>
          simp only
          have hfin : (finish th.env w.db none (th.loc.toW w.filt, none)).db = w.db.apply th.loc.ops ∨
              (finish th.env w.db none (th.loc.toW w.filt, none)).db = w.db := by
            simp only [finish, Loc.toW]
            by_cases h0 : th.loc.ops = []
            · left; simp [h0, KV.apply]
            · by_cases hc : th.env.commitOk = true
              · left; simp [h0, hc]
              · right; simp [h0, hc]
          refine h.set i _ (by simp) ?_
          rcases hfin with e | e <;> rw [e]
          · exact h.db.apply wf _ hl.ops
          · exact h.db

theorem WorldOf.run {t : Table T F} (wf : t.WF) {A : T → Prop} (sched : List (Nat ⊕ List WOp)) :
    ∀ {w : World T F}, OthersOutside t sched → WorldOf t A w → WorldOf t A (w.run sched) := by
  induction sched with
  | nil => intro w _ h; exact h
  | cons x sched ih =>
    intro w ho h
    exact ih (fun ops hm => ho ops (by simp [hm])) (h.step wf x (fun ops e => ho ops (by simp [e])))

theorem WorldOf.start {t : Table T F} (rt : t.RoundTrip) {A : T → Prop} {db : KV} (hd : DbOf t A db)
    {cs : List (Env T × WCall T)} (hok : ∀ c ∈ cs, c.1.OK t) (hc : ∀ c ∈ cs, CallOf t A c.2) (f : F) : WorldOf t A (t.world db f cs) := by
  refine ⟨hd, fun th hm hr => ?_⟩
  simp only [Table.world, List.mem_map] at hm
  obtain ⟨c, hcm, rfl⟩ := hm
  exact ⟨⟨by simp [Table.spawn, Table.loc0], by simp [Table.spawn, Table.loc0]⟩, acts_of rt (hok c hcm) (hc c hcm)⟩

/-- the rows agree with a map, whatever the indexes are -/
theorem DbOf.data {t : Table T F} {A : T → Prop} {db : KV} (h : DbOf t A db) :
    ∃ m, Holds { t with indexes := [] } db m ∧ ∀ pk x, m pk = some x → A x := by
  classical
  have hx : ∀ pk, ∃ o : Option T, (o = none → db.get (dataKey t.id pk) = none) ∧
      ∀ x, o = some x → A x ∧ t.pk x = pk ∧ ∃ b, t.ser x = some b ∧ db.get (dataKey t.id pk) = some b := by
    intro pk
    cases hg : db.get (dataKey t.id pk) with
    | none => exact ⟨none, fun _ => rfl, by simp⟩
    | some v =>
      obtain ⟨x, h1, h2, h3⟩ := h.rows pk v hg
      exact ⟨some x, by simp, fun y hy => by simp only [Option.some.injEq] at hy; subst hy; exact ⟨h1, h2, v, h3, rfl⟩⟩
  obtain ⟨m, hm⟩ : ∃ m : Rows T, ∀ pk, (m pk = none → db.get (dataKey t.id pk) = none) ∧
      ∀ x, m pk = some x → A x ∧ t.pk x = pk ∧ ∃ b, t.ser x = some b ∧ db.get (dataKey t.id pk) = some b :=
    ⟨fun pk => (hx pk).choose, fun pk => (hx pk).choose_spec⟩
  exact ⟨m, ⟨fun pk x hp => ((hm pk).2 x hp).2.1, fun pk hp => (hm pk).1 hp, fun pk x hp => ((hm pk).2 x hp).2.2, h.only_data, by simp⟩,
    fun pk x hp => ((hm pk).2 x hp).1⟩

end Bond
