import Verif.InsertLemmas
/- The loops of Update, Delete, Upsert and the unsafe writes refine operations on the abstract row map. -/
namespace Bond
open Spec
variable {T F : Type}

theorem updateLoop_ok {t : Table T F} (wf : t.WF) {env : Env T} (ok : env.OK t) (rt : t.RoundTrip)
    {base R : KV} {lo : Bytes} {trs : List T} {items : List (Bytes × Nat)} {rs : List T}
    (hd : Describes t trs items rs) :
    ∀ {s s' : WSt T F} {m : Rows T},
    (rs.map t.key).Pairwise (fun a b => ble a b = true) →
    (∀ r ∈ rs, ble lo (t.key r) = true) →
    (∀ r ∈ rs, R.get (t.key r) = (base.apply s.ops).get (t.key r)) →
    Holds t (base.apply s.ops) m → FilterCovers t s.filt m →
    t.updateLoop env (R.scan lo t.dataKeySpaceEnd) trs items s = (s', none) →
    Holds t (base.apply s'.ops) (m.putAll t.pk rs) ∧ SameOutside t (base.apply s.ops) (base.apply s'.ops) ∧
    FilterCovers t s'.filt (m.putAll t.pk rs) ∧ (∀ r ∈ rs, (m (t.pk r)).isSome) := by
  induction hd with
  | nil =>
    intro s s' m _ _ _ hH hF he
    simp only [Table.updateLoop, Prod.mk.injEq, and_true] at he
    subst he
    exact ⟨hH, SameOutside.refl _ _, hF, by simp⟩
  | @cons e r items rs hr hd ih =>
    intro s s' m hsort hlo hag hH hF he
    obtain ⟨key, j⟩ := e
    obtain ⟨hj, hk⟩ := hr
    simp only at hj hk
    simp only [List.map_cons, List.pairwise_cons, List.mem_map, forall_exists_index, and_imp,
      forall_apply_eq_imp_iff₂] at hsort
    rw [Table.updateLoop] at he
    split at he
    · simp at he
    split at he
    · rename_i hdup
      have hih := ih (s := { s with clock := s.clock + 1 }) (m := m) hsort.2 (fun y hy => hlo y (by simp [hy]))
        (fun y hy => hag y (by simp [hy])) hH hF he
      cases hd with
      | nil => simp at hdup
      | @cons e2 r2 items2 rs2 hr2 hd2 =>
        simp only [List.head?_cons, Option.map_some, Option.some.injEq] at hdup
        have hpk : t.pk r2 = t.pk r := key_inj.1 (by rw [← hr2.2, hdup, hk])
        have hput : m.putAll t.pk (r :: r2 :: rs2) = m.putAll t.pk (r2 :: rs2) := by
          rw [putAll_cons, putAll_cons, putAll_cons, hpk, put_put]
        rw [hput]
        refine ⟨hih.1, hih.2.1, hih.2.2.1, ?_⟩
        intro y hy
        rcases List.mem_cons.1 hy with rfl | hy
        · rw [← hpk]; exact hih.2.2.2 r2 (by simp)
        · exact hih.2.2.2 y hy
    rename_i hnd
    subst hk
    have hseek := seekExact_scan R (hlo r (by simp)) (dataKey_lt_end t (t.pk r))
    have hseek' : seekExact (R.scan lo t.dataKeySpaceEnd) (t.key r) = (base.apply s.ops).get (t.key r) :=
      hseek.trans (hag r (by simp))
    rw [hseek'] at he
    cases hm : m (t.pk r) with
    | none => rw [show t.key r = dataKey t.id (t.pk r) from rfl, hH.absent _ hm] at he; simp at he
    | some old =>
      obtain ⟨b, hb1, hb2⟩ := hH.present _ _ hm
      rw [show t.key r = dataKey t.id (t.pk r) from rfl, hb2] at he
      simp only [rt old b hb1, hj] at he
      split at he
      · simp at he
      rename_i data hdata
      have hins := holds_update wf hH hm hdata (ok.order s.clock)
      have hins1 := hins.1
      have hins2 := hins.2
      rw [← KV.apply_append] at hins1 hins2
      have hne : ∀ y ∈ rs, t.pk y ≠ t.pk r := by
        cases hd with
        | nil => simp
        | @cons e2 r2 items2 rs2 hr2 hd2 =>
          simp only [List.head?_cons, Option.map_some, Option.some.injEq] at hnd
          have h2 : t.key r ≠ t.key r2 := fun e => hnd (by rw [hr2.2, e])
          have hs2 := hsort.2
          simp only [List.map_cons, List.pairwise_cons, List.mem_map, forall_exists_index, and_imp,
            forall_apply_eq_imp_iff₂] at hs2
          intro y hy e
          rcases List.mem_cons.1 hy with rfl | hy
          · exact h2 (key_inj.2 e).symm
          · exact sorted_tail_ne (hsort.1 r2 (by simp)) h2 (hs2.1 y hy) (key_inj.2 e)
      have := ih (s := ⟨_, s.filt, _, old⟩) (m := m.put (t.pk r) r) hsort.2 (fun y hy => hlo y (by simp [hy])) ?_ hins1
        (filterCovers_put hF hm) he
      · obtain ⟨a, b', c, d⟩ := this
        refine ⟨a, hins2.trans b', c, ?_⟩
        intro y hy
        rcases List.mem_cons.1 hy with rfl | hy
        · rw [hm]; rfl
        · have := d y hy; rw [put_apply, if_neg (hne y hy)] at this; exact this
      · intro y hy
        rw [hag y (by simp [hy])]
        exact holds_get_eq (p := t.pk y) hH hins1 (by rw [put_apply, if_neg (hne y hy)])

theorem updateLoop_complete {t : Table T F} {env : Env T} {R : KV} {lo : Bytes} {trs : List T}
    {items : List (Bytes × Nat)} {rs : List T} (hd : Describes t trs items rs) :
    ∀ {s : WSt T F}, (∀ n, env.done n = false) → (∀ r ∈ rs, (t.ser r).isSome) →
    (∀ r ∈ rs, ble lo (t.key r) = true) →
    (∀ r ∈ rs, ∃ b, R.get (t.key r) = some b ∧ ∀ o, (t.deser o b).isSome) →
    (t.updateLoop env (R.scan lo t.dataKeySpaceEnd) trs items s).2 = none := by
  induction hd with
  | nil => intros; rfl
  | @cons e r items rs hr hd ih =>
    intro s hdone hser hlo hR
    obtain ⟨key, j⟩ := e
    obtain ⟨hj, hk⟩ := hr
    simp only at hj hk
    subst hk
    rw [Table.updateLoop, if_neg (by simp [hdone])]
    split
    · exact ih hdone (fun y hy => hser y (by simp [hy])) (fun y hy => hlo y (by simp [hy])) (fun y hy => hR y (by simp [hy]))
    obtain ⟨b, hb, hb2⟩ := hR r (by simp)
    have hseek := seekExact_scan R (hlo r (by simp)) (dataKey_lt_end t (t.pk r))
    have hsk : seekExact (R.scan lo t.dataKeySpaceEnd) (t.key r) = some b := hseek.trans hb
    rw [hsk]
    simp only
    have h1 := hb2 s.oldTr
    cases hdes : t.deser s.oldTr b with
    | none => simp [hdes] at h1
    | some old =>
      simp only [hj]
      have h2 := hser r (by simp)
      cases hs : t.ser r with
      | none => simp [hs] at h2
      | some data =>
        exact ih hdone (fun y hy => hser y (by simp [hy])) (fun y hy => hlo y (by simp [hy])) (fun y hy => hR y (by simp [hy]))

theorem updateChunk_ok {t : Table T F} (wf : t.WF) {env : Env T} (ok : env.OK t) (rt : t.RoundTrip)
    {db base : KV} {ob : Option Batch} {trs : List T} {s s' : WSt T F} {m : Rows T}
    (hag : ∀ r ∈ trs, (readView db ob s.ops).get (t.key r) = (base.apply s.ops).get (t.key r))
    (hH : Holds t (base.apply s.ops) m) (hF : FilterCovers t s.filt m)
    (he : t.updateChunk env db ob trs s = (s', none)) :
    Holds t (base.apply s'.ops) (m.putAll t.pk (sortedRows t env trs)) ∧
    SameOutside t (base.apply s.ops) (base.apply s'.ops) ∧
    FilterCovers t s'.filt (m.putAll t.pk (sortedRows t env trs)) ∧ (∀ r ∈ trs, (m (t.pk r)).isSome) := by
  obtain ⟨hd, hp⟩ := describes_sort t env ok trs
  obtain ⟨a, b, c, d⟩ := updateLoop_ok (base := base) wf ok rt hd (sortedRows_sorted t ok trs)
    (sortedRows_lo t ok trs) (fun r hr => hag r (hp.mem_iff.1 hr)) hH hF he
  exact ⟨a, b, c, fun r hr => d r (hp.mem_iff.2 hr)⟩

theorem updateChunk_complete {t : Table T F} {env : Env T} (ok : env.OK t)
    {db : KV} {ob : Option Batch} {trs : List T} {s : WSt T F} (hdone : ∀ n, env.done n = false)
    (hser : ∀ r ∈ trs, (t.ser r).isSome)
    (hR : ∀ r ∈ trs, ∃ b, (readView db ob s.ops).get (t.key r) = some b ∧ ∀ o, (t.deser o b).isSome) :
    (t.updateChunk env db ob trs s).2 = none := by
  obtain ⟨hd, hp⟩ := describes_sort t env ok trs
  exact updateLoop_complete hd hdone (fun r hr => hser r (hp.mem_iff.1 hr)) (sortedRows_lo t ok trs)
    (fun r hr => hR r (hp.mem_iff.1 hr))

/-- rows in the order in which `Update`/`Upsert` visit them: slice by slice, sorted in each slice -/
def visited (t : Table T F) (env : Env T) (cs : List (List T)) : List T := cs.flatMap (sortedRows t env)

theorem visited_perm (t : Table T F) {env : Env T} (ok : env.OK t) (cs : List (List T)) :
    (visited t env cs).Perm cs.flatten := by
  induction cs with
  | nil => exact List.Perm.refl _
  | cons c cs ih =>
    rw [visited, List.flatMap_cons, List.flatten_cons]
    exact (describes_sort t env ok c).2.append ih

theorem updateChunks_ok {t : Table T F} (wf : t.WF) {env : Env T} (ok : env.OK t) (rt : t.RoundTrip)
    {db base : KV} {ob : Option Batch} {cs : List (List T)} {s s' : WSt T F} {m : Rows T}
    (hr : ReadsOK t db base ob s.ops cs) (hH : Holds t (base.apply s.ops) m) (hF : FilterCovers t s.filt m)
    (he : forChunks (t.updateChunk env db ob) cs s = (s', none)) :
    Holds t (base.apply s'.ops) (m.putAll t.pk (visited t env cs)) ∧
    SameOutside t (base.apply s.ops) (base.apply s'.ops) ∧
    FilterCovers t s'.filt (m.putAll t.pk (visited t env cs)) ∧ (∀ r ∈ cs.flatten, (m (t.pk r)).isSome) := by
  induction cs generalizing s m with
  | nil =>
    simp only [forChunks, Prod.mk.injEq, and_true] at he
    subst he
    exact ⟨hH, SameOutside.refl _ _, hF, by simp⟩
  | cons c cs ih =>
    rw [forChunks] at he
    split at he
    · rename_i s1 h1
      obtain ⟨a, b, cc, d⟩ := updateChunk_ok wf ok rt hr.head hH hF h1
      have hp := (describes_sort t env ok c).2
      obtain ⟨a2, b2, c2, d2⟩ := ih (hr.tail hH a (fun p hq => putAll_other _ _ _ _
        (fun x hx => hq x (hp.mem_iff.1 hx)))) a cc he
      rw [visited, List.flatMap_cons, putAll_append]
      refine ⟨a2, b.trans b2, c2, ?_⟩
      intro r hr'
      rcases List.mem_append.1 hr' with h | h
      · exact d r h
      · by_cases hx : ∃ x ∈ c, t.pk x = t.pk r
        · obtain ⟨x, hx, e⟩ := hx
          rw [← e]; exact d x hx
        · have := d2 r h
          rw [putAll_other] at this
          · exact this
          · intro x hx' e; exact hx ⟨x, hp.mem_iff.1 hx', e⟩
    · simp at he

/-! Delete -/

theorem deleteLoop_ok {t : Table T F} (wf : t.WF) {env : Env T} (ok : env.OK t) {base : KV} {trs : List T}
    {s s' : WSt T F} {m : Rows T} (hH : Holds t (base.apply s.ops) m) (hF : FilterCovers t s.filt m)
    (hsame : ∀ x ∈ trs, ∀ old, m (t.pk x) = some old → ∀ idx ∈ t.indexes,
      idx.filter old = true → idx.filter x = true ∧ t.indexKey idx x = t.indexKey idx old)
    (he : t.deleteLoop env trs s = (s', none)) :
    Holds t (base.apply s'.ops) (m.eraseAll (trs.map t.pk)) ∧ SameOutside t (base.apply s.ops) (base.apply s'.ops) ∧
    FilterCovers t s'.filt (m.eraseAll (trs.map t.pk)) := by
  induction trs generalizing s m with
  | nil =>
    simp only [Table.deleteLoop, Prod.mk.injEq, and_true] at he
    subst he
    exact ⟨hH, SameOutside.refl _ _, hF⟩
  | cons x xs ih =>
    rw [Table.deleteLoop] at he
    split at he
    · simp at he
    have hdel := holds_delete wf hH (hsame x (by simp)) (ok.order s.clock)
    have h1 := hdel.1
    have h2 := hdel.2
    rw [← KV.apply_append] at h1 h2
    obtain ⟨a, b, c⟩ := ih (s := { s with ops := _, clock := _ }) h1 (filterCovers_erase hF _) (by
      intro y hy old ho
      simp only [Rows.erase] at ho
      split at ho
      · simp at ho
      · exact hsame y (by simp [hy]) old ho) he
    exact ⟨a, h2.trans b, c⟩

theorem deleteLoop_complete {t : Table T F} {env : Env T} (hdone : ∀ n, env.done n = false) (trs : List T)
    (s : WSt T F) : (t.deleteLoop env trs s).2 = none := by
  induction trs generalizing s with
  | nil => rfl
  | cons x xs ih => rw [Table.deleteLoop, if_neg (by simp [hdone])]; exact ih _

theorem eraseAll_apply (m : Rows T) (ps : List Bytes) (p : Bytes) :
    m.eraseAll ps p = if p ∈ ps then none else m p := by
  induction ps generalizing m with
  | nil => simp [Rows.eraseAll]
  | cons q ps ih =>
    have : m.eraseAll (q :: ps) = (m.erase q).eraseAll ps := rfl
    rw [this, ih]
    simp only [Rows.erase, List.mem_cons]
    by_cases h1 : p = q <;> by_cases h2 : p ∈ ps <;> simp [h1, h2]

/-- data entries disappear whatever the records given to Delete contain besides the key -/
theorem deleteLoop_data {t : Table T F} (wf : t.WF) {env : Env T} (ok : env.OK t) {base : KV} {trs : List T}
    {s s' : WSt T F} (he : t.deleteLoop env trs s = (s', none)) (pk : Bytes) :
    (base.apply s'.ops).get (dataKey t.id pk) =
      if pk ∈ trs.map t.pk then none else (base.apply s.ops).get (dataKey t.id pk) := by
  induction trs generalizing s with
  | nil =>
    simp only [Table.deleteLoop, Prod.mk.injEq, and_true] at he
    subst he; simp
  | cons x xs ih =>
    rw [Table.deleteLoop] at he
    split at he
    · simp at he
    rw [ih he]
    simp only [List.map_cons, List.mem_cons]
    rw [KV.apply_append, KV.apply_cons,
      get_indexOps_outside (onDelete_in t x) (ok.order s.clock) _ _ (not_inSpace_index wf pk)]
    simp only [KV.apply1, KV.get_del]
    by_cases h1 : pk = t.pk x
    · subst h1; simp [Table.key]
    · have : dataKey t.id pk ≠ t.key x := fun e => h1 (dataKey_inj e).2
      simp [h1, this]

/-! Upsert without repeated keys -/

/-- abstract effect of upserting one row -/
def Spec.Rows.upsert (m : Rows T) (pk : T → Bytes) (oc : T → T → T) (x : T) : Rows T :=
  m.put (pk x) (match m (pk x) with | none => x | some o => oc o x)

/-- abstract effect of upserting rows one after the other -/
def Spec.Rows.upsertAll (m : Rows T) (pk : T → Bytes) (oc : T → T → T) (xs : List T) : Rows T :=
  xs.foldl (fun m x => m.upsert pk oc x) m

theorem upsertAll_other (m : Rows T) (pk : T → Bytes) (oc : T → T → T) (xs : List T) (p : Bytes)
    (h : ∀ x ∈ xs, pk x ≠ p) : m.upsertAll pk oc xs p = m p := by
  induction xs generalizing m with
  | nil => rfl
  | cons x xs ih =>
    have : m.upsertAll pk oc (x :: xs) = (m.upsert pk oc x).upsertAll pk oc xs := rfl
    rw [this, ih _ (fun y hy => h y (by simp [hy])), Rows.upsert, put_apply, if_neg (fun e => h x (by simp) e.symm)]

theorem upsertAll_nodup (m : Rows T) (pk : T → Bytes) (oc : T → T → T) {xs : List T} (hnd : (xs.map pk).Nodup) {x : T}
    (hx : x ∈ xs) : m.upsertAll pk oc xs (pk x) = some (match m (pk x) with | none => x | some o => oc o x) := by
  induction xs generalizing m with
  | nil => simp at hx
  | cons y ys ih =>
    simp only [List.map_cons, List.nodup_cons] at hnd
    have h1 : m.upsertAll pk oc (y :: ys) = (m.upsert pk oc y).upsertAll pk oc ys := rfl
    rw [h1]
    rcases List.mem_cons.1 hx with rfl | hx
    · rw [upsertAll_other]
      · simp [Rows.upsert, put_apply]
      · intro z hz e; exact hnd.1 (e ▸ List.mem_map.2 ⟨z, hz, rfl⟩)
    · rw [ih _ hnd.2 hx]
      have : m.upsert pk oc y (pk x) = m (pk x) := by
        rw [Rows.upsert, put_apply, if_neg]
        intro e; exact hnd.1 (e ▸ List.mem_map.2 ⟨x, hx, rfl⟩)
      rw [this]

theorem upsertAll_perm (m : Rows T) (pk : T → Bytes) (oc : T → T → T) {xs ys : List T} (hp : xs.Perm ys)
    (hnd : (xs.map pk).Nodup) : m.upsertAll pk oc xs = m.upsertAll pk oc ys := by
  have hnd' := (hp.map pk).nodup_iff.1 hnd
  funext p
  by_cases h : ∃ x ∈ xs, pk x = p
  · obtain ⟨x, hx, rfl⟩ := h
    rw [upsertAll_nodup m pk oc hnd hx, upsertAll_nodup m pk oc hnd' (hp.mem_iff.1 hx)]
  · rw [upsertAll_other, upsertAll_other]
    · intro x hx e; exact h ⟨x, hp.mem_iff.2 hx, e⟩
    · intro x hx e; exact h ⟨x, hx, e⟩

theorem upsertAll_append (m : Rows T) (pk : T → Bytes) (oc : T → T → T) (xs ys : List T) :
    m.upsertAll pk oc (xs ++ ys) = (m.upsertAll pk oc xs).upsertAll pk oc ys := by simp [Rows.upsertAll]

theorem upsertDup_nil {t : Table T F} {trs : List T} {oc : Table.OnConflict T} {items : List (Bytes × Nat)} {rs : List T}
    (hd : Describes t trs items rs) {k : Bytes} (h : ∀ r ∈ rs, t.key r ≠ k) (i : Nat) (tr old : T) :
    Table.upsertDup oc trs k items i tr old = some (items, i, tr, old) := by
  cases hd with
  | nil => rfl
  | @cons e r items rs hr hd =>
    obtain ⟨k', j'⟩ := e
    simp only [Table.upsertDup]
    rw [if_neg]
    intro e'; exact h r (by simp) (by rw [← hr.2, ← e'])

/-- conflict functions that keep the primary key and leave their first argument alone -/
structure OnConflictOK (t : Table T F) (oc : Table.OnConflict T) : Prop where
  pk : ∀ o x, t.pk o = t.pk x → t.pk (oc o x).1 = t.pk x
  pure : ∀ o x, (oc o x).2 = o

theorem upsertLoop_ok {t : Table T F} (wf : t.WF) {env : Env T} (ok : env.OK t) (rt : t.RoundTrip) (fs : t.FilterSound)
    {oc : Table.OnConflict T} (hoc : OnConflictOK t oc)
    {base R : KV} {lo : Bytes} {trs : List T} {items : List (Bytes × Nat)} {rs : List T}
    (hd : Describes t trs items rs) :
    ∀ {fuel i : Nat} {s s' : WSt T F} {m : Rows T}, items.length ≤ fuel →
    (rs.map t.pk).Nodup →
    (∀ r ∈ rs, ble lo (t.key r) = true) →
    (∀ r ∈ rs, R.get (t.key r) = (base.apply s.ops).get (t.key r)) →
    Holds t (base.apply s.ops) m → FilterCovers t s.filt m →
    t.upsertLoop env oc (R.scan lo t.dataKeySpaceEnd) trs fuel i items s = (s', none) →
    Holds t (base.apply s'.ops) (m.upsertAll t.pk (fun o x => (oc o x).1) rs) ∧
    SameOutside t (base.apply s.ops) (base.apply s'.ops) ∧
    FilterCovers t s'.filt (m.upsertAll t.pk (fun o x => (oc o x).1) rs) := by
  induction hd with
  | nil =>
    intro fuel i s s' m _ _ _ _ hH hF he
    cases fuel <;> simp only [Table.upsertLoop, Prod.mk.injEq, and_true] at he <;> subst he <;>
      exact ⟨hH, SameOutside.refl _ _, hF⟩
  | @cons e r items rs hr hd ih =>
    intro fuel i s s' m hfuel hnd hlo hag hH hF he
    obtain ⟨key, j⟩ := e
    obtain ⟨hj, hk⟩ := hr
    simp only at hj hk
    subst hk
    cases fuel with
    | zero => simp at hfuel
    | succ fuel =>
    have hfuel' : items.length ≤ fuel := by simpa using hfuel
    simp only [List.map_cons, List.nodup_cons] at hnd
    have hne : ∀ y ∈ rs, t.pk y ≠ t.pk r := fun y hy e => hnd.1 (e ▸ List.mem_map.2 ⟨y, hy, rfl⟩)
    have hdup := fun (a b : T) => upsertDup_nil (oc := oc) hd (k := t.key r)
      (fun y hy e => hne y hy (key_inj.1 e)) i a b
    have hseek := seekExact_scan R (hlo r (by simp)) (dataKey_lt_end t (t.pk r))
    have hex : t.existIter s.filt (R.scan lo t.dataKeySpaceEnd) (t.key r) = (base.apply s.ops).get (t.key r) :=
      existIter_eq hH hF (hseek.trans (hag r (by simp)))
    rw [Table.upsertLoop, hj] at he
    simp only [hex] at he
    split at he
    · simp at he
    have hcons : m.upsertAll t.pk (fun o x => (oc o x).1) (r :: rs) =
      (m.upsert t.pk (fun o x => (oc o x).1) r).upsertAll t.pk (fun o x => (oc o x).1) rs := rfl
    rw [hcons]
    cases hm : m (t.pk r) with
    | none =>
      rw [show t.key r = dataKey t.id (t.pk r) from rfl, hH.absent _ hm] at he
      simp only at he
      rw [show dataKey t.id (t.pk r) = t.key r from rfl, hdup] at he
      simp only at he
      split at he
      · simp at he
      rename_i data hdata
      have hins := holds_insert wf hH hm hdata (ok.order s.clock)
      have h1 := hins.1
      have h2 := hins.2
      rw [← KV.apply_append] at h1 h2
      have hu : m.upsert t.pk (fun o x => (oc o x).1) r = m.put (t.pk r) r := by simp [Rows.upsert, hm]
      rw [hu]
      obtain ⟨a, b, c⟩ := ih hfuel' hnd.2 (fun y hy => hlo y (by simp [hy])) (fun y hy => by
        rw [hag y (by simp [hy])]
        exact holds_get_eq (p := t.pk y) hH h1 (by rw [put_apply, if_neg (hne y hy)])) h1 (filterCovers_add fs hF r) he
      exact ⟨a, h2.trans b, c⟩
    | some old =>
      obtain ⟨b, hb1, hb2⟩ := hH.present _ _ hm
      rw [show t.key r = dataKey t.id (t.pk r) from rfl, hb2] at he
      simp only [rt old b hb1, Option.map_some] at he
      rw [show dataKey t.id (t.pk r) = t.key r from rfl, hdup] at he
      simp only at he
      split at he
      · simp at he
      rename_i data hdata
      have hpko : t.pk (oc old r).1 = t.pk r := hoc.pk old r (hH.row_pk _ _ hm)
      rw [hoc.pure] at he
      have hins := holds_update wf hH (x := (oc old r).1) (old := old) (by rw [hpko]; exact hm) hdata (ok.order s.clock)
      have hkey : t.key (oc old r).1 = t.key r := key_inj.2 hpko
      rw [hpko, hkey] at hins
      have h1 := hins.1
      have h2 := hins.2
      rw [← KV.apply_append] at h1 h2
      have hu : m.upsert t.pk (fun o x => (oc o x).1) r = m.put (t.pk r) (oc old r).1 := by simp [Rows.upsert, hm]
      rw [hu]
      obtain ⟨a, b, c⟩ := ih (s := ⟨_, s.filt, _, old⟩) hfuel' hnd.2 (fun y hy => hlo y (by simp [hy])) (fun y hy => by
        rw [hag y (by simp [hy])]
        exact holds_get_eq (p := t.pk y) hH h1 (by rw [put_apply, if_neg (hne y hy)])) h1 (filterCovers_put hF hm) he
      exact ⟨a, h2.trans b, c⟩

theorem Describes.length {t : Table T F} {trs : List T} {items : List (Bytes × Nat)} {rs : List T}
    (h : Describes t trs items rs) : items.length = rs.length := by
  induction h with
  | nil => rfl
  | cons _ _ ih => simp [ih]

theorem upsertChunks_ok {t : Table T F} (wf : t.WF) {env : Env T} (ok : env.OK t) (rt : t.RoundTrip) (fs : t.FilterSound)
    {oc : Table.OnConflict T} (hoc : OnConflictOK t oc)
    {db base : KV} {ob : Option Batch} {cs : List (List T)} {s s' : WSt T F} {m : Rows T}
    (hnd : (cs.flatten.map t.pk).Nodup)
    (hr : ReadsOK t db base ob s.ops cs) (hH : Holds t (base.apply s.ops) m) (hF : FilterCovers t s.filt m)
    (he : forChunks (t.upsertChunk env db ob oc) cs s = (s', none)) :
    Holds t (base.apply s'.ops) (m.upsertAll t.pk (fun o x => (oc o x).1) cs.flatten) ∧
    SameOutside t (base.apply s.ops) (base.apply s'.ops) ∧
    FilterCovers t s'.filt (m.upsertAll t.pk (fun o x => (oc o x).1) cs.flatten) := by
  induction cs generalizing s m with
  | nil =>
    simp only [forChunks, Prod.mk.injEq, and_true] at he
    subst he
    exact ⟨hH, SameOutside.refl _ _, hF⟩
  | cons c cs ih =>
    rw [forChunks] at he
    rw [List.flatten_cons, List.map_append, List.nodup_append] at hnd
    split at he
    · rename_i s1 h1
      obtain ⟨hd, hp⟩ := describes_sort t env ok c
      have hndc := (hp.map t.pk).nodup_iff.2 hnd.1
      obtain ⟨a, b, cc⟩ := upsertLoop_ok (base := base) wf ok rt fs hoc hd (Nat.le_refl _) hndc (sortedRows_lo t ok c)
        (fun r hr' => hr.head r (hp.mem_iff.1 hr')) hH hF h1
      rw [upsertAll_perm m _ _ hp hndc] at a cc
      obtain ⟨a2, b2, c2⟩ := ih hnd.2.1 (hr.tail hH a (fun p hq => upsertAll_other _ _ _ _ _ hq)) a cc he
      rw [List.flatten_cons, upsertAll_append]
      exact ⟨a2, b.trans b2, c2⟩
    · simp at he

theorem upsertLoop_complete {t : Table T F} {env : Env T} {oc : Table.OnConflict T} {R : KV} {lo : Bytes} {trs : List T}
    {items : List (Bytes × Nat)} {rs : List T} (hd : Describes t trs items rs) :
    ∀ {fuel i : Nat} {s : WSt T F}, (∀ n, env.done n = false) → (∀ x, (t.ser x).isSome) →
    (rs.map t.pk).Nodup →
    (∀ r ∈ rs, ble lo (t.key r) = true) →
    (∀ r ∈ rs, ∀ b, R.get (t.key r) = some b → ∀ o, (t.deser o b).isSome) →
    (t.upsertLoop env oc (R.scan lo t.dataKeySpaceEnd) trs fuel i items s).2 = none := by
  induction hd with
  | nil => intro fuel; cases fuel <;> intros <;> rfl
  | @cons e r items rs hr hd ih =>
    intro fuel i s hdone hser hnd hlo hR
    obtain ⟨key, j⟩ := e
    obtain ⟨hj, hk⟩ := hr
    simp only at hj hk
    subst hk
    cases fuel with
    | zero => rfl
    | succ fuel =>
    simp only [List.map_cons, List.nodup_cons] at hnd
    have hne : ∀ y ∈ rs, t.pk y ≠ t.pk r := fun y hy e => hnd.1 (e ▸ List.mem_map.2 ⟨y, hy, rfl⟩)
    have hdup := fun (a b : T) => upsertDup_nil (oc := oc) hd (k := t.key r)
      (fun y hy e => hne y hy (key_inj.1 e)) i a b
    have hih := fun i s => ih (fuel := fuel) (i := i) (s := s) hdone hser hnd.2
      (fun y hy => hlo y (by simp [hy])) (fun y hy => hR y (by simp [hy]))
    have hseek := seekExact_scan R (hlo r (by simp)) (dataKey_lt_end t (t.pk r))
    rw [Table.upsertLoop, hj]
    simp only [hdone, hdup]
    have hcase : t.existIter s.filt (R.scan lo t.dataKeySpaceEnd) (t.key r) = none ∨
        t.existIter s.filt (R.scan lo t.dataKeySpaceEnd) (t.key r) = R.get (t.key r) := by
      unfold Table.existIter
      split
      · split
        · exact Or.inl rfl
        · exact Or.inr hseek
      · exact Or.inr hseek
    have hfin : ∀ (x : T) (g : Bytes → WSt T F × Option Err) (q : WSt T F × Option Err), (∀ b, (g b).2 = none) →
        (match t.ser x with | none => q | some b => g b).2 = none := by
      intro x g q hg
      have := hser x
      cases hx : t.ser x with
      | none => simp [hx] at this
      | some b => exact hg b
    rcases hcase with h | h
    · rw [h]; simp only [Bool.false_eq_true, if_false]
      apply hfin; intro b; exact hih _ _
    · cases hg : R.get (t.key r) with
      | none => rw [h, hg]; simp only [Bool.false_eq_true, if_false]; apply hfin; intro b; exact hih _ _
      | some v =>
        rw [h, hg]; simp only [Bool.false_eq_true, if_false]
        have := hR r (by simp) v hg s.oldTr
        cases hdz : t.deser s.oldTr v with
        | none => simp [hdz] at this
        | some o => simp only [Option.map_some]; apply hfin; intro b; exact hih _ _

/-! the unsafe writes -/

theorem unsafeInsertLoop_ok {t : Table T F} (wf : t.WF) {env : Env T} (ok : env.OK t) (fs : t.FilterSound)
    {base : KV} {trs : List T} {s s' : WSt T F} {m : Rows T} (hH : Holds t (base.apply s.ops) m)
    (hF : FilterCovers t s.filt m) (hnd : (trs.map t.pk).Nodup) (habs : ∀ x ∈ trs, m (t.pk x) = none)
    (he : t.unsafeInsertLoop env trs s = (s', none)) :
    Holds t (base.apply s'.ops) (m.putAll t.pk trs) ∧ SameOutside t (base.apply s.ops) (base.apply s'.ops) ∧
    FilterCovers t s'.filt (m.putAll t.pk trs) := by
  induction trs generalizing s m with
  | nil =>
    simp only [Table.unsafeInsertLoop, Prod.mk.injEq, and_true] at he
    subst he
    exact ⟨hH, SameOutside.refl _ _, hF⟩
  | cons x xs ih =>
    rw [Table.unsafeInsertLoop] at he
    split at he
    · simp at he
    split at he
    · simp at he
    rename_i data hdata
    have hins := holds_insert wf hH (habs x (by simp)) hdata (ok.order s.clock)
    have h1 := hins.1
    have h2 := hins.2
    rw [← KV.apply_append] at h1 h2
    simp only [List.map_cons, List.nodup_cons] at hnd
    obtain ⟨a, b, c⟩ := ih h1 (filterCovers_add fs hF x) hnd.2 (by
      intro y hy
      rw [put_apply, if_neg, habs y (by simp [hy])]
      intro e; exact hnd.1 (e ▸ List.mem_map.2 ⟨y, hy, rfl⟩)) he
    exact ⟨a, h2.trans b, c⟩

theorem unsafeInsertChunks_ok {t : Table T F} (wf : t.WF) {env : Env T} (ok : env.OK t) (fs : t.FilterSound)
    {base : KV} {cs : List (List T)} {s s' : WSt T F} {m : Rows T} (hH : Holds t (base.apply s.ops) m)
    (hF : FilterCovers t s.filt m) (hnd : (cs.flatten.map t.pk).Nodup) (habs : ∀ x ∈ cs.flatten, m (t.pk x) = none)
    (he : forChunks (t.unsafeInsertLoop env) cs s = (s', none)) :
    Holds t (base.apply s'.ops) (m.putAll t.pk cs.flatten) ∧ SameOutside t (base.apply s.ops) (base.apply s'.ops) ∧
    FilterCovers t s'.filt (m.putAll t.pk cs.flatten) := by
  induction cs generalizing s m with
  | nil =>
    simp only [forChunks, Prod.mk.injEq, and_true] at he
    subst he
    exact ⟨hH, SameOutside.refl _ _, hF⟩
  | cons c cs ih =>
    rw [forChunks] at he
    rw [List.flatten_cons, List.map_append, List.nodup_append] at hnd
    split at he
    · rename_i s1 h1
      obtain ⟨a, b, cc⟩ := unsafeInsertLoop_ok wf ok fs hH hF hnd.1 (fun x hx => habs x (by simp [hx])) h1
      obtain ⟨a2, b2, c2⟩ := ih a cc hnd.2.1 (by
        intro y hy
        rw [putAll_other, habs y (by rw [List.flatten_cons]; exact List.mem_append.2 (Or.inr hy))]
        intro x hx
        exact hnd.2.2 _ (List.mem_map.2 ⟨x, hx, rfl⟩) _ (List.mem_map.2 ⟨y, hy, rfl⟩)) he
      rw [List.flatten_cons, putAll_append]
      exact ⟨a2, b.trans b2, c2⟩
    · simp at he

/-- pairs (new, old) given to UnsafeUpdate are truthful: each `old` is the row stored at that moment -/
def TruthfulOld (t : Table T F) : Rows T → List (T × T) → Prop
  | _, [] => True
  | m, (x, old) :: rest => m (t.pk x) = some old ∧ TruthfulOld t (m.put (t.pk x) x) rest

theorem unsafeUpdateLoop_ok {t : Table T F} (wf : t.WF) {env : Env T} (ok : env.OK t)
    {base : KV} {ps : List (T × T)} {s s' : WSt T F} {m : Rows T} (hH : Holds t (base.apply s.ops) m)
    (hF : FilterCovers t s.filt m) (htr : TruthfulOld t m ps)
    (he : t.unsafeUpdateLoop env ps s = (s', none)) :
    Holds t (base.apply s'.ops) (m.putAll t.pk (ps.map Prod.fst)) ∧
    SameOutside t (base.apply s.ops) (base.apply s'.ops) ∧ FilterCovers t s'.filt (m.putAll t.pk (ps.map Prod.fst)) := by
  induction ps generalizing s m with
  | nil =>
    simp only [Table.unsafeUpdateLoop, Prod.mk.injEq, and_true] at he
    subst he
    exact ⟨hH, SameOutside.refl _ _, hF⟩
  | cons p ps ih =>
    obtain ⟨x, old⟩ := p
    rw [Table.unsafeUpdateLoop] at he
    split at he
    · simp at he
    split at he
    · simp at he
    rename_i data hdata
    have hins := holds_update wf hH htr.1 hdata (ok.order s.clock)
    have h1 := hins.1
    have h2 := hins.2
    rw [← KV.apply_append] at h1 h2
    obtain ⟨a, b, c⟩ := ih (s := { s with ops := _, clock := _ }) h1 (filterCovers_put hF htr.1) htr.2 he
    exact ⟨a, h2.trans b, c⟩

end Bond
