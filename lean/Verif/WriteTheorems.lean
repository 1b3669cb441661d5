import Verif.StdEnv
/- Whole-call theorems behind the properties of Props/Writes.lean: for any slice size and any kind of batch. -/
namespace Bond
open Spec
variable {T F : Type}

/-- the batch can be read, or slices of the call share no key and the batch did not touch the keys (table.go:357-359) -/
def CallReads (t : Table T F) (db : KV) (ob : Option Batch) (bs : Nat) (trs : List T) : Prop :=
  (∃ b, ob = some b ∧ b.indexed = true) ∨
    (((trs.map t.pk).Nodup ∨ trs.length ≤ bs) ∧ ∀ x ∈ trs, db.get (t.key x) = (baseView db ob).get (t.key x))

theorem callReads_none {t : Table T F} {db : KV} {bs : Nat} {trs : List T}
    (h : (trs.map t.pk).Nodup ∨ trs.length ≤ bs) : CallReads t db none bs trs := Or.inr ⟨h, fun _ _ => rfl⟩

theorem putAll_filter (m : Rows T) (pk : T → Bytes) (xs : List T) (p : Bytes) :
    m.putAll pk xs p = ((xs.filter (fun x => decide (pk x = p))).getLast?).or (m p) := by
  induction xs generalizing m with
  | nil => simp [Rows.putAll]
  | cons x xs ih =>
    rw [putAll_cons, ih, put_apply, List.filter_cons]
    by_cases h : pk x = p
    · subst h
      simp only [decide_true, if_true, List.getLast?_cons]
      cases (xs.filter (fun y => decide (pk y = pk x))).getLast? <;> simp
    · rw [if_neg (fun e => h e.symm)]; simp [h]

theorem putAll_some (m : Rows T) (pk : T → Bytes) {xs : List T} {x : T} (hx : x ∈ xs) :
    ∃ y ∈ xs, pk y = pk x ∧ m.putAll pk xs (pk x) = some y := by
  rw [putAll_filter]
  cases h : (xs.filter (fun y => decide (pk y = pk x))).getLast? with
  | none =>
    rw [List.getLast?_eq_none_iff] at h
    have : x ∈ xs.filter (fun y => decide (pk y = pk x)) := List.mem_filter.2 ⟨hx, by simp⟩
    rw [h] at this; simp at this
  | some y =>
    have := List.mem_of_getLast? h
    obtain ⟨h1, h2⟩ := List.mem_filter.1 this
    exact ⟨y, h1, by simpa using h2, rfl⟩

theorem insert_view {t : Table T F} (wf : t.WF) {env : Env T} (ok : env.OK t) (fs : t.FilterSound) {bs : Nat} (hbs : 0 < bs)
    {db : KV} {f : F} {ob : Option Batch} {m : Rows T} {trs : List T} (hH : Holds t (baseView db ob) m)
    (hF : FilterCovers t f m) (hr : CallReads t db ob bs trs)
    (he : (t.insertBs bs env db f ob trs).err = none) :
    Holds t (t.insertBs bs env db f ob trs).view (m.putAll t.pk trs) ∧
    SameOutside t (baseView db ob) (t.insertBs bs env db f ob trs).view ∧
    FilterCovers t (t.insertBs bs env db f ob trs).filt (m.putAll t.pk trs) ∧
    (trs.map t.pk).Nodup ∧ ∀ x ∈ trs, m (t.pk x) = none := by
  unfold Table.insertBs at *
  obtain ⟨h1, h2⟩ := finish_ok he
  rw [h2, finish_filt]
  have hR := readsOK_of hbs hr
  have := insertChunks_ok wf ok fs (s := t.start f) hR (by simpa [Table.start, KV.apply_nil] using hH) hF
    (Prod.ext rfl h1)
  rw [batched_flatten trs hbs] at this
  exact this

theorem forChunks_complete {σ α : Type} {f : List α → σ → σ × Option Err} {P : List (List α) → σ → Prop}
    (hf : ∀ c cs s, P (c :: cs) s → (f c s).2 = none ∧ P cs (f c s).1) :
    ∀ cs s, P cs s → (forChunks f cs s).2 = none := by
  intro cs
  induction cs with
  | nil => intros; rfl
  | cons c cs ih =>
    intro s hP
    obtain ⟨h1, h2⟩ := hf c cs s hP
    rw [forChunks]
    split
    · rename_i s' h; rw [h] at h2; exact ih s' h2
    · rename_i s' e h; rw [h] at h1; simp at h1

theorem insertBody_complete {t : Table T F} (wf : t.WF) {env : Env T} (ok : env.OK t) (fs : t.FilterSound) {bs : Nat} (hbs : 0 < bs)
    {db : KV} {f : F} {ob : Option Batch} {m : Rows T} {trs : List T} (hH : Holds t (baseView db ob) m)
    (hF : FilterCovers t f m) (hr : CallReads t db ob bs trs)
    (hdone : ∀ n, env.done n = false) (hser : ∀ x ∈ trs, (t.ser x).isSome)
    (hnd : (trs.map t.pk).Nodup) (habs : ∀ x ∈ trs, m (t.pk x) = none) :
    (forChunks (t.insertChunk env db ob) (batched trs bs) { ops := [], filt := f, clock := 0, oldTr := t.nil }).2 = none := by
  have hfl := batched_flatten trs hbs
  rw [← hfl] at hser hnd habs
  refine forChunks_complete (P := fun cs s => ∃ m, ReadsOK t db (baseView db ob) ob s.ops cs ∧
    Holds t ((baseView db ob).apply s.ops) m ∧ FilterCovers t s.filt m ∧ (∀ x ∈ cs.flatten, (t.ser x).isSome) ∧
    (cs.flatten.map t.pk).Nodup ∧ ∀ x ∈ cs.flatten, m (t.pk x) = none) ?_ _ _
    ⟨m, readsOK_of hbs hr, by simpa [KV.apply_nil] using hH, hF, hser, hnd, habs⟩
  rintro c cs s ⟨m, h1, h2, h3, h4, h5, h6⟩
  rw [List.flatten_cons, List.map_append, List.nodup_append] at h5
  simp only [List.flatten_cons, List.mem_append] at h4 h6
  have hc1 : (t.insertChunk env db ob c s).2 = none := by
    apply insertChunk_complete ok hdone (fun r hr => h4 r (Or.inl hr)) ?_ h5.1
    intro r hr
    rw [h1.head r hr]
    exact h2.absent _ (h6 r (Or.inl hr))
  refine ⟨hc1, m.putAll t.pk c, ?_⟩
  obtain ⟨a, _, c', d, e⟩ := insertChunk_ok wf ok fs h1.head h2 h3 (s' := (t.insertChunk env db ob c s).1) (Prod.ext rfl hc1)
  refine ⟨h1.tail h2 a (fun p hp => putAll_other _ _ _ _ hp), a, c', fun x hx => h4 x (Or.inr hx), h5.2.1, ?_⟩
  intro x hx
  rw [putAll_other, h6 x (Or.inr hx)]
  intro y hy
  exact h5.2.2 _ (List.mem_map.2 ⟨y, hy, rfl⟩) _ (List.mem_map.2 ⟨x, hx, rfl⟩)

theorem insert_complete {t : Table T F} (wf : t.WF) {env : Env T} (ok : env.OK t) (fs : t.FilterSound) {bs : Nat} (hbs : 0 < bs)
    {db : KV} {f : F} {ob : Option Batch} {m : Rows T} {trs : List T} (hH : Holds t (baseView db ob) m)
    (hF : FilterCovers t f m) (hr : CallReads t db ob bs trs)
    (hdone : ∀ n, env.done n = false) (hc : env.commitOk = true) (hser : ∀ x ∈ trs, (t.ser x).isSome)
    (hnd : (trs.map t.pk).Nodup) (habs : ∀ x ∈ trs, m (t.pk x) = none) :
    (t.insertBs bs env db f ob trs).err = none :=
  finish_complete (insertBody_complete wf ok fs hbs hH hF hr hdone hser hnd habs) hc

theorem update_view {t : Table T F} (wf : t.WF) {env : Env T} (ok : env.OK t) (rt : t.RoundTrip) {bs : Nat} (hbs : 0 < bs)
    {db : KV} {f : F} {ob : Option Batch} {m : Rows T} {trs : List T} (hH : Holds t (baseView db ob) m)
    (hF : FilterCovers t f m) (hr : CallReads t db ob bs trs)
    (he : (t.updateBs bs env db f ob trs).err = none) :
    Holds t (t.updateBs bs env db f ob trs).view (m.putAll t.pk (visited t env (batched trs bs))) ∧
    SameOutside t (baseView db ob) (t.updateBs bs env db f ob trs).view ∧
    FilterCovers t (t.updateBs bs env db f ob trs).filt (m.putAll t.pk (visited t env (batched trs bs))) ∧
    ∀ x ∈ trs, (m (t.pk x)).isSome := by
  unfold Table.updateBs at *
  obtain ⟨h1, h2⟩ := finish_ok he
  rw [h2, finish_filt]
  have hR := readsOK_of hbs hr
  have := updateChunks_ok wf ok rt (s := t.start f) hR (by simpa [Table.start, KV.apply_nil] using hH) hF
    (Prod.ext rfl h1)
  rw [batched_flatten trs hbs] at this
  exact this

theorem update_complete {t : Table T F} (wf : t.WF) {env : Env T} (ok : env.OK t) (rt : t.RoundTrip) {bs : Nat} (hbs : 0 < bs)
    {db : KV} {f : F} {ob : Option Batch} {m : Rows T} {trs : List T} (hH : Holds t (baseView db ob) m)
    (hF : FilterCovers t f m) (hr : CallReads t db ob bs trs)
    (hdone : ∀ n, env.done n = false) (hc : env.commitOk = true) (hser : ∀ x ∈ trs, (t.ser x).isSome)
    (hpres : ∀ x ∈ trs, (m (t.pk x)).isSome) :
    (t.updateBs bs env db f ob trs).err = none := by
  unfold Table.updateBs
  apply finish_complete _ hc
  have hfl := batched_flatten trs hbs
  rw [← hfl] at hser hpres
  refine forChunks_complete (P := fun cs s => ∃ m, ReadsOK t db (baseView db ob) ob s.ops cs ∧
    Holds t ((baseView db ob).apply s.ops) m ∧ FilterCovers t s.filt m ∧ (∀ x ∈ cs.flatten, (t.ser x).isSome) ∧
    ∀ x ∈ cs.flatten, (m (t.pk x)).isSome) ?_ _ _
    ⟨m, readsOK_of hbs hr, by simpa [KV.apply_nil] using hH, hF, hser, hpres⟩
  rintro c cs s ⟨m, h1, h2, h3, h4, h6⟩
  simp only [List.flatten_cons, List.mem_append] at h4 h6
  have hc1 : (t.updateChunk env db ob c s).2 = none := by
    apply updateChunk_complete ok hdone (fun r hr => h4 r (Or.inl hr))
    intro r hr
    have h7 := h6 r (Or.inl hr)
    cases hm : m (t.pk r) with
    | none => simp [hm] at h7
    | some old =>
      obtain ⟨b, hb, hg⟩ := h2.present _ _ hm
      exact ⟨b, by rw [h1.head r hr]; exact hg, fun o => by rw [rt old b hb o]; rfl⟩
  have hp := (describes_sort t env ok c).2
  refine ⟨hc1, m.putAll t.pk (sortedRows t env c), ?_⟩
  obtain ⟨a, _, c', d⟩ := updateChunk_ok wf ok rt h1.head h2 h3 (s' := (t.updateChunk env db ob c s).1) (Prod.ext rfl hc1)
  refine ⟨h1.tail h2 a (fun p hq => putAll_other _ _ _ _ (fun x hx => hq x (hp.mem_iff.1 hx))), a, c',
    fun x hx => h4 x (Or.inr hx), ?_⟩
  intro x hx
  by_cases hy : ∃ y ∈ sortedRows t env c, t.pk y = t.pk x
  · obtain ⟨y, hy, e⟩ := hy
    obtain ⟨z, _, _, hz⟩ := putAll_some m t.pk hy
    rw [← e, hz]; rfl
  · rw [putAll_other]
    · exact h6 x (Or.inr hx)
    · intro y hy' e; exact hy ⟨y, hy', e⟩

/-- a stable sort keeps, for every key, the order of the records with that key -/
theorem sortedRows_filter {t : Table T F} {env : Env T} (ok : env.OK t) (st : env.Stable) (trs : List T) (p : Bytes) :
    (sortedRows t env trs).filter (fun x => decide (t.pk x = p)) = trs.filter (fun x => decide (t.pk x = p)) := by
  let P : Nat → Bool := fun j => match trs[j]? with | some x => decide (t.pk x = p) | none => false
  have hfm : ∀ l : List Nat, (l.filterMap (fun j => trs[j]?)).filter (fun x => decide (t.pk x = p)) =
      (l.filter P).filterMap (fun j => trs[j]?) := by
    intro l
    induction l with
    | nil => rfl
    | cons j l ih =>
      rw [List.filterMap_cons, List.filter_cons]
      cases hj : trs[j]? with
      | none => simp only [P, hj, Bool.false_eq_true, if_false]; exact ih
      | some x =>
        simp only [P, hj, List.filter_cons]
        by_cases hx : t.pk x = p
        · simp only [hx, decide_true, if_true, List.filterMap_cons, hj]; rw [ih]
        · simp only [hx, decide_false, Bool.false_eq_true, if_false]; exact ih
  have hall : (List.range trs.length).filterMap (fun j => trs[j]?) = trs := by
    clear hfm P
    induction trs with
    | nil => rfl
    | cons x xs ih =>
      rw [List.length_cons, List.range_succ_eq_map, List.filterMap_cons, List.filterMap_map]
      simp only [List.getElem?_cons_zero, List.cons.injEq, true_and]
      exact ih
  have hp := ok.sort_perm (trs.map t.key)
  rw [List.length_map] at hp
  have heq : (env.sort (trs.map t.key)).filter P = (List.range trs.length).filter P := by
    apply List.Perm.eq_of_pairwise (le := fun a b => a < b) (fun a b _ _ h1 h2 => by omega) ?_ ?_ (hp.filter P)
    · have hkey : ∀ a, P a = true → (trs.map t.key).getD a [] = dataKey t.id p := by
        intro a ha
        simp only [P] at ha
        cases hx : trs[a]? with
        | none => simp [hx] at ha
        | some x => simp [hx] at ha; simp [List.getD, hx, Table.key, ha]
      have h1 := (st (trs.map t.key)).filter P
      refine List.Pairwise.imp_of_mem ?_ h1
      intro a b ha hb hab
      exact hab ((hkey a (List.mem_filter.1 ha).2).trans (hkey b (List.mem_filter.1 hb).2).symm)
    · exact (List.pairwise_lt_range).filter P
  calc (sortedRows t env trs).filter (fun x => decide (t.pk x = p))
      = ((env.sort (trs.map t.key)).filter P).filterMap (fun j => trs[j]?) := hfm _
    _ = ((List.range trs.length).filter P).filterMap (fun j => trs[j]?) := by rw [heq]
    _ = ((List.range trs.length).filterMap (fun j => trs[j]?)).filter (fun x => decide (t.pk x = p)) := (hfm _).symm
    _ = _ := by rw [hall]

theorem visited_filter {t : Table T F} {env : Env T} (ok : env.OK t) (st : env.Stable) (cs : List (List T)) (p : Bytes) :
    (visited t env cs).filter (fun x => decide (t.pk x = p)) = cs.flatten.filter (fun x => decide (t.pk x = p)) := by
  induction cs with
  | nil => rfl
  | cons c cs ih =>
    rw [visited, List.flatMap_cons, List.filter_append, List.flatten_cons, List.filter_append, sortedRows_filter ok st]
    exact congrArg _ ih

theorem putAll_visited_stable {t : Table T F} {env : Env T} (ok : env.OK t) (st : env.Stable) {bs : Nat} (hbs : 0 < bs)
    (m : Rows T) (trs : List T) : m.putAll t.pk (visited t env (batched trs bs)) = m.putAll t.pk trs := by
  funext p
  rw [putAll_filter, visited_filter ok st, batched_flatten trs hbs, ← putAll_filter]

theorem putAll_visited_nodup {t : Table T F} {env : Env T} (ok : env.OK t) {bs : Nat} (hbs : 0 < bs)
    (m : Rows T) {trs : List T} (hnd : (trs.map t.pk).Nodup) :
    m.putAll t.pk (visited t env (batched trs bs)) = m.putAll t.pk trs := by
  have hp := visited_perm t ok (batched trs bs)
  rw [batched_flatten trs hbs] at hp
  exact putAll_perm t.pk hp ((hp.map t.pk).nodup_iff.2 hnd) m

theorem upsert_view {t : Table T F} (wf : t.WF) {env : Env T} (ok : env.OK t) (rt : t.RoundTrip) (fs : t.FilterSound)
    {bs : Nat} (hbs : 0 < bs) {db : KV} {f : F} {ob : Option Batch} {m : Rows T} {oc : Table.OnConflict T}
    (hoc : OnConflictOK t oc) {trs : List T} (hnd : (trs.map t.pk).Nodup) (hH : Holds t (baseView db ob) m)
    (hF : FilterCovers t f m) (hr : CallReads t db ob bs trs)
    (he : (t.upsertBs bs env db f ob oc trs).err = none) :
    Holds t (t.upsertBs bs env db f ob oc trs).view (m.upsertAll t.pk (fun o x => (oc o x).1) trs) ∧
    SameOutside t (baseView db ob) (t.upsertBs bs env db f ob oc trs).view ∧
    FilterCovers t (t.upsertBs bs env db f ob oc trs).filt (m.upsertAll t.pk (fun o x => (oc o x).1) trs) := by
  unfold Table.upsertBs at *
  obtain ⟨h1, h2⟩ := finish_ok he
  rw [h2, finish_filt]
  have hR := readsOK_of hbs hr
  have := upsertChunks_ok wf ok rt fs hoc (s := t.start f) (by rw [batched_flatten trs hbs]; exact hnd) hR
    (by simpa [Table.start, KV.apply_nil] using hH) hF (Prod.ext rfl h1)
  rw [batched_flatten trs hbs] at this
  exact this

theorem upsert_complete {t : Table T F} (wf : t.WF) {env : Env T} (ok : env.OK t) (rt : t.RoundTrip) (fs : t.FilterSound)
    {bs : Nat} (hbs : 0 < bs) {db : KV} {f : F} {ob : Option Batch} {m : Rows T} {oc : Table.OnConflict T}
    (hoc : OnConflictOK t oc) {trs : List T} (hnd : (trs.map t.pk).Nodup) (hH : Holds t (baseView db ob) m)
    (hF : FilterCovers t f m) (hr : CallReads t db ob bs trs)
    (hdone : ∀ n, env.done n = false) (hc : env.commitOk = true) (hser : ∀ x, (t.ser x).isSome) :
    (t.upsertBs bs env db f ob oc trs).err = none := by
  unfold Table.upsertBs
  apply finish_complete _ hc
  have hfl := batched_flatten trs hbs
  rw [← hfl] at hnd
  refine forChunks_complete (P := fun cs s => ∃ m, ReadsOK t db (baseView db ob) ob s.ops cs ∧
    Holds t ((baseView db ob).apply s.ops) m ∧ FilterCovers t s.filt m ∧ (cs.flatten.map t.pk).Nodup) ?_ _ _
    ⟨m, readsOK_of hbs hr, by simpa [KV.apply_nil] using hH, hF, hnd⟩
  rintro c cs s ⟨m, h1, h2, h3, h5⟩
  rw [List.flatten_cons, List.map_append, List.nodup_append] at h5
  obtain ⟨hd, hp⟩ := describes_sort t env ok c
  have hndc := (hp.map t.pk).nodup_iff.2 h5.1
  have hc1 : (t.upsertChunk env db ob oc c s).2 = none := by
    apply upsertLoop_complete hd hdone hser hndc (sortedRows_lo t ok c)
    intro r hr b hb o
    have hr' := hp.mem_iff.1 hr
    rw [h1.head r hr'] at hb
    cases hm : m (t.pk r) with
    | none => rw [show t.key r = dataKey t.id (t.pk r) from rfl, h2.absent _ hm] at hb; simp at hb
    | some old =>
      obtain ⟨b', hb', hg⟩ := h2.present _ _ hm
      rw [show t.key r = dataKey t.id (t.pk r) from rfl, hg] at hb
      simp only [Option.some.injEq] at hb
      subst hb
      rw [rt old b' hb' o]; rfl
  refine ⟨hc1, m.upsertAll t.pk (fun o x => (oc o x).1) c, ?_⟩
  obtain ⟨a, _, c'⟩ := upsertLoop_ok (base := baseView db ob) wf ok rt fs hoc hd (Nat.le_refl _) hndc (sortedRows_lo t ok c)
    (fun r hr' => h1.head r (hp.mem_iff.1 hr')) h2 h3 (s' := (t.upsertChunk env db ob oc c s).1) (Prod.ext rfl hc1)
  rw [upsertAll_perm m _ _ hp hndc] at a c'
  exact ⟨h1.tail h2 a (fun p hq => upsertAll_other _ _ _ _ _ hq), a, c', h5.2.1⟩

theorem delete_view {t : Table T F} (wf : t.WF) {env : Env T} (ok : env.OK t)
    {db : KV} {f : F} {ob : Option Batch} {m : Rows T} {trs : List T} (hH : Holds t (baseView db ob) m)
    (hF : FilterCovers t f m)
    (hsame : ∀ x ∈ trs, ∀ old, m (t.pk x) = some old → ∀ idx ∈ t.indexes,
      idx.filter old = true → idx.filter x = true ∧ t.indexKey idx x = t.indexKey idx old)
    (he : (t.delete env db f ob trs).err = none) :
    Holds t (t.delete env db f ob trs).view (m.eraseAll (trs.map t.pk)) ∧
    SameOutside t (baseView db ob) (t.delete env db f ob trs).view ∧
    FilterCovers t (t.delete env db f ob trs).filt (m.eraseAll (trs.map t.pk)) := by
  unfold Table.delete at *
  obtain ⟨h1, h2⟩ := finish_ok he
  rw [h2, finish_filt]
  exact deleteLoop_ok wf ok (s := t.start f) (by simpa [Table.start, KV.apply_nil] using hH) hF hsame (Prod.ext rfl h1)

theorem unsafeInsert_view {t : Table T F} (wf : t.WF) {env : Env T} (ok : env.OK t) (fs : t.FilterSound) {bs : Nat} (hbs : 0 < bs)
    {db : KV} {f : F} {ob : Option Batch} {m : Rows T} {trs : List T} (hH : Holds t (baseView db ob) m)
    (hF : FilterCovers t f m) (hnd : (trs.map t.pk).Nodup) (habs : ∀ x ∈ trs, m (t.pk x) = none)
    (he : (t.unsafeInsertBs bs env db f ob trs).err = none) :
    Holds t (t.unsafeInsertBs bs env db f ob trs).view (m.putAll t.pk trs) ∧
    SameOutside t (baseView db ob) (t.unsafeInsertBs bs env db f ob trs).view ∧
    FilterCovers t (t.unsafeInsertBs bs env db f ob trs).filt (m.putAll t.pk trs) := by
  unfold Table.unsafeInsertBs at *
  obtain ⟨h1, h2⟩ := finish_ok he
  rw [h2, finish_filt]
  have hfl := batched_flatten trs hbs
  have := unsafeInsertChunks_ok wf ok fs (base := baseView db ob) (s := t.start f) (cs := batched trs bs)
    (by simpa [Table.start, KV.apply_nil] using hH) hF (by rw [hfl]; exact hnd) (by rw [hfl]; exact habs) (Prod.ext rfl h1)
  rw [hfl] at this
  exact this

theorem unsafeUpdate_view {t : Table T F} (wf : t.WF) {env : Env T} (ok : env.OK t)
    {db : KV} {f : F} {ob : Option Batch} {m : Rows T} {trs olds : List T} (hH : Holds t (baseView db ob) m)
    (hF : FilterCovers t f m) (htr : TruthfulOld t m (trs.zip olds))
    (he : (t.unsafeUpdate env db f ob trs olds).err = none) :
    Holds t (t.unsafeUpdate env db f ob trs olds).view (m.putAll t.pk trs) ∧
    SameOutside t (baseView db ob) (t.unsafeUpdate env db f ob trs olds).view ∧
    FilterCovers t (t.unsafeUpdate env db f ob trs olds).filt (m.putAll t.pk trs) := by
  unfold Table.unsafeUpdate at *
  split at he
  · simp at he
  rename_i hlen
  rw [if_neg hlen]
  obtain ⟨h1, h2⟩ := finish_ok he
  rw [h2, finish_filt]
  have := unsafeUpdateLoop_ok wf ok (base := baseView db ob) (s := t.start f) (ps := trs.zip olds)
    (by simpa [Table.start, KV.apply_nil] using hH) hF htr (Prod.ext rfl h1)
  rw [List.map_fst_zip (by omega)] at this
  exact this

end Bond
