import Verif.UpsertExact
/-
C16: exactly what Upsert stores, for any rows in any order, with repeated keys.
-/
namespace Bond
open Spec
variable {T F : Type}

/-- The given rows that Upsert folds into the record of key `p`: the first row with that key, and then, for every repetition,
the next row after the position that the key has among all the keys in order. -/
def Spec.upsertTaken (pk : T → Bytes) (trs : List T) (p : Bytes) : List T :=
  match trs.find? (fun x => decide (pk x = p)) with
  | none => []
  | some x => x :: (trs.drop (trs.countP (fun y => blt (pk y) p) + 1)).take (trs.countP (fun y => decide (pk y = p)) - 1)

/-- the given rows in groups of 5000 -/
def Spec.groups (trs : List T) : List (List T) :=
  (List.range ((trs.length + 4999) / 5000)).map (fun n => (trs.drop (n * 5000)).take 5000)

theorem batchedLoop_range {α : Type} (items : List α) (fuel k : Nat) (hf : items.length ≤ fuel + k * 5000) :
    batchedLoop items 5000 fuel k =
      (List.range' k ((items.length + 4999) / 5000 - k)).map (fun n => (items.drop (n * 5000)).take 5000) := by
  induction fuel generalizing k with
  | zero =>
    rw [show (items.length + 4999) / 5000 - k = 0 by omega]
    rfl
  | succ fuel ih =>
    unfold batchedLoop
    split
    · rename_i hlt
      rw [show (items.length + 4999) / 5000 - k = ((items.length + 4999) / 5000 - (k + 1)) + 1 by omega, List.range'_succ, List.map_cons,
        ih (k + 1) (by omega)]
      congr 1
      simp only
      split
      · rename_i hgt
        rw [show items.length % 5000 = items.length - k * 5000 by omega, show k * 5000 + (items.length - k * 5000) = items.length by omega,
          List.take_length, List.take_of_length_le (by rw [List.length_drop]; omega)]
      · rw [List.drop_take, show k * 5000 + 5000 - k * 5000 = 5000 by omega]
    · rw [show (items.length + 4999) / 5000 - k = 0 by omega]
      rfl

theorem batched_groups (trs : List T) : batched trs persistentBatchSize = groups trs := by
  show batchedLoop trs 5000 trs.length 0 = _
  rw [batchedLoop_range _ _ _ (by omega)]
  unfold groups
  rw [List.range_eq_range']
  rfl

theorem sortKeys_idx {t : Table T F} {env : Env T} (ok : env.OK t) {trs : List T} :
    (∀ e ∈ sortKeys env (trs.map t.key), ∃ r, trs[e.2]? = some r ∧ e.1 = t.key r) ∧
    ((sortKeys env (trs.map t.key)).map Prod.fst).Perm (trs.map t.key) ∧ (sortKeys env (trs.map t.key)).length = trs.length := by
  obtain ⟨hd, hp⟩ := describes_sort t env ok trs
  have hpk : ((sortKeys env (trs.map t.key)).map Prod.fst).Perm (trs.map t.key) := by rw [hd.keys]; exact hp.map _
  refine ⟨?_, hpk, by simpa using hpk.length_eq⟩
  clear hpk hp
  revert hd
  generalize sortKeys env (trs.map t.key) = items
  generalize sortedRows t env trs = rs
  intro hd
  induction hd with
  | nil => simp
  | @cons e r items rs h _ ih =>
    intro e' he'
    rcases List.mem_cons.1 he' with rfl | he'
    · exact ⟨r, h⟩
    · exact ih e' he'

/-- whatever the sort does with equal keys, one row with the key comes first -/
theorem foldedAt_sort {t : Table T F} {env : Env T} (ok : env.OK t) (trs : List T) (p : Bytes) :
    (foldedAt trs (sortKeys env (trs.map t.key)) 0 (dataKey t.id p) = [] ∧ ∀ x ∈ trs, t.pk x ≠ p) ∨
    ∃ (e : Bytes × Nat) (x : T) (r : List (Bytes × Nat)),
      (sortKeys env (trs.map t.key)).dropWhile (fun e => decide (e.1 ≠ dataKey t.id p)) = e :: r ∧
      trs[e.2]? = some x ∧ t.pk x = p ∧ foldedAt trs (sortKeys env (trs.map t.key)) 0 (dataKey t.id p) =
        x :: (trs.drop (trs.countP (fun y => blt (t.pk y) p) + 1)).take (trs.countP (fun y => decide (t.pk y = p)) - 1) := by
  obtain ⟨hdesc, hperm, _⟩ := sortKeys_idx (t := t) ok (trs := trs)
  have hsort := sortKeys_sorted t env ok (trs.map t.key)
  cases hd : (sortKeys env (trs.map t.key)).dropWhile (fun e => decide (e.1 ≠ dataKey t.id p)) with
  | nil =>
    left
    refine ⟨by unfold foldedAt; rw [hd], ?_⟩
    intro x hx e
    have hm : t.key x ∈ (sortKeys env (trs.map t.key)).map Prod.fst := hperm.mem_iff.2 (List.mem_map_of_mem hx)
    obtain ⟨a, ha, hak⟩ := List.mem_map.1 hm
    have hall : ∀ (l : List (Bytes × Nat)), l.dropWhile (fun e => decide (e.1 ≠ dataKey t.id p)) = [] → ∀ a ∈ l, a.1 ≠ dataKey t.id p := by
      intro l
      induction l with
      | nil => simp
      | cons b l ih =>
        intro h a ha
        rw [List.dropWhile_cons] at h
        split at h
        · rename_i hb
          rcases List.mem_cons.1 ha with rfl | ha
          · simpa using hb
          · exact ih h a ha
        · cases h
    apply hall _ hd a ha
    rw [hak]; unfold Table.key; rw [e]
  | cons e r =>
    right
    obtain ⟨h1, h2, h3⟩ := sorted_group _ hsort e r hd
    have hem : e ∈ sortKeys env (trs.map t.key) := (List.dropWhile_sublist _).subset (by rw [hd]; simp)
    obtain ⟨x, hx, hxk⟩ := hdesc e hem
    refine ⟨e, x, r, rfl, hx, (dataKey_inj (hxk.symm.trans h1)).2, ?_⟩
    rw [hperm.countP_eq, List.countP_map] at h2 h3
    unfold foldedAt
    rw [hd]
    simp only
    rw [hx, h2]
    have c1 : trs.countP ((fun a => blt a (dataKey t.id p)) ∘ t.key) = trs.countP (fun y => blt (t.pk y) p) := by
      apply List.countP_congr
      intro y _
      simp only [Function.comp_apply]
      rw [show t.key y = dataKey t.id (t.pk y) from rfl, dataKey_lt]
    have c2 : trs.countP ((fun a => decide (a = dataKey t.id p)) ∘ t.key) = trs.countP (fun y => decide (t.pk y = p)) := by
      apply List.countP_congr
      intro y _
      simp only [Function.comp_apply, decide_eq_true_eq]
      constructor
      · intro h; exact (dataKey_inj h).2
      · intro h; unfold Table.key; rw [h]
    rw [c1, show (r.takeWhile (fun e => decide (e.1 = dataKey t.id p))).length = trs.countP (fun y => decide (t.pk y = p)) - 1 by omega, Nat.zero_add]
    rfl

theorem foldedAt_stable {t : Table T F} {env : Env T} (ok : env.OK t) (st : env.Stable) (trs : List T) (p : Bytes) :
    foldedAt trs (sortKeys env (trs.map t.key)) 0 (dataKey t.id p) = upsertTaken t.pk trs p := by
  unfold upsertTaken
  rcases foldedAt_sort ok trs p with ⟨h1, h2⟩ | ⟨e, x, r, hd, hx, hp, h1⟩
  · rw [h1, List.find?_eq_none.2 (fun x hx => by simpa using h2 x hx)]
  · have hf : trs.find? (fun x => decide (t.pk x = p)) = some x := by
      obtain ⟨hlt, hxe⟩ := List.getElem?_eq_some_iff.1 hx
      rw [List.find?_eq_some_iff_getElem]
      refine ⟨by simpa using hp, e.2, hlt, hxe, ?_⟩
      intro j hj
      have hjl : j < trs.length := by omega
      simp only [Bool.not_eq_true', decide_eq_false_iff_not]
      intro hjp
      -- position `j` stands before `e.2` in a stable order
      have hjm : j ∈ env.sort (trs.map t.key) := (ok.sort_perm _).mem_iff.2 (by simpa using hjl)
      have hkj : (trs.map t.key).getD j [] = dataKey t.id p := by
        simp [List.getD_eq_getElem?_getD, List.getElem?_eq_getElem hjl, Table.key, hjp]
      have hke : (trs.map t.key).getD e.2 [] = dataKey t.id p := by
        simp [List.getD_eq_getElem?_getD, hx, Table.key, hp]
      have hst := st (trs.map t.key)
      unfold sortKeys at hd
      have gen : ∀ (l : List Nat) (r : List (Bytes × Nat)), l.Pairwise (fun a b => (trs.map t.key).getD a [] = (trs.map t.key).getD b [] → a < b) →
          (l.map (fun j => ((trs.map t.key).getD j [], j))).dropWhile (fun e => decide (e.1 ≠ dataKey t.id p)) = e :: r → j ∈ l → e.2 ≤ j := by
        intro l
        induction l with
        | nil => simp
        | cons a l ih =>
          intro r hpw hdw hm
          rw [List.pairwise_cons] at hpw
          rw [List.map_cons, List.dropWhile_cons] at hdw
          split at hdw
          · rename_i ha
            rcases List.mem_cons.1 hm with rfl | hm
            · simp only [hkj, ne_eq, not_true_eq_false, decide_false, Bool.false_eq_true] at ha
            · exact ih r hpw.2 hdw hm
          · rename_i ha
            rw [List.cons.injEq] at hdw
            obtain ⟨rfl, _⟩ := hdw
            rcases List.mem_cons.1 hm with rfl | hm
            · exact Nat.le_refl _
            · exact Nat.le_of_lt (hpw.1 j hm (by rw [hkj]; exact hke))
      have := gen _ r hst hd hjm
      omega
    rw [h1, hf]

theorem upsertChunk_exact {t : Table T F} (wf : t.WF) {env : Env T} (ok : env.OK t) (rt : t.RoundTrip) (fs : t.FilterSound)
    {oc : Table.OnConflict T} {db base : KV} {ob : Option Batch} {trs : List T} {s s' : WSt T F} {m0 m : Rows T}
    (hR : DataIs t (readView db ob s.ops) m0) (hD : DataIs t (base.apply s.ops) m) (hF0 : FilterCovers t s.filt m0) (hF : FilterCovers t s.filt m)
    (he : t.upsertChunk env db ob oc trs s = (s', none)) :
    DataIs t (base.apply s'.ops) (putFolded (fun o x => (oc o x).1) m0 m (fun p => foldedAt trs (sortKeys env (trs.map t.key)) 0 (dataKey t.id p))) ∧
    FilterCovers t s'.filt (putFolded (fun o x => (oc o x).1) m0 m (fun p => foldedAt trs (sortKeys env (trs.map t.key)) 0 (dataKey t.id p))) ∧
    FilterCovers t s'.filt m0 := by
  obtain ⟨hdesc, _, hlen⟩ := sortKeys_idx (t := t) ok (trs := trs)
  have hsort := sortKeys_sorted t env ok (trs.map t.key)
  exact upsertLoop_exact wf ok rt fs hR _ 0 _ (Nat.le_refl _) (by omega) hsort
    (fun e he => sorted_headD hsort e.1 (List.mem_map_of_mem he)) hdesc hD hF0 hF he

theorem upsertChunks_exact {t : Table T F} (wf : t.WF) {env : Env T} (ok : env.OK t) (st : env.Stable) (rt : t.RoundTrip) (fs : t.FilterSound)
    {oc : Table.OnConflict T} {db : KV} {m0 : Rows T} (hR : DataIs t db m0) (cs : List (List T)) :
    ∀ {s s' : WSt T F} {m : Rows T}, DataIs t (db.apply s.ops) m → FilterCovers t s.filt m0 → FilterCovers t s.filt m →
    forChunks (t.upsertChunk env db none oc) cs s = (s', none) →
    DataIs t (db.apply s'.ops) (cs.foldl (fun acc c => putFolded (fun o x => (oc o x).1) m0 acc (upsertTaken t.pk c)) m) := by
  induction cs with
  | nil => intro s s' m hD _ _ he; simp only [forChunks, Prod.mk.injEq, and_true] at he; subst he; exact hD
  | cons c cs ih =>
    intro s s' m hD hF0 hF he
    rw [forChunks] at he
    split at he
    · rename_i s1 h1
      obtain ⟨a, b, d⟩ := upsertChunk_exact wf ok rt fs (ob := none) hR hD hF0 hF h1
      simp only [foldedAt_stable ok st] at a b
      exact ih a d b he
    · simp at he

theorem upsertChunks_exact_batch {t : Table T F} (wf : t.WF) {env : Env T} (ok : env.OK t) (st : env.Stable) (rt : t.RoundTrip) (fs : t.FilterSound)
    {oc : Table.OnConflict T} {db : KV} {b : Batch} (hb : b.indexed = true) (cs : List (List T)) :
    ∀ {s s' : WSt T F} {m : Rows T}, DataIs t ((db.apply b.ops).apply s.ops) m → FilterCovers t s.filt m →
    forChunks (t.upsertChunk env db (some b) oc) cs s = (s', none) →
    DataIs t ((db.apply b.ops).apply s'.ops) (cs.foldl (fun acc c => putFolded (fun o x => (oc o x).1) acc acc (upsertTaken t.pk c)) m) := by
  induction cs with
  | nil => intro s s' m hD _ he; simp only [forChunks, Prod.mk.injEq, and_true] at he; subst he; exact hD
  | cons c cs ih =>
    intro s s' m hD hF he
    rw [forChunks] at he
    split at he
    · rename_i s1 h1
      have hR : DataIs t (readView db (some b) s.ops) m := by
        simp only [readView, hb, if_true, KV.apply_append]; exact hD
      obtain ⟨a, d, _⟩ := upsertChunk_exact wf ok rt fs hR hD hF hF h1
      simp only [foldedAt_stable ok st] at a d
      exact ih a d he
    · simp at he

/-- C16, exactly: the record stored under every key after a successful Upsert of any rows. Every group of 5000 rows folds, for each
key in it, the rows `upsertTaken` into the record that was stored before the call; the last group with the key decides.
No condition on the function for conflicts, on the order of the rows or on repetitions. -/
theorem C16_exact {t : Table T F} (wf : t.WF) {env : Env T} (ok : env.OK t) (st : env.Stable) (rt : t.RoundTrip) (fs : t.FilterSound)
    {db : KV} {f : F} {m : Rows T} {oc : Table.OnConflict T} {trs : List T} (hD : DataIs t db m) (hF : FilterCovers t f m)
    (he : (t.upsert env db f none oc trs).err = none) :
    DataIs t (t.upsert env db f none oc trs).db
      ((groups trs).foldl (fun acc c => putFolded (fun o x => (oc o x).1) m acc (upsertTaken t.pk c)) m) := by
  unfold Table.upsert Table.upsertBs at he ⊢
  obtain ⟨h1, h2⟩ := finish_ok he
  have hb := finish_nobatch (env := env) (db := db)
    (r := forChunks (t.upsertChunk env db none oc) (batched trs persistentBatchSize) { ops := [], filt := f, clock := 0, oldTr := t.nil })
  simp only [WOut.view, hb, baseView] at h2
  rw [h2, ← batched_groups]
  exact upsertChunks_exact wf ok st rt fs hD _ (s := { ops := [], filt := f, clock := 0, oldTr := t.nil }) (by simpa [KV.apply_nil] using hD) hF hF
    (Prod.ext rfl h1)

/-- C16, exactly, through a read-write batch: here every group sees the groups before it. -/
theorem C16_exact_batch {t : Table T F} (wf : t.WF) {env : Env T} (ok : env.OK t) (st : env.Stable) (rt : t.RoundTrip) (fs : t.FilterSound)
    {db : KV} {b : Batch} (hb : b.indexed = true) {f : F} {m : Rows T} {oc : Table.OnConflict T} {trs : List T} (hD : DataIs t (db.apply b.ops) m)
    (hF : FilterCovers t f m) (he : (t.upsert env db f (some b) oc trs).err = none) :
    DataIs t (t.upsert env db f (some b) oc trs).view
      ((groups trs).foldl (fun acc c => putFolded (fun o x => (oc o x).1) acc acc (upsertTaken t.pk c)) m) := by
  unfold Table.upsert Table.upsertBs at he ⊢
  obtain ⟨h1, h2⟩ := finish_ok he
  rw [h2, ← batched_groups]
  exact upsertChunks_exact_batch wf ok st rt fs hb _ (s := { ops := [], filt := f, clock := 0, oldTr := t.nil }) (by simpa [KV.apply_nil] using hD) hF
    (Prod.ext rfl h1)

/-- C16, exactly, when the sort may reorder equal keys (more than 12 rows): one of the rows with the key comes first, the
others folded in are the same as above. -/
theorem C16_exact_unstable {t : Table T F} (wf : t.WF) {env : Env T} (ok : env.OK t) (rt : t.RoundTrip) (fs : t.FilterSound)
    {db : KV} {f : F} {m : Rows T} {oc : Table.OnConflict T} {trs : List T} (hlen : trs.length ≤ 5000) (hD : DataIs t db m) (hF : FilterCovers t f m)
    (he : (t.upsert env db f none oc trs).err = none) (p : Bytes) (hp : ∃ x ∈ trs, t.pk x = p) :
    ∃ x ∈ trs, t.pk x = p ∧ ∃ y b, foldKey (fun o x => (oc o x).1) (m p)
        (x :: (trs.drop (trs.countP (fun y => blt (t.pk y) p) + 1)).take (trs.countP (fun y => decide (t.pk y = p)) - 1)) = some y ∧
      t.ser y = some b ∧ (t.upsert env db f none oc trs).db.get (dataKey t.id p) = some b := by
  unfold Table.upsert Table.upsertBs at he ⊢
  obtain ⟨h1, h2⟩ := finish_ok he
  have hb := finish_nobatch (env := env) (db := db)
    (r := forChunks (t.upsertChunk env db none oc) (batched trs persistentBatchSize) { ops := [], filt := f, clock := 0, oldTr := t.nil })
  simp only [WOut.view, hb, baseView] at h2
  rw [h2]
  have hne : trs ≠ [] := by obtain ⟨x, hx, _⟩ := hp; exact List.ne_nil_of_mem hx
  rw [batched_single trs (bs := persistentBatchSize) hlen hne] at h1 ⊢
  rw [forChunks] at h1 ⊢
  split at h1
  case h_2 => simp at h1
  rename_i s1 hs1
  obtain ⟨a, _, _⟩ := upsertChunk_exact wf ok rt fs (ob := none) (base := db) (s := { ops := [], filt := f, clock := 0, oldTr := t.nil })
    (m := m) hD (by simpa [KV.apply_nil] using hD) hF hF hs1
  rcases foldedAt_sort ok trs p with ⟨_, h3⟩ | ⟨e, x, r, _, hx, hxp, h3⟩
  · obtain ⟨x, hx, hxp⟩ := hp; exact absurd hxp (h3 x hx)
  · refine ⟨x, List.mem_of_getElem? hx, hxp, ?_⟩
    have hv : putFolded (fun o x => (oc o x).1) m m (fun p => foldedAt trs (sortKeys env (trs.map t.key)) 0 (dataKey t.id p)) p =
        foldKey (fun o x => (oc o x).1) (m p)
        (x :: (trs.drop (trs.countP (fun y => blt (t.pk y) p) + 1)).take (trs.countP (fun y => decide (t.pk y = p)) - 1)) := by
      unfold putFolded
      simp only [h3]
    cases hc : foldKey (fun o x => (oc o x).1) (m p)
        (x :: (trs.drop (trs.countP (fun y => blt (t.pk y) p) + 1)).take (trs.countP (fun y => decide (t.pk y = p)) - 1)) with
    | none =>
      exfalso
      have : ∀ (o : Option T) (x : T) (l : List T), foldKey (fun o x => (oc o x).1) o (x :: l) ≠ none := by
        intro o x l
        cases o with
        | none => show foldKey _ (some x) l ≠ none; rw [foldKey_some]; simp
        | some o => show foldKey _ (some _) l ≠ none; rw [foldKey_some]; simp
      exact this _ _ _ hc
    | some y =>
      obtain ⟨b, hb1, hb2⟩ := a.present p y (hv.trans hc)
      exact ⟨y, b, rfl, hb1, by simpa [forChunks] using hb2⟩

/-- Rows out of order with repeated keys: the rows folded into (1,·) are (1,2), the first one with the key, and once more (1,2), which
stands at position 1; (1,3) is lost. -/
example : upsertTaken exTable.pk [(2, 1), (1, 2), (1, 3)] [1] = [(1, 2), (1, 2)] := by decide

/-- hypotheses on a case with rows out of order, repeated keys and a row (1,5) stored before -/
example := C16_exact exTable_wf (stdEnv_ok exTable) (stdEnv_stable exTable) exTable_rt exTable_fs (f := ()) (oc := ocAdd)
  (trs := [(2, 1), (1, 2), (3, 4), (1, 3)]) exDB_holds.dataIs (covers_nofilter rfl _ _) (by decide)

example := C16_exact_unstable exTable_wf (stdEnv_ok exTable) exTable_rt exTable_fs (f := ()) (oc := ocAdd)
  (trs := [(2, 1), (1, 2), (3, 4), (1, 3)]) (by decide) exDB_holds.dataIs (covers_nofilter rfl _ _) (by decide) [1] ⟨(1, 2), by decide, by decide⟩

/-- through a batch -/
example := C16_exact_batch exTable_wf (stdEnv_ok exTable) (stdEnv_stable exTable) exTable_rt exTable_fs (f := ()) (oc := ocAdd)
  (b := { indexed := true, ops := [] }) rfl (trs := [(2, 1), (1, 2), (3, 4), (1, 3)]) (by simpa [KV.apply_nil] using exDB_holds.dataIs)
  (covers_nofilter rfl _ _) (by decide)

end Bond
