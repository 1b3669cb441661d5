import Verif.FaultLemmas
import Verif.FaultStopLemmas
import Verif.Props.Queries
/-
Property C81: storage reads that fail.
-/
namespace Bond
open Spec
variable {T F σ : Type}

/-! ## C81 A failed read is reported, not taken for a missing row

Full statement: for every way in which reads of the storage may fail during a call, a call that returns without error has
the result and the effect it has when no read fails. Proved for Update, GetPoint, and for scans, Get and queries with
selectors of one part (more generally, if only the last part visited fails). Refuted for Insert, Upsert, Exist, Get with
points, scans with several parts, queries with Intersects, ReIndex and Dump. -/

/-- C81 for Update: for all failing seeks, contents, batches and context answers, success means the same result and the
same writes as without failures. -/
theorem C81_update (bs : Nat) (t : Table T F) (env : Env T) (bad : Nat → Bool) (db : KV) (filt : F) (ob : Option Batch) (trs : List T)
    (h : (t.updateBsF bs env bad db filt ob trs).err = none) :
    t.updateBsF bs env bad db filt ob trs = t.updateBs bs env db filt ob trs := by
  unfold Table.updateBsF at h ⊢
  unfold Table.updateBs
  rw [forChunks_sameF (t.updateChunkF env bad db ob) (t.updateChunk env db ob)
    (fun c s hc => updateLoopF_same t env bad _ c _ s hc) _ _ (finish_none h)]

/-- an update that succeeds although a seek fails: the first of two records with one key is not looked up -/
example : (exTable.updateBsF 9 (stdEnv exTable) (fun n => n == 0) exDB () none [(1, 8), (1, 9)]).err = none ∧
    (exTable.updateBsF 9 (stdEnv exTable) (fun n => n == 1) exDB () none [(1, 8), (1, 9)]).err = some .notFound := by decide

/-- C81 for Insert holds for calls that would succeed without failures. Missing: calls that would be refused because a row
exists, see `C81_refuted_insert`. -/
theorem C81_insert_partial (bs : Nat) (t : Table T F) (env : Env T) (bad : Nat → Bool) (db : KV) (filt : F) (ob : Option Batch)
    (trs : List T) (h : (t.insertBs bs env db filt ob trs).err = none) :
    t.insertBsF bs env bad db filt ob trs = t.insertBs bs env db filt ob trs := by
  unfold Table.insertBs at h ⊢
  unfold Table.insertBsF
  rw [← forChunks_sameF (t.insertChunk env db ob) (t.insertChunkF env bad db ob)
    (fun c s hc => insertLoopF_same t env bad _ c none _ s hc) _ _ (finish_none h)]

example : (exTable.insertBs 9 (stdEnv exTable) exDB () none [(3, 8)]).err = none := by decide

/-- C81 is false for Insert: the row (1, 5) exists; the seek for it fails; Insert of (1, 9) succeeds, overwrites the row and
leaves the index entry of the old one. -/
theorem C81_refuted_insert :
    (exTable.insertBs 9 (stdEnv exTable) exDB () none [(1, 9)]).err = some .alreadyExist ∧
    let o := exTable.insertBsF 9 (stdEnv exTable) (fun _ => true) exDB () none [(1, 9)]
    o.err = none ∧ o.db.get (exTable.key (1, 5)) = some [1, 9] ∧ o.db.get (exTable.indexKey exIndex (1, 5)) = some [] ∧
      o.db.get (exTable.indexKey exIndex (1, 9)) = some [] := by decide

/-- Such a table no longer stores any set of rows: its index lists a row that does not exist. -/
theorem C81_refuted_insert_holds :
    ¬ ∃ m, Holds exTable (exTable.insertBsF 9 (stdEnv exTable) (fun _ => true) exDB () none [(1, 9)]).db m := by
  rintro ⟨m, hm⟩
  have h1 := (hm.index exIndex (List.mem_singleton.2 rfl) (exTable.indexKey exIndex (1, 5)) []
    (inSpace_indexKey exTable exIndex (1, 5))).1 (by decide)
  obtain ⟨_, pk, x, hx, _, hk⟩ := h1
  obtain ⟨a, g⟩ := x
  simp [Table.indexKey, exTable, exIndex, encodeIndexKey] at hk
  obtain ⟨rfl, rfl⟩ := hk
  have hpk := hm.row_pk _ _ hx
  subst hpk
  obtain ⟨b, hb, hg⟩ := hm.present _ _ hx
  simp only [exTable, Option.some.injEq] at hb
  subst hb
  revert hg
  decide

theorem seekExact_scan_none {V : KV} {key : Bytes} (h : V.get key = none) (lo hi : Bytes) : seekExact (V.scan lo hi) key = none := by
  rw [seekExact_getL (V.scan_sorted lo hi)]
  have : (⟨V.scan lo hi, V.scan_sorted lo hi⟩ : KV) = V.filterKeys (fun k => ble lo k && blt k hi) := rfl
  have hg := KV.get_filterKeys V (fun k => ble lo k && blt k hi) key
  rw [← this, h] at hg
  have : KV.get ⟨V.scan lo hi, V.scan_sorted lo hi⟩ key = none := by rw [hg]; split <;> rfl
  exact this

theorem forChunks_congr {α β : Type} (f g : List β → α → α × Option Err) (cs : List (List β)) (h : ∀ c ∈ cs, ∀ s, f c s = g c s) (s : α) :
    forChunks f cs s = forChunks g cs s := by
  induction cs generalizing s with
  | nil => rfl
  | cons c cs ih =>
    rw [forChunks, forChunks, h c (List.mem_cons_self ..)]
    cases h' : g c s with
    | mk s' e =>
      cases e with
      | none => exact ih (fun c hc => h c (List.mem_cons_of_mem _ hc)) s'
      | some e => rfl

/-- C81 for Upsert without a batch holds if none of the rows exists. Missing: rows that exist, see `C81_refuted_upsert`. -/
theorem C81_upsert_partial {bs : Nat} (hbs : 0 < bs) (t : Table T F) {env : Env T} (ok : env.OK t) (bad : Nat → Bool) (db : KV) (filt : F)
    (oc : Table.OnConflict T) (trs : List T) (h : ∀ tr ∈ trs, db.get (t.key tr) = none) :
    t.upsertBsF bs env bad db filt none oc trs = t.upsertBs bs env db filt none oc trs := by
  unfold Table.upsertBsF Table.upsertBs
  rw [forChunks_congr (t.upsertChunkF env bad db none oc) (t.upsertChunk env db none oc)]
  intro c hc s
  refine upsertLoopF_same t env bad oc _ c _ _ _ s (fun e he => ?_)
  apply seekExact_scan_none
  have hcs : ∀ x ∈ c, x ∈ trs := fun x hx => by
    rw [← batched_flatten trs hbs]; exact List.mem_flatten.2 ⟨c, hc, hx⟩
  simp only [sortKeys, List.mem_map] at he
  obtain ⟨j, hj, rfl⟩ := he
  have hlt : j < (c.map t.key).length := by
    have := (ok.sort_perm (c.map t.key)).mem_iff.1 hj
    simpa using this
  simp only [List.getD_eq_getElem?_getD, List.getElem?_eq_getElem hlt, Option.getD_some, List.getElem_map]
  exact h _ (hcs _ (List.getElem_mem _))

example : ∀ tr ∈ [((3, 8) : Rec), (4, 8)], exDB.get (exTable.key tr) = none := by decide

/-- C81 is false for Upsert: the row (1, 5) exists; the seek for it fails; Upsert of (1, 9) does not call the conflict
function and leaves the index entry of the old row. -/
theorem C81_refuted_upsert :
    let o := exTable.upsertBsF 9 (stdEnv exTable) (fun _ => true) exDB () none (fun old _ => (old, old)) [(1, 9)]
    let o' := exTable.upsertBs 9 (stdEnv exTable) exDB () none (fun old _ => (old, old)) [(1, 9)]
    o.err = none ∧ o'.err = none ∧ o.db.get (exTable.key (1, 5)) = some [1, 9] ∧ o'.db.get (exTable.key (1, 5)) = some [1, 5] ∧
      o.db.get (exTable.indexKey exIndex (1, 5)) = some [] := by decide

/-- C81 for GetPoint: a record that is returned is the one stored. (A failed read is reported, as `ErrNotFound`.) -/
theorem C81_getPoint (t : Table T F) (f : F) (bad : Bool) (db : KV) (ob : Option Batch) (tr : T) (r : List T)
    (h : t.getOneF f bad db ob tr = .ok r) : t.getOne f db ob tr = .ok r := by
  unfold Table.getOneF at h
  split at h
  · simp at h
  · split at h
    · simp at h
    · exact h

example : exTable.getOneF () false exDB none (1, 0) = .ok [(1, 5)] := by decide

/-- C81 for Exist: `true` is only answered for a row that exists; without a failed read the answer is the right one. -/
theorem C81_exist (t : Table T F) (f : F) (bad : Bool) (db : KV) (ob : Option Batch) (tr : T) :
    t.existF f bad db ob tr = (!bad && t.exist f db ob tr) := by
  unfold Table.existF Table.exist
  cases bad <;> split <;> simp_all

example : exTable.existF () false exDB none (1, 0) = true ∧ exTable.existF () false exDB none (9, 0) = false := by decide

theorem seekExact_filterKeys (V : KV) (p : Bytes → Bool) (lo hi key : Bytes) :
    seekExact ((V.filterKeys p).scan lo hi) key = if p key then seekExact (V.scan lo hi) key else none := by
  rw [seekExact_getL (KV.scan_sorted _ lo hi), seekExact_getL (KV.scan_sorted _ lo hi)]
  have h1 : (⟨(V.filterKeys p).scan lo hi, KV.scan_sorted _ lo hi⟩ : KV) = (V.filterKeys p).filterKeys (fun k => ble lo k && blt k hi) := rfl
  have h2 : (⟨V.scan lo hi, KV.scan_sorted _ lo hi⟩ : KV) = V.filterKeys (fun k => ble lo k && blt k hi) := rfl
  have e1 := KV.get_filterKeys (V.filterKeys p) (fun k => ble lo k && blt k hi) key
  have e2 := KV.get_filterKeys V (fun k => ble lo k && blt k hi) key
  rw [← h1, KV.get_filterKeys] at e1
  rw [← h2] at e2
  refine Eq.trans e1 ?_
  rw [show KV.getL key (V.scan lo hi) = _ from e2]
  cases p key <;> simp

theorem getLoopF_filter (t : Table T F) (f : F) (bad : Bytes → Bool) (V : KV) (lo : Bytes) (e : Bool) : ∀ (ks : List Bytes) (cap : Nat),
    t.getLoopF f bad (V.scan lo t.dataKeySpaceEnd) e ks cap = t.getLoop f ((V.filterKeys (fun k => !bad k)).scan lo t.dataKeySpaceEnd) e ks cap := by
  intro ks
  induction ks with
  | nil => intro cap; rfl
  | cons k ks ih =>
    intro cap
    unfold Table.getLoopF Table.getLoop
    have : (if (t.mayContain f k && !bad k) = true then seekExact (V.scan lo t.dataKeySpaceEnd) k else none) =
        if t.mayContain f k = true then seekExact ((V.filterKeys (fun k => !bad k)).scan lo t.dataKeySpaceEnd) k else none := by
      rw [seekExact_filterKeys]
      cases t.mayContain f k <;> simp
    simp only [this, ih]

/-- C81 for Get with points, exactly: the answer is the one that the same call gives when the rows whose read failed are not there.
So a row that is returned is the one stored, in its place, and only rows whose read failed are missing. -/
theorem C81_points_exact (t : Table T F) (env : Env T) (f : F) (bad : Bytes → Bool) (db : KV) (ob : Option Batch) (V : KV)
    (hV : readable db ob = some V) (points : List T) :
    t.getManyF env f bad db ob points = t.getMany env f (V.filterKeys (fun k => !bad k)) none points := by
  unfold Table.getManyF Table.getMany
  generalize batched points points.length = cs
  have hk : ∀ (ks : List Bytes) cap e, t.getKeysF env f bad db ob ks cap e = t.getKeys env f (V.filterKeys (fun k => !bad k)) none ks cap e := by
    intro ks cap e
    unfold Table.getKeysF Table.getKeys
    have h2 : readable (V.filterKeys (fun k => !bad k)) none = some (V.filterKeys (fun k => !bad k)) := rfl
    simp only [iterEntries, hV, h2, getLoopF_filter]
  induction cs with
  | nil => rfl
  | cons c cs ih => simp only [Table.getChunksF, Table.getChunks, hk, ih]; rfl

/-- one read of three fails: the row keeps its place, as a nil record -/
example : exTable.getManyF (stdEnv exTable) () (fun k => k == exTable.key (1, 0)) exDB none [(2, 0), (1, 0), (2, 0)] = .ok [(2, 6), (0, 0), (2, 6)] := by
  decide

/-- C81 is false for Exist and for Get with points: an existing row is reported as missing, without an error. -/
theorem C81_refuted_reads :
    exTable.exist () exDB none (1, 0) = true ∧ exTable.existF () true exDB none (1, 0) = false ∧
    exTable.getMany (stdEnv exTable) () exDB none [(1, 0), (2, 0)] = .ok [(1, 5), (2, 6)] ∧
    exTable.getManyF (stdEnv exTable) () (fun k => k == exTable.key (1, 0)) exDB none [(1, 0), (2, 0)] = .ok [(0, 0), (2, 6)] := by
  decide

/-- C81 for scans, all indexes, directions, contents, batches and callbacks that never end a scan without an error and end
it with an error when `Get` failed: if only the last part visited may fail, success means that the callback was called
exactly as without failures. -/
theorem C81_scan_partial (t : Table T F) (env : Env T) (filt : F) (cuts : Nat → Cut) (bad : PSt → Bool) (view : σ → KV × Option Batch)
    (idx : Index T) (sel : Selector T) (f : σ → Bytes → Cb σ T) (hf : ∀ s k, (f s k).Loud) (reverse : Bool) (fuel : Nat) (s s' : σ)
    (hc : ∀ parts, t.iterParts (view s).1 (view s).2 idx sel = some parts → ∀ i, i + 1 < parts.length → cuts i = none)
    (h : t.scanIndexForEachF env filt cuts bad view idx sel f reverse fuel s = some ⟨s', none⟩) :
    t.scanIndexForEach env filt view idx sel f reverse fuel s = some ⟨s', none⟩ := by
  unfold Table.scanIndexForEachF at h
  unfold Table.scanIndexForEach
  cases hp : t.iterParts (view s).1 (view s).2 idx sel with
  | none => simp [hp] at h
  | some parts =>
    simp only [hp] at h ⊢
    cases hce : walkCloseErr parts reverse cuts with
    | some e =>
      exfalso
      rw [hce] at h
      split at h
      · have := scanPrimaryLoopF_some t env.done e f hf (walkF parts reverse cuts) 0 s
        simp only [Option.some.injEq] at h
        rw [h] at this
        simp at this
      · have := outerLoopF_some t env filt bad e view f hf _ _ _ _ _ h
        simp at this
    | none =>
      rw [hce, walkF_of_closeErr parts reverse cuts (hc parts hp) hce] at h
      split at h
      · rename_i hi
        rw [if_pos hi]
        rw [scanPrimaryLoopF_none] at h
        exact h
      · rename_i hi
        rw [if_neg hi]
        exact outerLoopF_same t env filt bad view f hf _ _ _ _ _ _ h

/-- selectors of one part -/
def Selector.One (sel : Selector T) : Prop := (∃ p, sel = .point p) ∨ ∃ lo hi, sel = .range lo hi

theorem Selector.One.parts {t : Table T F} {db : KV} {ob : Option Batch} {idx : Index T} {sel : Selector T} (h : sel.One) {parts}
    (hp : t.iterParts db ob idx sel = some parts) : parts.length = 1 := by
  unfold Table.iterParts at hp
  rcases h with ⟨p, rfl⟩ | ⟨lo, hi, rfl⟩
  · simp only [Table.iterBounds] at hp
    cases hb : t.pointBounds idx p with
    | none => simp [hb] at hp
    | some b => simp [hb] at hp; rw [← hp]; rfl
  · simp only [Table.iterBounds, Option.map_some, Option.some.injEq] at hp
    rw [← hp]; rfl

theorem scanIndexCb_loud (s : List T) (k : Bytes) : (scanIndexCb s k).Loud :=
  ⟨fun _ => Or.inl rfl, fun _ => rfl⟩

/-- C81 for ScanIndex (and so for Scan, ScanIndex of `TableAnyScanner`, and Get with a range) with a point or a range:
for all failing reads, success means that all records were returned. -/
theorem C81_scanIndex (t : Table T F) (env : Env T) (filt : F) (cuts : Nat → Cut) (bad : PSt → Bool) (db : KV) (ob : Option Batch)
    (idx : Index T) (sel : Selector T) (hs : sel.One) (reverse : Bool) (fuel : Nat) (tr rows : List T)
    (h : t.scanIndexF env filt cuts bad db ob idx sel reverse fuel tr = some ⟨rows, none⟩) :
    t.scanIndex env filt db ob idx sel reverse fuel tr = some ⟨rows, none⟩ :=
  C81_scan_partial t env filt cuts bad _ idx sel scanIndexCb scanIndexCb_loud reverse fuel tr rows
    (fun parts hp i hi => by have := hs.parts hp; omega) h

/-- the theorem at a scan whose iterator would fail after five entries, more than there are -/
example : exTable.scanIndex (stdEnv exTable) () exDB none exIndex (.range (0, 0) (9, 9)) false 9 [] = some ⟨[(1, 5), (2, 6)], none⟩ :=
  C81_scanIndex exTable (stdEnv exTable) () (fun _ => none) (fun _ => false) exDB none exIndex (.range (0, 0) (9, 9)) (by simp [Selector.One]) false 9 [] _
    (by decide)

/-- `C81_scan_partial` at the same scan -/
example : exTable.scanIndexForEach (stdEnv exTable) () (fun _ => (exDB, none)) exIndex (.range (0, 0) (9, 9)) scanIndexCb false 9 [] =
    some ⟨[(1, 5), (2, 6)], none⟩ :=
  C81_scan_partial exTable (stdEnv exTable) () (fun _ => none) (fun _ => false) (fun _ => (exDB, none)) exIndex (.range (0, 0) (9, 9)) scanIndexCb
    scanIndexCb_loud false 9 [] _ (fun _ _ _ _ => rfl) (by decide)

/-- C81: if the iterator of the last part visited fails, be it after its last entry, the scan does not return success. -/
theorem C81_reported (t : Table T F) (env : Env T) (filt : F) (cuts : Nat → Cut) (bad : PSt → Bool) (view : σ → KV × Option Batch)
    (idx : Index T) (sel : Selector T) (f : σ → Bytes → Cb σ T) (hf : ∀ s k, (f s k).Loud) (reverse : Bool) (fuel : Nat) (s : σ)
    (parts : List (List (Bytes × Bytes))) (hp : t.iterParts (view s).1 (view s).2 idx sel = some parts) (last : List (Bytes × Bytes))
    (hlast : (if reverse then parts.head? else parts.getLast?) = some last) (n : Nat) (hn : n ≤ last.length)
    (hc : cuts (parts.length - 1) = some n) (s' : σ) :
    t.scanIndexForEachF env filt cuts bad view idx sel f reverse fuel s ≠ some ⟨s', none⟩ := by
  intro h
  unfold Table.scanIndexForEachF at h
  simp only [hp] at h
  have hce : walkCloseErr parts reverse cuts = some .storage := by
    unfold walkCloseErr childrenInOrder
    cases reverse with
    | false =>
      simp only [Bool.false_eq_true, ↓reduceIte] at hlast ⊢
      rw [hlast]
      simp only [hc, Cut.closeErr, hn, ↓reduceIte]
    | true =>
      simp only [↓reduceIte] at hlast ⊢
      rw [List.getLast?_reverse, List.head?_map, hlast]
      simp only [Option.map_some, hc, Cut.closeErr, List.length_reverse, hn, ↓reduceIte]
  rw [hce] at h
  split at h
  · have := scanPrimaryLoopF_some t env.done .storage f hf (walkF parts reverse cuts) 0 s
    simp only [Option.some.injEq] at h
    rw [h] at this
    simp at this
  · have := outerLoopF_some t env filt bad .storage view f hf _ _ _ _ _ h
    simp at this

/-- the iterator fails after the last of the two rows: both were delivered, and the error is returned -/
example : exTable.iterParts exDB none exTable.primaryIndex (.point exTable.empty) =
      some [[(exTable.key (1, 5), [1, 5]), (exTable.key (2, 6), [2, 6])]] ∧
    exTable.scanIndexF (stdEnv exTable) () (fun _ => some 2) (fun _ => false) exDB none exTable.primaryIndex (.point exTable.empty) false 9 [] =
      some ⟨[(1, 5), (2, 6)], some .storage⟩ := by
  decide

/-- reads that fail: in the middle of the index, at its end, and while fetching the records -/
example : exTable.scanIndexF (stdEnv exTable) () (fun _ => some 1) (fun _ => false) exDB none exIndex (.range (0, 0) (9, 9)) false 9 [] =
      some ⟨[(1, 5)], some .storage⟩ ∧
    exTable.scanIndexF (stdEnv exTable) () (fun _ => some 2) (fun _ => false) exDB none exIndex (.range (0, 0) (9, 9)) true 9 [] =
      some ⟨[(2, 6), (1, 5)], some .storage⟩ ∧
    exTable.scanIndexF (stdEnv exTable) () (fun _ => none) (fun _ => true) exDB none exIndex (.range (0, 0) (9, 9)) false 9 [] =
      some ⟨[], some .notFound⟩ ∧
    exTable.scanIndexF (stdEnv exTable) () (fun _ => some 3) (fun _ => false) exDB none exIndex (.range (0, 0) (9, 9)) false 9 [] =
      some ⟨[(1, 5), (2, 6)], none⟩ := by decide

theorem body_loud (q : Query T) (hq : q.less.isSome ∨ q.limit = 0) (s : QSt T) : (q.body s).Loud := by
  unfold Query.body
  split
  · exact Or.inl rfl
  · refine ⟨fun x => ?_, fun _ => rfl⟩
    simp only
    split
    · rename_i h
      exfalso
      rcases hq with hq | hq
      · rw [Option.isSome_iff_exists] at hq; obtain ⟨l, hl⟩ := hq; simp [hl] at h
      · rw [hq] at h; exact absurd h.2 (by decide)
    · exact Or.inl rfl

theorem callback_loud (t : Table T F) (q : Query T) (hq : q.less.isSome ∨ q.limit = 0) (s : QSt T) (k : Bytes) : (q.callback t s k).Loud := by
  unfold Query.callback
  cases q.after with
  | none => exact body_loud q hq s
  | some a =>
    simp only
    split
    · cases keyDecode k with
      | none => exact Or.inr rfl
      | some x =>
        cases keyDecode (t.indexKey q.index a) with
        | none => exact Or.inr rfl
        | some y =>
          simp only
          split
          · exact Or.inl rfl
          · exact body_loud q hq _
    · exact body_loud q hq s

theorem executeQuery_selected (t : Table T F) (env : Env T) (srt : (T → T → Bool) → List T → List T) (filt : F) (db : KV)
    (ob : Option Batch) (q : Query T) (fuel : Nat) : q.executeQuery t env srt filt db ob fuel =
      match q.selected t with
      | none => some (.error .panic)
      | some selector =>
        match t.scanIndexForEach env filt (fun _ => (db, ob)) q.index selector (q.callback t) q.reverse fuel {} with
        | none => none
        | some ⟨_, some e⟩ => some (.error e)
        | some ⟨s, none⟩ => some (q.finish t srt s) := rfl

/-- C81 for queries with a point or a range, without Intersects, and without Limit or with Order. -/
theorem C81_query_partial (t : Table T F) (env : Env T) (srt : (T → T → Bool) → List T → List T) (filt : F) (cuts : Nat → Cut)
    (bad : PSt → Bool) (db : KV) (ob : Option Batch) (q : Query T) (hs : q.sel.One) (hq : q.less.isSome ∨ q.limit = 0) (fuel : Nat)
    (rows : List T) (h : q.executeQueryF t env srt filt cuts bad db ob fuel = some (.ok rows)) :
    q.executeQuery t env srt filt db ob fuel = some (.ok rows) := by
  unfold Query.executeQueryF at h
  rw [executeQuery_selected]
  generalize hsel : q.selected t = selector at h ⊢
  have h1 : ∀ sel, selector = some sel → sel.One := by
    rintro sel rfl
    unfold Query.selected at hsel
    cases ha : q.after with
    | none => simp only [ha, Option.some.injEq] at hsel; rw [← hsel]; exact hs
    | some a =>
      simp only [ha] at hsel
      split at hsel
      · unfold Query.selectorWithAfter at hsel
        rcases hs with ⟨p, hp⟩ | ⟨lo, hi, hp⟩
        · simp only [hp, Option.some.injEq] at hsel; exact Or.inl ⟨_, hsel.symm⟩
        · simp only [hp, Option.some.injEq] at hsel; exact Or.inr ⟨_, _, hsel.symm⟩
      · simp only [Option.some.injEq] at hsel; rw [← hsel]; exact hs
  cases selector with
  | none => exact h
  | some sel =>
    simp only at h ⊢
    cases hf : t.scanIndexForEachF env filt cuts bad (fun _ => (db, ob)) q.index sel (q.callback t) q.reverse fuel {} with
    | none => simp [hf] at h
    | some o =>
      obtain ⟨s, e⟩ := o
      cases e with
      | some e => simp [hf] at h
      | none =>
        simp only [hf] at h
        rw [C81_scan_partial t env filt cuts bad _ q.index sel (q.callback t) (callback_loud t q hq) q.reverse fuel _ s
          (fun parts hp i hi => by have := (h1 sel rfl).parts hp; omega) hf]
        exact h

/-- the theorem at a query over all groups -/
example : exQuery.executeQuery exTable (stdEnv exTable) insSort () exDB none 9 = some (.ok [(1, 5), (2, 6)]) :=
  C81_query_partial exTable (stdEnv exTable) insSort () (fun _ => none) (fun _ => false) exDB none exQuery (by simp [Selector.One, exQuery]) (.inr rfl) 9 _
    (by decide)

/-- C81 for scans that the callback may end: a callback that ends with an error when `Get` failed, any index of a table in
good order (the primary index: any callback). If only the last part visited may fail, success means that the callback was
called exactly as without failures: it ended the scan before the read that fails. -/
theorem C81_stops_partial {t : Table T F} {env : Env T} {filt : F} {db : KV} {ob : Option Batch} {m : Rows T}
    (S : Setting t env filt db ob m) {idx : Index T} (hi : IsIndex t idx) {sel : Selector T} (hs : sel.OK idx)
    {f : σ → Bytes → Cb σ T} {fetched : σ → Prop}
    (hf : idx.id = primaryIndexID ∨ FetchesAll f fetched ∧ ∀ s k, (f s k).Careful) (reverse : Bool) :
    ∃ N, ∀ fuel, N ≤ fuel → ∀ (cuts : Nat → Cut) (bad : PSt → Bool),
      (∀ parts, t.iterParts db ob idx sel = some parts → ∀ i, i + 1 < parts.length → cuts i = none) → ∀ s s',
      t.scanIndexForEachF env filt cuts bad (fun _ => (db, ob)) idx sel f reverse fuel s = some ⟨s', none⟩ →
      t.scanIndexForEach env filt (fun _ => (db, ob)) idx sel f reverse fuel s = some ⟨s', none⟩ :=
  scanF_stops S hi hs hf reverse

/-- the theorem at the range over all groups with the callback of ScanIndex -/
example := C81_stops_partial exSetting exIndex_is exRange_ok (.inr ⟨scanIndexCb_fetches, (fun _ _ => ⟨fun _ => trivial, fun _ => rfl⟩)⟩) true

theorem body_careful (q : Query T) (s : QSt T) : (q.body s).Careful := by
  unfold Query.body
  split
  · trivial
  · refine ⟨fun x => ?_, fun _ => rfl⟩
    simp only
    split <;> trivial

theorem callback_careful (t : Table T F) (q : Query T) (s : QSt T) (k : Bytes) : (q.callback t s k).Careful := by
  unfold Query.callback
  cases q.after with
  | none => exact body_careful q s
  | some a =>
    simp only
    split
    · cases keyDecode k with
      | none => trivial
      | some x =>
        cases keyDecode (t.indexKey q.index a) with
        | none => trivial
        | some y =>
          simp only
          split
          · trivial
          · exact body_careful q _
    · exact body_careful q s

/-- C81 for queries with a point or a range, without Intersects, with any Limit, Offset, Filter, Order and After, on a table in
good order. -/
theorem C81_limit_partial {t : Table T F} {env : Env T} {filt : F} {db : KV} {ob : Option Batch} {m : Rows T}
    (S : Setting t env filt db ob m) (srt : (T → T → Bool) → List T → List T) (q : Query T) (hi : IsIndex t q.index)
    (hs : q.sel.One) (hok : q.sel.OK q.index) (ha : ∀ a, q.after = some a → (q.index.key a).length < 2 ^ 32 - 1) :
    ∃ N, ∀ fuel, N ≤ fuel → ∀ (cuts : Nat → Cut) (bad : PSt → Bool) rows,
      q.executeQueryF t env srt filt cuts bad db ob fuel = some (.ok rows) →
      q.executeQuery t env srt filt db ob fuel = some (.ok rows) := by
  have h1 : ∀ sel, q.selected t = some sel → sel.One ∧ sel.OK q.index := by
    intro sel hsel
    unfold Query.selected at hsel
    cases hqa : q.after with
    | none => simp only [hqa, Option.some.injEq] at hsel; rw [← hsel]; exact ⟨hs, hok⟩
    | some a =>
      simp only [hqa] at hsel
      split at hsel
      · unfold Query.selectorWithAfter at hsel
        rcases hs with ⟨p, hp⟩ | ⟨lo, up, hp⟩
        · simp only [hp, Option.some.injEq] at hsel
          rw [← hsel]
          exact ⟨Or.inl ⟨_, rfl⟩, by simp [Selector.elems], by simpa [Selector.elems] using ha a hqa⟩
        · simp only [hp, Option.some.injEq] at hsel
          rw [← hsel]
          refine ⟨Or.inr ⟨_, _, rfl⟩, by simp [Selector.elems], ?_⟩
          have := hok.2 up (by simp [hp, Selector.elems])
          simpa [Selector.elems] using ⟨ha a hqa, this⟩
      · simp only [Option.some.injEq] at hsel; rw [← hsel]; exact ⟨hs, hok⟩
  cases hsel : q.selected t with
  | none =>
    refine ⟨0, fun fuel _ cuts bad rows h => ?_⟩
    simp [Query.executeQueryF, hsel] at h
  | some sel =>
    obtain ⟨hone, hsok⟩ := h1 sel hsel
    obtain ⟨N, hN⟩ := C81_stops_partial S hi hsok (f := q.callback t) (fetched := q.fetching)
      (Or.inr ⟨callback_fetches q, callback_careful t q⟩) q.reverse
    refine ⟨N, fun fuel hfuel cuts bad rows h => ?_⟩
    unfold Query.executeQueryF at h
    rw [executeQuery_selected]
    simp only [hsel] at h ⊢
    cases hf : t.scanIndexForEachF env filt cuts bad (fun _ => (db, ob)) q.index sel (q.callback t) q.reverse fuel {} with
    | none => simp [hf] at h
    | some o =>
      obtain ⟨s, e⟩ := o
      cases e with
      | some e => simp [hf] at h
      | none =>
        simp only [hf] at h
        rw [hN fuel hfuel cuts bad (fun parts hp i hlt => by have := hone.parts hp; omega) _ _ hf]
        exact h

/-- a query with Limit 1: the second row cannot be read, and is not needed; with Limit 2 it is -/
example : exQuery.sel.One ∧ exQuery.sel.OK exQuery.index ∧ Setting exTable (stdEnv exTable) () exDB none exRows ∧
    ({ exQuery with limit := 1 }).executeQueryF exTable (stdEnv exTable) insSort () (fun _ => some 1) (fun _ => false) exDB none 9 =
      some (.ok [(1, 5)]) ∧
    ({ exQuery with limit := 2 }).executeQueryF exTable (stdEnv exTable) insSort () (fun _ => some 1) (fun _ => false) exDB none 9 =
      some (.error .storage) :=
  ⟨Or.inr ⟨_, _, rfl⟩, ⟨by simp [exQuery, Selector.elems], by simp [exQuery, Selector.elems, exIndex]⟩, exSetting, by decide, by decide⟩

example : exQuery.sel.One ∧ exQuery.limit = 0 ∧
    exQuery.executeQueryF exTable (stdEnv exTable) insSort () (fun _ => some 1) (fun _ => false) exDB none 9 = some (.error .storage) :=
  ⟨Or.inr ⟨_, _, rfl⟩, rfl, by decide⟩

/-! Without failures the functions with failing reads are those of the rest of the model. -/

theorem walkF_good (parts : List (List (Bytes × Bytes))) (reverse : Bool) : walkF parts reverse (fun _ => none) = walk parts reverse := by
  refine walkF_of_closeErr parts reverse _ (fun _ _ => rfl) ?_
  unfold walkCloseErr
  cases (childrenInOrder parts reverse).getLast? <;> rfl

theorem walkCloseErr_good (parts : List (List (Bytes × Bytes))) (reverse : Bool) : walkCloseErr parts reverse (fun _ => none) = none := by
  unfold walkCloseErr
  cases (childrenInOrder parts reverse).getLast? <;> rfl

theorem collect_good (t : Table T F) (env : Env T) (db : KV) (ob : Option Batch) (qs : List (Query T)) (n clock : Nat) (m : KV) :
    t.intersectLoopF env (fun _ _ => none) db ob qs n clock m = t.intersectLoop env db ob qs clock m := by
  induction qs generalizing n clock m with
  | nil => rfl
  | cons q qs ih =>
    rw [Table.intersectLoopF, Table.intersectLoop]
    cases t.iterParts db ob q.index q.sel with
    | none => rfl
    | some parts =>
      simp only [walkF_good, walk, Bool.false_eq_true, if_false]
      cases collectSet env.done (fun k => (m.get k).isSome) parts.flatten clock KV.empty with
      | error e => rfl
      | ok o => exact ih _ _ _

/-- no read fails: scans -/
theorem C81_good_scan (t : Table T F) (env : Env T) (filt : F) (view : σ → KV × Option Batch) (idx : Index T) (sel : Selector T)
    (f : σ → Bytes → Cb σ T) (reverse : Bool) (fuel : Nat) (s : σ) :
    t.scanIndexForEachF env filt (fun _ => none) (fun _ => false) view idx sel f reverse fuel s =
      t.scanIndexForEach env filt view idx sel f reverse fuel s := by
  unfold Table.scanIndexForEachF Table.scanIndexForEach
  cases t.iterParts (view s).1 (view s).2 idx sel with
  | none => rfl
  | some parts =>
    simp only [walkF_good, walkCloseErr_good, scanPrimaryLoopF_none, outerLoopF_good]

/-- no read fails: queries with Intersects -/
theorem C81_good_intersect (t : Table T F) (env : Env T) (db : KV) (ob : Option Batch) (idx : Index T) (sel : Selector T)
    (qs : List (Query T)) : t.intersectF env (fun _ _ => none) db ob idx sel qs = t.intersect env db ob idx sel qs := by
  unfold Table.intersectF Table.intersect
  cases t.iterParts db ob idx sel with
  | none => rfl
  | some parts =>
    simp only [walkF_good, walk, Bool.false_eq_true, if_false]
    cases collectSet env.done (fun _ => true) parts.flatten 0 KV.empty with
    | error e => rfl
    | ok o => simp only [collect_good]; rfl

theorem getLoopF_good (t : Table T F) (f : F) (entries : List (Bytes × Bytes)) (b : Bool) (keys : List Bytes) (cap : Nat) :
    t.getLoopF f (fun _ => false) entries b keys cap = t.getLoop f entries b keys cap := by
  induction keys generalizing cap with
  | nil => rfl
  | cons k keys ih => simp only [Table.getLoopF, Table.getLoop, ih, Bool.not_false, Bool.and_true]

/-- no read fails: Get with points -/
theorem C81_good_getMany (t : Table T F) (env : Env T) (f : F) (db : KV) (ob : Option Batch) (points : List T) :
    t.getManyF env f (fun _ => false) db ob points = t.getMany env f db ob points := by
  unfold Table.getManyF Table.getMany
  generalize batched points points.length = cs
  induction cs with
  | nil => rfl
  | cons c cs ih => simp only [Table.getChunksF, Table.getChunks, Table.getKeysF, Table.getKeys, getLoopF_good, ih]; rfl

theorem insertLoopF_good (t : Table T F) (env : Env T) (entries : List (Bytes × Bytes)) (trs : List T) (prev : Option Bytes)
    (l : List (Bytes × Nat)) (s : WSt T F) :
    t.insertLoopF env (fun _ => false) entries trs prev l s = t.insertLoop env entries trs prev l s := by
  induction l generalizing prev s with
  | nil => rfl
  | cons e l ih => simp only [Table.insertLoopF, Table.insertLoop, ih, Bool.false_eq_true, if_false]; rfl

theorem updateLoopF_good (t : Table T F) (env : Env T) (entries : List (Bytes × Bytes)) (trs : List T)
    (l : List (Bytes × Nat)) (s : WSt T F) :
    t.updateLoopF env (fun _ => false) entries trs l s = t.updateLoop env entries trs l s := by
  induction l generalizing s with
  | nil => rfl
  | cons e l ih => simp only [Table.updateLoopF, Table.updateLoop, ih, Bool.false_eq_true, if_false]; rfl

theorem upsertLoopF_good (t : Table T F) (env : Env T) (oc : Table.OnConflict T) (entries : List (Bytes × Bytes)) (trs : List T)
    (fuel i : Nat) (l : List (Bytes × Nat)) (s : WSt T F) :
    t.upsertLoopF env (fun _ => false) oc entries trs fuel i l s = t.upsertLoop env oc entries trs fuel i l s := by
  induction fuel generalizing i l s with
  | zero => rfl
  | succ fuel ih =>
    cases l with
    | nil => rfl
    | cons e l => simp only [Table.upsertLoopF, Table.upsertLoop, ih, Bool.false_eq_true, if_false]; rfl

/-- no read fails: Insert, Update and Upsert -/
theorem C81_good_writes (bs : Nat) (t : Table T F) (env : Env T) (db : KV) (filt : F) (ob : Option Batch) (oc : Table.OnConflict T)
    (trs : List T) :
    t.insertBsF bs env (fun _ => false) db filt ob trs = t.insertBs bs env db filt ob trs ∧
    t.updateBsF bs env (fun _ => false) db filt ob trs = t.updateBs bs env db filt ob trs ∧
    t.upsertBsF bs env (fun _ => false) db filt ob oc trs = t.upsertBs bs env db filt ob oc trs := by
  refine ⟨?_, ?_, ?_⟩
  · unfold Table.insertBsF Table.insertBs
    rw [forChunks_congr (t.insertChunkF env (fun _ => false) db ob) (t.insertChunk env db ob)]
    intro c _ s
    exact insertLoopF_good ..
  · unfold Table.updateBsF Table.updateBs
    rw [forChunks_congr (t.updateChunkF env (fun _ => false) db ob) (t.updateChunk env db ob)]
    intro c _ s
    exact updateLoopF_good ..
  · unfold Table.upsertBsF Table.upsertBs
    rw [forChunks_congr (t.upsertChunkF env (fun _ => false) db ob oc) (t.upsertChunk env db ob oc)]
    intro c _ s
    exact upsertLoopF_good ..

theorem dumpLoop_noIndex (snap : KV) (live : Nat → KV) (full : List Entry → Bool) (tables : List UInt8) (n : Nat) (seen : List UInt8) :
    dumpLoop snap live full false tables n seen =
      if tables.Nodup ∧ ∀ t ∈ tables, t ∉ seen then .ok (tables.map (dumpData snap full)) else .error .exist := by
  induction tables generalizing n seen with
  | nil => simp [dumpLoop]
  | cons t ts ih =>
    rw [dumpLoop]
    by_cases ht : t ∈ seen
    · rw [if_pos ht, if_neg]
      intro h
      exact h.2 t (List.mem_cons_self ..) ht
    · simp only [ht, if_false, Bool.false_eq_true, ih]
      by_cases hg : ts.Nodup ∧ ∀ t' ∈ ts, t' ∉ t :: seen
      · rw [if_pos hg, if_pos]
        · rfl
        · refine ⟨List.nodup_cons.2 ⟨fun h => hg.2 t h (List.mem_cons_self ..), hg.1⟩, ?_⟩
          intro t' h'
          rcases List.mem_cons.1 h' with rfl | h'
          · exact ht
          · exact fun h => hg.2 t' h' (List.mem_cons_of_mem _ h)
      · rw [if_neg hg, if_neg]
        intro h
        apply hg
        refine ⟨(List.nodup_cons.1 h.1).2, fun t' h' => ?_⟩
        intro hm
        rcases List.mem_cons.1 hm with rfl | hm
        · exact (List.nodup_cons.1 h.1).1 h'
        · exact h.2 t' (List.mem_cons_of_mem _ h') hm

/-- no read fails: ReIndex and Dump -/
theorem C81_good_reIndex_dump (size : Nat) (t : Table T F) (commitOk : Nat → Bool) (db : KV) (idxs : List (Index T))
    (snap : KV) (live : Nat → KV) (full : List Entry → Bool) (tables : List UInt8) :
    t.reIndexBsF size commitOk none db idxs = t.reIndexBs size commitOk db idxs ∧
    dumpF snap full (fun _ => none) tables = dump snap live full false tables := by
  refine ⟨rfl, ?_⟩
  unfold dumpF dump
  rw [dumpLoop_noIndex]
  by_cases h : tables.Nodup
  · rw [if_pos h, if_pos ⟨h, fun t _ => by simp⟩]; rfl
  · rw [if_neg h, if_neg (fun h' => h h'.1)]

/-- C81 is false for selectors of several parts: the read of the first point fails, and the scan returns the second row
without an error. -/
theorem C81_refuted_parts :
    exTable.scanIndex (stdEnv exTable) () exDB none exIndex (.points [(1, 5), (2, 6)]) false 9 [] = some ⟨[(1, 5), (2, 6)], none⟩ ∧
    exTable.scanIndexF (stdEnv exTable) () (fun i => if i = 0 then some 0 else none) (fun _ => false) exDB none exIndex
      (.points [(1, 5), (2, 6)]) false 9 [] = some ⟨[(2, 6)], none⟩ := by decide

/-- C81 is false for queries with Intersects: the read of the second index fails, and the intersection is empty, without an
error. -/
theorem C81_refuted_intersect :
    exTable.intersect (stdEnv exTable) exDB none exIndex (.range (0, 0) (9, 9)) [exQuery] =
      .ok [exTable.key (1, 5), exTable.key (2, 6)] ∧
    exTable.intersectF (stdEnv exTable) (fun n _ => if n = 1 then some 0 else none) exDB none exIndex (.range (0, 0) (9, 9)) [exQuery] =
      .ok [] := by decide

/-- C81 is false for ReIndex: the read of the second row fails, and the index lacks its entry although ReIndex reports
success. -/
theorem C81_refuted_reIndex :
    let o := exTable.reIndexBsF 9 (fun _ => true) (some 1) exDB [exIndex]
    o.err = none ∧ (o.db exDB).get (exTable.indexKey exIndex (1, 5)) = some [] ∧
      (o.db exDB).get (exTable.indexKey exIndex (2, 6)) = none ∧ (o.db exDB).get (exTable.key (2, 6)) = some [2, 6] := by decide

/-- C81 is false for Dump: the read of the second row fails, and the dump lacks it although Dump reports success. -/
theorem C81_refuted_dump :
    dumpF exDB (fun _ => false) (fun _ => some 1) [7] =
      .ok ⟨beBytes 4 1, [⟨7, 0, tableDirName 7, [[(exTable.key (1, 5), [1, 5])]]⟩]⟩ ∧
    dump exDB (fun _ => exDB) (fun _ => false) false [7] =
      .ok ⟨beBytes 4 1, [⟨7, 0, tableDirName 7, [[(exTable.key (1, 5), [1, 5]), (exTable.key (2, 6), [2, 6])]]⟩]⟩ := by decide

end Bond
