import Verif.Props.Queries
import Verif.Spec.Cancelled
import Verif.Props.Scans
import Verif.Props.Reads
/-
C69: reads through write-only batches. C71: reads whose context is done. C27: Get with ranges.
-/
namespace Bond
open Spec
variable {T F σ : Type}

/-! ## C27 for Get -/

/-- C27 for `Get` with a range, under the conditions of `C27_partial`: it returns exactly the rows with primary keys between those of the
bounds, both included, each once, in the order of the primary keys. -/
theorem C27_get_partial {t : Table T F} {env : Env T} {filt : F} {db : KV} {ob : Option Batch} {m : Rows T}
    (S : Setting t env filt db ob m) {lo up : T} (hne : t.pk up ≠ []) (hn : NoTrailingFF (t.pk up))
    (hext : ∀ x r, m (t.pk up ++ r) = some x → r = []) :
    ∃ rows N, (∀ fuel, N ≤ fuel → t.get env filt db ob (.range lo up) fuel = some (.ok rows)) ∧
      rows.Pairwise (fun x y => blt (t.pk x) (t.pk y) = true) ∧
      ∀ x, x ∈ rows ↔ m (t.pk x) = some x ∧ ble (t.pk lo) (t.pk x) = true ∧ ble (t.pk x) (t.pk up) = true := by
  obtain ⟨rows, h1, h2⟩ := C27_partial S (idx := t.primaryIndex) (Or.inr rfl) (lo := lo) (up := up) hne hn
    (by intro p _; simp [Table.primaryIndex]) (by intro pk x hx _ _ r hr; subst hr; exact hext x r hx)
  obtain ⟨N, hN⟩ := h2 false
  have hlt : ∀ x y, IdxLt t t.primaryIndex x y ↔ blt (t.pk x) (t.pk y) = true := by
    intro x y; unfold IdxLt; simp [Table.primaryIndex, blt_irrefl]
  have hle : ∀ x y, IdxLe t t.primaryIndex x y ↔ ble (t.pk x) (t.pk y) = true := by
    intro x y; unfold IdxLe; rw [hlt]; simp [ble]
  refine ⟨rows, N, fun fuel hf => ?_, h1.1.imp (fun {x y} h => (hlt x y).1 h), fun x => ?_⟩
  · simp only [Table.get]
    rw [hN fuel hf []]
    simp [dir]
  · rw [h1.2 x]
    simp only [hle]
    unfold Indexed
    simp [Table.primaryIndex]

/-- the theorem at the range from (1,·) to (2,·) -/
example := C27_get_partial exSetting (lo := (1, 0)) (up := (2, 0)) (by decide) (by simp [NoTrailingFF, exTable]) (by
    intro x r h
    have := (exDB_holds.row_pk _ x h).symm
    simp [exTable] at this
    exact this.2)

/-- `Get` with several ranges returns what `Get` with each of them returns, one after the other. -/
theorem C28_get {t : Table T F} {env : Env T} {filt : F} {db : KV} {ob : Option Batch} {m : Rows T}
    (S : Setting t env filt db ob m) {rs : List (T × T)} (hne : rs ≠ []) {r : T × T → List T}
    (hr : ∀ p ∈ rs, ∃ N, ∀ fuel, N ≤ fuel → t.get env filt db ob (.range p.1 p.2) fuel = some (.ok (r p))) :
    ∃ N, ∀ fuel, N ≤ fuel → t.get env filt db ob (.ranges rs) fuel = some (.ok (rs.flatMap r)) := by
  have hi : IsIndex t t.primaryIndex := Or.inr rfl
  have hk : ∀ x, (t.primaryIndex.key x).length < 2 ^ 32 - 1 := by intro x; simp [Table.primaryIndex]
  have hy : ∀ p ∈ rs, Yields t env filt db ob t.primaryIndex (.range p.1 p.2) false (r p) := by
    intro p hp
    obtain ⟨rows, _, h2, _⟩ := S.single hi (sel := .range p.1 p.2) ⟨by simp [Selector.elems], fun x _ => hk x⟩ rfl
    have h2 := h2 false
    have : rows = r p := by
      obtain ⟨N, hN⟩ := h2
      obtain ⟨M, hM⟩ := hr p hp
      have := hM (N + M) (by omega)
      simp only [Table.get] at this
      rw [hN (N + M) (by omega) []] at this
      simpa [dir] using this
    simpa [dir, this] using h2
  obtain ⟨N, hN⟩ := C28_ranges S hi (rs := rs) ⟨by
    cases rs with
    | nil => exact absurd rfl hne
    | cons p ps => simp [Selector.elems], fun x _ => hk x⟩ hy false
  refine ⟨N, fun fuel hf => ?_⟩
  simp only [Table.get]
  rw [hN fuel hf []]
  simp [dir]

example : exTable.get (stdEnv exTable) () exDB none (.range (1, 0) (2, 0)) 9 = some (.ok [(1, 5), (2, 6)]) ∧
    exTable.get (stdEnv exTable) () exDB none (.ranges [((2, 0), (2, 0)), ((1, 0), (2, 0))]) 9 = some (.ok [(2, 6), (1, 5), (2, 6)]) ∧
    exTable.pk (2, 0) ≠ [] ∧ NoTrailingFF (exTable.pk (2, 0)) := by
  refine ⟨by decide, by decide, by decide, by simp [NoTrailingFF, exTable]⟩

/-! ## C69 Reads through a batch -/

/-- C69 for read-write batches (and without batch): the reads answer from the committed rows together with the writes in the batch.
Missing for the full C69: write-only batches (`C69_blind`). -/
theorem C69_partial {t : Table T F} (rt : t.RoundTripFresh) {filt : F} {db : KV} {b : Batch} (hb : b.indexed = true) {m : Rows T}
    (hH : Holds t (db.apply b.ops) m) (hF : FilterCovers t filt m) (x : T) :
    t.exist filt db (some b) x = (m (t.pk x)).isSome ∧
    t.getPoint filt db (some b) x = (match m (t.pk x) with | some r => .ok r | none => .error .notFound) := by
  have hr : readable db (some b) = some (db.apply b.ops) := by simp [readable, hb]
  have hkey : t.key x = dataKey t.id (t.pk x) := rfl
  cases hm : m (t.pk x) with
  | none =>
    have ha := hH.absent _ hm
    have hg : t.getOne filt db (some b) x = .error .notFound := by
      unfold Table.getOne
      rw [hr]
      split
      · rfl
      · simp only [hkey, ha]
    constructor
    · unfold Table.exist
      rw [hr]
      split
      · rfl
      · simp only [hkey, ha]; rfl
    · unfold Table.getPoint; rw [hg]
  | some r =>
    obtain ⟨v, hv1, hv2⟩ := hH.present _ r hm
    have hmay : t.mayContain filt (t.key x) = true := by
      unfold Table.mayContain
      cases hf : t.filter with
      | none => rfl
      | some fl => exact hF fl hf _ r hm
    constructor
    · unfold Table.exist
      rw [hmay, hr]
      simp only [hkey, hv2]; rfl
    · unfold Table.getPoint Table.getOne
      rw [hmay, hr]
      simp only [hkey, hv2, Bool.not_true, Bool.false_eq_true, if_false, rt r v hv1]

example : (Batch.mk true [.set (exTable.key (3, 0)) [3, 7]]).indexed = true ∧
    exTable.getPoint () exDB (some ⟨true, [.set (exTable.key (3, 0)) [3, 7]]⟩) (3, 0) = .ok (3, 7) := by decide

/-- C69 is false for write-only batches, whatever is stored: Exist says no, GetPoint says not found, and scans end at once with success and
no rows. -/
theorem C69_blind (t : Table T F) (filt : F) (db : KV) {b : Batch} (hb : b.indexed = false) (x : T) :
    t.exist filt db (some b) x = false ∧ t.getPoint filt db (some b) x = .error .notFound ∧
    ∀ (env : Env T) (lo up : T) (idx : Index T) (reverse : Bool) (fuel : Nat) (tr : List T),
      t.scanIndex env filt db (some b) idx (.range lo up) reverse fuel tr = some ⟨tr, none⟩ := by
  have hr : readable db (some b) = none := by simp [readable, hb]
  have hg : t.getOne filt db (some b) x = .error .notFound := by
    unfold Table.getOne; rw [hr]; split <;> rfl
  refine ⟨by unfold Table.exist; rw [hr]; split <;> rfl, by unfold Table.getPoint; rw [hg], ?_⟩
  intro env lo up idx reverse fuel tr
  unfold Table.scanIndex Table.scanIndexForEach Table.iterParts Table.iterBounds iterEntries
  rw [hr]
  have hw : walk [[]] reverse = [] := by cases reverse <;> rfl
  simp only [Option.map_some, List.map_cons, List.map_nil, hw]
  split
  · rfl
  · cases fuel <;> simp [Table.outerLoop]

/-- the theorem at a stored row and a write-only batch that sets another -/
example := C69_blind exTable () exDB (b := ⟨false, [.set (exTable.key (3, 0)) [3, 7]]⟩) rfl (1, 0)

/-- the stored row (1, 5), seen directly and through an empty write-only batch -/
theorem C69_refuted :
    exTable.getPoint () exDB none (1, 0) = .ok (1, 5) ∧ exTable.exist () exDB none (1, 0) = true ∧
    exTable.getPoint () exDB (some ⟨false, []⟩) (1, 0) = .error .notFound ∧ exTable.exist () exDB (some ⟨false, []⟩) (1, 0) = false := by
  decide

/-! ## C71 Reads stop when the context is done -/

/-- What a scan with a context should do: ask before each row whether the context is done; if so, return its error and do not call the
callback again. `n` counts the questions. -/
def Spec.runCtx (d : Nat → Bool) (f : σ → Bytes → Cb σ T) : Nat → List (Bytes × T) → σ → ScanOut σ
  | _, [], s => ⟨s, none⟩
  | n, (k, x) :: rest, s =>
    if d n then ⟨s, some .ctxDone⟩
    else
      let (s', cont, err) := (f s k).run (.ok x)
      if !cont || err.isSome then ⟨s', err⟩ else Spec.runCtx d f (n + 1) rest s'

theorem scanPrimaryLoop_ctx {t : Table T F} (rt : t.RoundTripFresh) (d : Nat → Bool)
    (f : σ → Bytes → Cb σ T) (rows : List T) (hser : ∀ x ∈ rows, (t.ser x).isSome) (clock : Nat) (s : σ) :
    t.scanPrimaryLoop d f (rows.map (entryOf t t.primaryIndex)) clock s = Spec.runCtx d f clock (seen t t.primaryIndex rows) s := by
  induction rows generalizing clock s with
  | nil => rfl
  | cons x rows ih =>
    obtain ⟨b, hb⟩ := Option.isSome_iff_exists.1 (hser x (by simp))
    have hdec : t.decode ((t.ser x).getD []) = .ok x := by
      rw [hb]; simp only [Option.getD_some, Table.decode, rt x b hb]
    have hent : entryOf t t.primaryIndex x = (t.indexKey t.primaryIndex x, (t.ser x).getD []) := by
      simp [entryOf, Table.primaryIndex]
    rw [List.map_cons, hent, Table.scanPrimaryLoop]
    simp only [hdec]
    simp only [seen, List.map_cons, Spec.runCtx]
    split
    · rfl
    · split
      · rfl
      · exact ih (fun y hy => hser y (by simp [hy])) _ _

/-- the entries a scan walks over -/
theorem scan_entries {t : Table T F} {env : Env T} {filt : F} {db : KV} {ob : Option Batch} {m : Rows T}
    (S : Setting t env filt db ob m) {idx : Index T} (hi : IsIndex t idx) {sel : Selector T} (hs : sel.OK idx) {reverse : Bool} {rows : List T}
    (hy : Yields t env filt db ob idx sel reverse rows) :
    ∃ parts, t.iterParts db ob idx sel = some parts ∧ walk parts reverse = rows.map (entryOf t idx) ∧ ∀ x ∈ rows, (t.ser x).isSome := by
  obtain ⟨V, hr, hH⟩ := S.content
  obtain ⟨h1, h2⟩ := iterBounds_eq S.wf hi hs
  obtain ⟨parts, h3, hp⟩ := scan_parts S.wf hi hH _ h2
  have hrows : rows = dir reverse parts.flatten := hy.unique ⟨parts.flatten.length, fun fuel hf tr =>
      scanIndex_eq S.wf S.rt S.ok S.alive S.prefetch hi hr hH S.covers h1 h2 hp reverse tr hf⟩
  refine ⟨parts.map (fun rows => rows.map (entryOf t idx)), ?_, by rw [walk_map, hrows], ?_⟩
  · unfold Table.iterParts
    rw [h1, Option.map_some, ← h3]
    unfold iterEntries; rw [hr]
  · intro x hx
    rw [hrows, mem_dir] at hx
    obtain ⟨b, hb, _⟩ := hH.present _ x (hp.indexed x hx).1
    simp [hb]

/-- C71 on the primary index, for all callbacks, selectors and contexts: the scan asks the context before each row and stops with its error.
Missing for the full C71: secondary indexes, where the context is asked once per block of prefetched rows (`C71_refuted`). -/
theorem C71_partial {t : Table T F} {env : Env T} {filt : F} {db : KV} {ob : Option Batch} {m : Rows T}
    (S : Setting t env filt db ob m) {sel : Selector T} (hs : sel.OK t.primaryIndex) {reverse : Bool} {rows : List T}
    (hy : Yields t env filt db ob t.primaryIndex sel reverse rows) (d : Nat → Bool) (f : σ → Bytes → Cb σ T) (fuel : Nat) (s : σ) :
    t.scanIndexForEach (env.withDone d) filt (fun _ => (db, ob)) t.primaryIndex sel f reverse fuel s =
      some (Spec.runCtx d f 0 (seen t t.primaryIndex rows) s) := by
  obtain ⟨parts, h1, h2, h3⟩ := scan_entries S (Or.inr rfl) hs hy
  unfold Table.scanIndexForEach
  simp only [h1, h2]
  rw [if_pos (show t.primaryIndex.id = primaryIndexID from rfl)]
  simp only [Env.withDone]
  rw [scanPrimaryLoop_ctx S.rt d f rows h3]

/-- C71 on every index: with a context that is done already, a scan that would find a row returns the context's error and the callback is
not called. -/
theorem C71_done {t : Table T F} {env : Env T} {filt : F} {db : KV} {ob : Option Batch} {m : Rows T}
    (S : Setting t env filt db ob m) {idx : Index T} (hi : IsIndex t idx) {sel : Selector T} (hs : sel.OK idx) {reverse : Bool} {rows : List T}
    (hy : Yields t env filt db ob idx sel reverse rows) (hne : rows ≠ []) {d : Nat → Bool} (hd : d 0 = true)
    (f : σ → Bytes → Cb σ T) {fuel : Nat} (hf : 0 < fuel) (s : σ) :
    t.scanIndexForEach (env.withDone d) filt (fun _ => (db, ob)) idx sel f reverse fuel s = some ⟨s, some .ctxDone⟩ := by
  obtain ⟨parts, h1, h2, h3⟩ := scan_entries S hi hs hy
  obtain ⟨x, rest, rfl⟩ : ∃ x rest, rows = x :: rest := by
    cases rows with
    | nil => exact absurd rfl hne
    | cons x rest => exact ⟨x, rest, rfl⟩
  obtain ⟨fuel, rfl⟩ : ∃ n, fuel = n + 1 := ⟨fuel - 1, by omega⟩
  unfold Table.scanIndexForEach
  simp only [h1, h2, List.map_cons]
  obtain ⟨k, v, hkv⟩ : ∃ k v, entryOf t idx x = (k, v) := ⟨_, _, rfl⟩
  rw [hkv]
  split
  · simp [Table.scanPrimaryLoop, Env.withDone, hd]
  · simp [Table.outerLoop, Env.withDone, hd]

/-- C71 for queries: with a context that is done already, a query without After and Intersects whose selector has a row returns the context's
error. -/
theorem C71_query {t : Table T F} {env : Env T} {filt : F} {db : KV} {ob : Option Batch} {m : Rows T}
    (S : Setting t env filt db ob m) (srt : (T → T → Bool) → List T → List T) (q : Query T) (hint : q.intersects = []) (haft : q.after = none)
    (hi : IsIndex t q.index) (hs : q.sel.OK q.index) {rows : List T} (hy : Yields t env filt db ob q.index q.sel q.reverse rows) (hne : rows ≠ [])
    {d : Nat → Bool} (hd : d 0 = true) {fuel : Nat} (hf : 0 < fuel) :
    q.execute t (env.withDone d) srt filt db ob fuel = some (.error .ctxDone) := by
  unfold Query.execute Query.executeQuery
  rw [hint, if_pos (by rfl), haft]
  simp only
  rw [C71_done S hi hs hy hne hd _ hf]

theorem exPrimary_ok : (Selector.range (1, 0) (2, 0) : Selector Rec).OK exTable.primaryIndex :=
  ⟨by decide, by intro p _; simp [Table.primaryIndex]⟩

/-- `C71_partial` at two rows and a context that is done after the first -/
example : ∃ rows, Yields exTable (stdEnv exTable) () exDB none exTable.primaryIndex (.range (1, 0) (2, 0)) false rows ∧ ∀ fuel,
    exTable.scanIndexForEach ((stdEnv exTable).withDone (fun n => decide (1 ≤ n))) () (fun _ => (exDB, none)) exTable.primaryIndex (.range (1, 0) (2, 0))
      scanIndexCb false fuel [] = some (Spec.runCtx (fun n => decide (1 ≤ n)) scanIndexCb 0 (seen exTable exTable.primaryIndex rows) []) := by
  obtain ⟨rows, h, _⟩ := C25 exSetting (Or.inr rfl) exPrimary_ok false
  exact ⟨rows, h, fun fuel => C71_partial exSetting exPrimary_ok h _ _ fuel []⟩

/-- `C71_done` and `C71_query` at the group of (2,6) and a context that is done -/
example (fuel : Nat) (hf : 0 < fuel) : exTable.scanIndexForEach ((stdEnv exTable).withDone (fun _ => true)) () (fun _ => (exDB, none)) exIndex
      (.point (0, 6)) scanIndexCb false fuel [] = some ⟨[], some .ctxDone⟩ ∧
    ({ exQuery with sel := .point (0, 6) } : Query Rec).execute exTable ((stdEnv exTable).withDone (fun _ => true)) insSort () exDB none fuel =
      some (.error .ctxDone) := by
  have hs : (Selector.point (0, 6) : Selector Rec).OK exIndex := ⟨by decide, by intro p _; simp [exIndex]⟩
  obtain ⟨rows, h, _⟩ := C25 exSetting exIndex_is hs false
  have hne : rows ≠ [] := List.ne_nil_of_mem (C26_complete exSetting exIndex_is (by simp [exIndex]) h (2, 6) (by decide) rfl rfl
    (by simp [IdxLe, IdxLt, exIndex, exTable, blt]))
  exact ⟨C71_done exSetting exIndex_is hs h hne rfl _ hf _, C71_query exSetting insSort { exQuery with sel := .point (0, 6) } rfl rfl exIndex_is hs h hne rfl hf⟩

example : (Selector.range (1, 0) (2, 0) : Selector Rec).OK exTable.primaryIndex ∧
    exTable.scanIndex ((stdEnv exTable).withDone (fun n => decide (1 ≤ n))) () exDB none exTable.primaryIndex (.range (1, 0) (2, 0)) false 9 [] =
      some ⟨[(1, 5)], some .ctxDone⟩ ∧
    exTable.scanIndex ((stdEnv exTable).withDone (fun _ => true)) () exDB none exIndex (.range (0, 0) (9, 9)) false 9 [] = some ⟨[], some .ctxDone⟩ := by
  refine ⟨⟨by decide, ?_⟩, by decide, by decide⟩
  intro p _; simp [Table.primaryIndex]

/-- C71 is false on a secondary index: a context that is done after the first row is not noticed, and the scan reports success. -/
theorem C71_refuted :
    exTable.scanIndex ((stdEnv exTable).withDone (fun n => decide (1 ≤ n))) () exDB none exIndex (.range (0, 0) (9, 9)) false 9 [] =
      some ⟨[(1, 5), (2, 6)], none⟩ := by
  decide

end Bond
