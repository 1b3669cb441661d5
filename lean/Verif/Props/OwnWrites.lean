import Verif.OwnWritesLemmas
import Verif.Props.Scans
/-
C62 for all callbacks: scans whose callback writes to the table.
-/
namespace Bond
open Spec
variable {T F σ : Type}

/-- C62 on the primary index, for a point or a range: whatever the callback does to the database, it is called once for each row that
was selected when the scan began, in order and with the record of that moment, until it asks to stop. -/
theorem C62_primary {t : Table T F} {env : Env T} {filt : F} {view : σ → KV × Option Batch} {s : σ} {m : Rows T}
    (S : Setting t env filt (view s).1 (view s).2 m) {sel : Selector T} (hs : sel.OK t.primaryIndex)
    (hone : (∃ p, sel = .point p) ∨ ∃ lo up, sel = .range lo up) (f : σ → Bytes → Cb σ T) (reverse : Bool) :
    ∃ rows, (∀ rev, Yields t env filt (view s).1 (view s).2 t.primaryIndex sel rev (dir rev rows)) ∧ ∀ fuel, rows.length ≤ fuel →
      t.scanIndexForEach env filt view t.primaryIndex sel f reverse fuel s = some (runRows f (seen t t.primaryIndex (dir reverse rows)) s) := by
  have hi : IsIndex t t.primaryIndex := Or.inr rfl
  obtain ⟨b, hb⟩ : ∃ b, boundsOf t t.primaryIndex sel = [b] := by
    rcases hone with ⟨p, rfl⟩ | ⟨lo, up, rfl⟩ <;> exact ⟨_, rfl⟩
  obtain ⟨rows, h1, h2, _⟩ := S.single hi hs hb
  obtain ⟨hb1, hb2⟩ := iterBounds_eq S.wf hi hs
  obtain ⟨V, hV, hH⟩ := S.content
  refine ⟨rows, h2, fun fuel hfuel => ?_⟩
  have := scanIndexForEach_eq S.wf S.rt S.ok S.alive (filt := filt) S.prefetch hi hH hb1 hb2 (f := f) hV (reverse := reverse) (parts := [rows])
    (by rw [hb]; exact .cons h1 .nil) (fetched := fun _ => True) (inv := fun _ _ => True) (fuel := fuel) (Or.inl rfl)
  simpa using this (by simpa using hfuel)

/-- C62 on a secondary index, for a point or a range: what exactly happens when the callback does whatever it likes to the table, as long
as it fetches every row (after possibly skipping an initial run) and stops when it gets an error. The rows visited are those selected
when the scan began; their records are read in blocks of ScanPrefetchSize, when the callback asks for the first of them (`runBlocks`). -/
theorem C62_exact {t : Table T F} {env : Env T} {filt : F} {view : σ → KV × Option Batch} {inv : σ → Prop} {m : σ → Rows T}
    (S : OwnSetting t env filt view inv m) {idx : Index T} (hi : idx ∈ t.indexes) {sel : Selector T} (hs : sel.OK idx)
    (hone : (∃ p, sel = .point p) ∨ ∃ lo up, sel = .range lo up) {f : σ → Bytes → Cb σ T} {fetched : σ → Prop} (hf : FetchesAll f fetched)
    (hst : StopsOnError f) (hinv : CbInv f inv) {s : σ} (hs0 : inv s) (reverse : Bool) :
    ∃ rows, (∀ rev, Yields t env filt (view s).1 (view s).2 idx sel rev (dir rev rows)) ∧ ∀ fuel, rows.length ≤ fuel →
      t.scanIndexForEach env filt view idx sel f reverse fuel s = some (runBlocks t idx t.prefetch m f 0 (m s) (dir reverse rows) s) := by
  have hi' : IsIndex t idx := Or.inl hi
  have S0 : Setting t env filt (view s).1 (view s).2 (m s) := ⟨S.wf, S.rt, S.ok, S.alive, S.prefetch, S.content s hs0, S.covers s hs0⟩
  obtain ⟨b, hb⟩ : ∃ b, boundsOf t idx sel = [b] := by
    rcases hone with ⟨p, rfl⟩ | ⟨lo, up, rfl⟩ <;> exact ⟨_, rfl⟩
  obtain ⟨rows, h1, h2, _⟩ := S0.single hi' hs hb
  obtain ⟨hb1, hb2⟩ := iterBounds_eq S.wf hi' hs
  obtain ⟨V, hV, hH⟩ := S.content s hs0
  refine ⟨rows, h2, fun fuel hfuel => ?_⟩
  rw [hb] at hb1 hb2
  obtain ⟨rows', h3, h4⟩ := scan_rows S.wf hi' hH (hb2 b (by simp))
  have : rows' = rows := IsRows.unique S.wf hi' h4 h1
  subst this
  have hid := S.wf.nz idx hi
  unfold Table.scanIndexForEach Table.iterParts
  have hents : [b].map (fun b => iterEntries (view s).1 (view s).2 b.1 b.2) = [rows'].map (fun rows => rows.map (entryOf t idx)) := by
    simp only [List.map_cons, List.map_nil]
    rw [← h3]; unfold iterEntries; rw [hV]
  rw [hb1]
  simp only [Option.map_some, hents, walk_map t idx [rows'] reverse, if_neg (show ¬ idx.id = primaryIndexID from hid)]
  have hrest : (dir reverse [rows'].flatten).map (entryOf t idx) = (seen t idx (dir reverse rows')).map (fun r => (r.1, [])) := by
    simp only [seen, List.map_map, List.flatten_cons, List.flatten_nil, List.append_nil]
    apply List.map_congr_left
    intro x _
    simp only [Function.comp_def, entryOf]
    rw [if_neg (show ¬ idx.id = primaryIndexID from hid)]
  rw [hrest]
  exact ownOuter S hi' hf hst hinv fuel fuel _ 0 s hs0 (m s) (by rw [length_dir]; exact hfuel) (by rw [length_dir]; exact hfuel)

theorem runBlocks_runRows {t : Table T F} {idx : Index T} {n : Nat} {inv : σ → Prop} {m : σ → Rows T} {f : σ → Bytes → Cb σ T} (hinv : CbInv f inv)
    (rows : List T) (hp : ∀ s, inv s → ∀ x ∈ rows, (m s (t.pk x)).isSome) (left : Nat) (blk : Rows T)
    (hblk : ∃ s, inv s ∧ blk = m s) (s : σ) (hs : inv s) :
    ∃ recs : List T, recs.length = rows.length ∧ (∀ (i : Nat) (x r : T), rows[i]? = some x → recs[i]? = some r → ∃ s0, inv s0 ∧ m s0 (t.pk x) = some r) ∧
      runBlocks t idx n m f left blk rows s = runRows f ((rows.map (t.indexKey idx)).zip recs) s := by
  induction rows generalizing left blk s with
  | nil => exact ⟨[], rfl, by simp, rfl⟩
  | cons x rows ih =>
    have hp' : ∀ s, inv s → ∀ y ∈ rows, (m s (t.pk y)).isSome := fun s h y hy => hp s h y (by simp [hy])
    -- the record handed out
    have key : ∃ r left' blk', (∃ s0, inv s0 ∧ m s0 (t.pk x) = some r) ∧ (∃ s, inv s ∧ blk' = m s) ∧
        runBlocks t idx n m f left blk (x :: rows) s =
          (let out := (f s (t.indexKey idx x)).run (.ok r)
           if !out.2.1 || out.2.2.isSome then ⟨out.1, out.2.2⟩ else runBlocks t idx n m f left' blk' rows out.1) := by
      have hcur : ∀ s0, inv s0 → m s0 (t.pk x) = some ((m s0 (t.pk x)).getD x) := by
        intro s0 h0
        obtain ⟨r, hr⟩ := Option.isSome_iff_exists.1 (hp s0 h0 x (by simp))
        rw [hr]; rfl
      cases hc : f s (t.indexKey idx x) with
      | ret s' cont err =>
        refine ⟨_, left, blk, ⟨s, hs, hcur s hs⟩, hblk, ?_⟩
        simp only [runBlocks, hc, Cb.asked, Cb.run]
        rfl
      | get s0 g =>
        have h0 := hinv.asks s (t.indexKey idx x) s0 hs (by rw [hc]; rfl)
        by_cases hl : left = 0
        · have hall : ((x :: rows).take n).all (fun y => (m s0 (t.pk y)).isSome) = true := by
            rw [List.all_eq_true]
            exact fun y hy => hp s0 h0 y (List.mem_of_mem_take hy)
          refine ⟨_, ((x :: rows).take n).length - 1, m s0, ⟨s0, h0, hcur s0 h0⟩, ⟨s0, h0, rfl⟩, ?_⟩
          · simp only [runBlocks, hc, Cb.asked, if_pos hl, hall, if_true]
        · obtain ⟨s1, h1, rfl⟩ := hblk
          refine ⟨_, left - 1, m s1, ⟨s1, h1, hcur s1 h1⟩, ⟨s1, h1, rfl⟩, ?_⟩
          simp only [runBlocks, hc, Cb.asked, if_neg hl]
    obtain ⟨r, left', blk', hr, hb', hrun⟩ := key
    have hs' := hinv.returns s (t.indexKey idx x) (.ok r) hs
    obtain ⟨recs, e1, e2, e3⟩ := ih hp' left' blk' hb' _ hs'
    refine ⟨r :: recs, by simp [e1], ?_, ?_⟩
    · intro i y r' hy hr'
      cases i with
      | zero =>
        simp only [List.getElem?_cons_zero, Option.some.injEq] at hy hr'
        subst hy; subst hr'
        exact hr
      | succ i =>
        simp only [List.getElem?_cons_succ] at hy hr'
        exact e2 i y r' hy hr'
    · rw [hrun]
      simp only [List.map_cons, List.zip_cons_cons, runRows, e3]

/-- C62 on a secondary index for callbacks that may write anything but never take away a row that was selected when the scan began (in
particular Insert, Update and Upsert): each of these rows is visited once, in order; the callback gets, under the index key of the row, the
record that is stored for it at some moment of the scan.
Missing for the full C62: that this is the record of the moment when the callback is called (`C62_refuted_stale`), and callbacks that delete
rows to come (`C62_refuted_error`); `C62_exact` says what happens then. -/
theorem C62_keeps_partial {t : Table T F} {env : Env T} {filt : F} {view : σ → KV × Option Batch} {inv : σ → Prop} {m : σ → Rows T}
    (S : OwnSetting t env filt view inv m) {idx : Index T} (hi : idx ∈ t.indexes) {sel : Selector T} (hs : sel.OK idx)
    (hone : (∃ p, sel = .point p) ∨ ∃ lo up, sel = .range lo up) {f : σ → Bytes → Cb σ T} {fetched : σ → Prop} (hf : FetchesAll f fetched)
    (hst : StopsOnError f) (hinv : CbInv f inv) {s : σ} (hs0 : inv s)
    (hkeep : ∀ s', inv s' → ∀ pk, (m s pk).isSome → (m s' pk).isSome) (reverse : Bool) :
    ∃ rows recs : List T, (∀ rev, Yields t env filt (view s).1 (view s).2 idx sel rev (dir rev rows)) ∧ recs.length = rows.length ∧
      (∀ (i : Nat) (x r : T), (dir reverse rows)[i]? = some x → recs[i]? = some r → ∃ s1, inv s1 ∧ m s1 (t.pk x) = some r) ∧
      ∀ fuel, rows.length ≤ fuel → t.scanIndexForEach env filt view idx sel f reverse fuel s =
        some (runRows f (((dir reverse rows).map (t.indexKey idx)).zip recs) s) := by
  obtain ⟨rows, h1, h2⟩ := C62_exact S hi hs hone hf hst hinv hs0 reverse
  have S0 : Setting t env filt (view s).1 (view s).2 (m s) := ⟨S.wf, S.rt, S.ok, S.alive, S.prefetch, S.content s hs0, S.covers s hs0⟩
  obtain ⟨b, hb⟩ : ∃ b, boundsOf t idx sel = [b] := by
    rcases hone with ⟨p, rfl⟩ | ⟨lo, up, rfl⟩ <;> exact ⟨_, rfl⟩
  obtain ⟨rows', h3, h4, _⟩ := S0.single (Or.inl hi) hs hb
  have hrows : rows' = rows := by
    have := Yields.unique (h4 false) (h1 false)
    simpa [dir] using this
  subst hrows
  obtain ⟨recs, e1, e2, e3⟩ := runBlocks_runRows (idx := idx) (n := t.prefetch) (m := m) hinv (dir reverse rows') (fun s' hs' x hx =>
    hkeep s' hs' _ (by rw [((h3.2 x).1 ((mem_dir _ _ _).1 hx)).1.1]; rfl)) 0 (m s) ⟨s, hs0, rfl⟩ s hs0
  exact ⟨rows', recs, h1, by rw [e1, length_dir], e2, fun fuel hfuel => by rw [h2 fuel hfuel, e3]⟩

/-- `exDB` after the row (2,6) was deleted -/
def exDB2 : KV := (exTable.delete (stdEnv exTable) exDB () none [(2, 6)]).db

theorem exDB2_holds : Holds exTable exDB2 (exRows.erase [2]) := by
  obtain ⟨m', a, _, _, d⟩ := C17_partial exTable_wf (stdEnv_ok exTable) exDB_holds (f := ()) (covers_nofilter rfl _ _) (trs := [(2, 6)])
    (by
      intro y hy old hold idx' hidx hfo
      simp only [List.mem_singleton] at hy
      subst hy
      have : old = (2, 6) := by
        have h2 : exRows (exTable.pk (2, 6)) = some (2, 6) := by decide
        rw [show Rows.putAll (fun _ => none) exTable.pk [(1, 5), (2, 6)] = exRows from rfl, h2] at hold
        exact (Option.some.inj hold).symm
      subst this
      exact ⟨hfo, rfl⟩) (by decide)
  have : m' = exRows.erase [2] := by
    funext q
    rw [d]
    by_cases h : q = [2]
    · subst h; decide
    · rw [if_neg (by simpa [exTable] using h), Rows.erase, if_neg h]; rfl
  rw [← this]; exact a

/-- test callback: collects the rows, and deletes the row (2,6) when it is called first; the state says whether this is done -/
def delSecondCb (s : Bool × List Rec) (_ : Bytes) : Cb (Bool × List Rec) Rec :=
  .get s (fun
    | .error e => .ret s false (some e)
    | .ok x => .ret (true, s.2 ++ [x]) true none)

theorem exOwnSetting : OwnSetting exTable (stdEnv exTable) ()
    (fun s : Bool × List Rec => (if s.1 then exDB2 else exDB, none)) (fun _ => True) (fun s => if s.1 then exRows.erase [2] else exRows) where
  wf := exTable_wf
  rt := fun x b hb => exTable_rt x b hb _
  ok := stdEnv_ok exTable
  alive := fun _ => rfl
  prefetch := by decide
  content := by
    rintro ⟨b, l⟩ _
    cases b
    · exact ⟨exDB, rfl, exDB_holds⟩
    · exact ⟨exDB2, rfl, exDB2_holds⟩
  covers := fun _ _ => covers_nofilter rfl _ _

theorem delSecondCb_fetches : FetchesAll delSecondCb (fun _ => True) := by
  have h1 : ∀ s k, (delSecondCb s k).oneGet := by
    intro s k
    refine ⟨_, _, rfl, ?_⟩
    intro r; cases r <;> exact ⟨_, _, _, rfl⟩
  exact ⟨fun s k => Or.inr (h1 s k), fun s k _ => h1 s k, fun _ _ _ _ _ => trivial⟩

theorem delSecondCb_stops : StopsOnError delSecondCb := by
  intro s k e _ h
  simp [delSecondCb, Cb.run] at h

/-- `C62_exact` at a callback that deletes the second of two rows when it gets the first -/
example := C62_exact exOwnSetting (idx := exIndex) (by simp [exTable]) (sel := .range (0, 0) (9, 9)) exRange_ok (Or.inr ⟨_, _, rfl⟩) delSecondCb_fetches
  delSecondCb_stops ⟨fun _ _ _ _ _ => trivial, fun _ _ _ _ => trivial⟩ (s := (false, [])) trivial false

/-- with blocks of at least two rows the callback gets both, with blocks of one row an error -/
example : runBlocks exTable exIndex 2 (fun s => if s.1 then exRows.erase [2] else exRows) delSecondCb 0 exRows [(1, 5), (2, 6)] (false, []) =
      ⟨(true, [(1, 5), (2, 6)]), none⟩ ∧
    runBlocks exTable exIndex 1 (fun s => if s.1 then exRows.erase [2] else exRows) delSecondCb 0 exRows [(1, 5), (2, 6)] (false, []) =
      ⟨(true, [(1, 5)]), some .notFound⟩ := by decide

/-- `C62_primary` at the same callback -/
example := C62_primary (σ := Bool × List Rec) (view := fun s => (if s.1 then exDB2 else exDB, none)) (s := (false, [])) exSetting
  (sel := .range (1, 0) (2, 0)) ⟨by decide, by intro p _; simp [Table.primaryIndex]⟩ (Or.inr ⟨_, _, rfl⟩) delSecondCb true

/-- `C62_keeps_partial` at a callback that brings the row (2,6) back when it gets the first row -/
example := C62_keeps_partial (filt := ()) (view := fun s : Bool × List Rec => (if s.1 then exDB else exDB2, none)) (inv := fun _ => True)
  (m := fun s => if s.1 then exRows else exRows.erase [2])
  ⟨exTable_wf, fun x b hb => exTable_rt x b hb _, stdEnv_ok exTable, fun _ => rfl, by decide,
    (by rintro ⟨b, l⟩ _; cases b <;> first | exact ⟨exDB2, rfl, exDB2_holds⟩ | exact ⟨exDB, rfl, exDB_holds⟩), fun _ _ => covers_nofilter rfl _ _⟩
  (idx := exIndex) (by simp [exTable]) (sel := .range (0, 0) (9, 9)) exRange_ok (Or.inr ⟨_, _, rfl⟩) delSecondCb_fetches
  delSecondCb_stops ⟨fun _ _ _ _ _ => trivial, fun _ _ _ _ => trivial⟩ (s := (false, [])) trivial
  (by
    rintro ⟨b, l⟩ _ pk h
    cases b
    · exact h
    · simp only [Bool.false_eq_true, if_false, Rows.erase] at h
      by_cases hp : pk = [2]
      · subst hp; show (exRows [2]).isSome = true; decide
      · rw [if_neg hp] at h; exact h) false

end Bond
