import Verif.ServedLemmas
import Verif.Props.Scans
/-
C35 for callbacks that fetch some rows and not others.
-/
namespace Bond
open Spec
variable {T F σ : Type}

/-- the relation `Served` describes at most one result -/
theorem C35_served_unique {f : σ → Bytes → Cb σ T} {n left : Nat} {rows : List (Bytes × T)} {s : σ} {o o' : ScanOut σ}
    (h : Served f n left rows s o) (h' : Served f n left rows s o') : o = o' := by
  induction h with
  | done => cases h'; rfl
  | stop hgo =>
    cases h' with
    | stop _ => rfl
    | fetch h _ _ => exact absurd h hgo
    | pass h _ _ => exact absurd h hgo
    | again h _ _ => exact absurd h hgo
  | fetch hgo ha _ ih =>
    cases h' with
    | stop h => exact absurd hgo h
    | fetch _ _ next => exact ih next
    | pass _ h _ => rw [h] at ha; cases ha
    | again _ h _ => rw [h] at ha; cases ha
  | pass hgo ha _ ih =>
    cases h' with
    | stop h => exact absurd hgo h
    | fetch _ h _ => rw [ha] at h; cases h
    | pass _ _ next => exact ih next
  | again hgo ha _ ih =>
    cases h' with
    | stop h => exact absurd hgo h
    | fetch _ h _ => rw [ha] at h; cases h
    | again _ _ next => exact ih next

/-- C35 exactly, on secondary indexes, for all callbacks that call `Get` at most once per call: the scan ends with the result `o` if and
only if `Served` says so, where `rows` are the rows that `ScanIndex` returns. -/
theorem C35_exact {t : Table T F} {env : Env T} {filt : F} {db : KV} {ob : Option Batch} {m : Rows T}
    (S : Setting t env filt db ob m) {idx : Index T} (hi : idx ∈ t.indexes) {sel : Selector T} (hs : sel.OK idx) (reverse : Bool)
    {f : σ → Bytes → Cb σ T} (hf : AtMostOnce f) :
    ∃ rows : List T, Yields t env filt db ob idx sel reverse rows ∧ ∀ s o,
      ((∃ fuel, t.scanIndexForEach env filt (fun _ => (db, ob)) idx sel f reverse fuel s = some o) ↔
        Served f t.prefetch 0 (seen t idx rows) s o) ∧
      (Served f t.prefetch 0 (seen t idx rows) s o →
        ∃ N, ∀ fuel, N ≤ fuel → t.scanIndexForEach env filt (fun _ => (db, ob)) idx sel f reverse fuel s = some o) := by
  have hi' : IsIndex t idx := Or.inl hi
  obtain ⟨parts, h1, h2, _⟩ := S.parts hi' hs
  obtain ⟨V, hV, hH⟩ := S.content
  obtain ⟨hb1, hb2⟩ := iterBounds_eq S.wf hi' hs
  have hid := S.wf.nz idx hi
  refine ⟨dir reverse parts.flatten, h2 reverse, fun s o => ?_⟩
  have hscan : ∀ fuel, t.scanIndexForEach env filt (fun _ => (db, ob)) idx sel f reverse fuel s =
      t.outerLoop env filt (fun _ => (db, ob)) f fuel fuel 0
        (PSt.mk ((seen t idx (dir reverse parts.flatten)).map (fun r => (r.1, ([] : Bytes)))) [] [] [] 0) s := by
    intro fuel
    obtain ⟨parts', h3, h4⟩ := scan_parts S.wf hi' hH _ hb2
    have : parts' = parts := h4.unique S.wf hi' h1
    subst this
    have hents : (boundsOf t idx sel).map (fun b => iterEntries db ob b.1 b.2) = parts'.map (fun rows => rows.map (entryOf t idx)) := by
      rw [← h3]; unfold iterEntries; rw [hV]
    unfold Table.scanIndexForEach Table.iterParts
    rw [hb1]
    simp only [Option.map_some, hents, walk_map, if_neg (show ¬ idx.id = primaryIndexID from hid)]
    have hrest : (dir reverse parts'.flatten).map (entryOf t idx) = (seen t idx (dir reverse parts'.flatten)).map (fun r => (r.1, [])) := by
      simp only [seen, List.map_map]
      apply List.map_congr_left
      intro x _
      simp only [Function.comp_def, entryOf]
      rw [if_neg (show ¬ idx.id = primaryIndexID from hid)]
    rw [hrest]
  have hrows : RowsOK t filt (fun _ : σ => (db, ob)) (seen t idx (dir reverse parts.flatten)) := by
    refine ⟨?_, fun s => sees_of_holds hV hH S.covers (fun x hx => h1.indexed x ((mem_dir _ _ _).1 hx)) s⟩
    intro r hr
    obtain ⟨x, _, rfl⟩ := List.mem_map.1 hr
    exact toDataKey_indexKey S.wf hi' x
  have hfrom : Served f t.prefetch 0 (seen t idx (dir reverse parts.flatten)) s o →
        ∃ N, ∀ fuel, N ≤ fuel → t.scanIndexForEach env filt (fun _ => (db, ob)) idx sel f reverse fuel s = some o := by
    intro h
    obtain ⟨N, hN, _⟩ := served_runs S.rt S.ok S.alive S.prefetch hf h hrows
    exact ⟨N, fun fuel hfu => by rw [hscan]; exact hN rfl fuel fuel 0 hfu hfu⟩
  refine ⟨⟨?_, fun h => ?_⟩, hfrom⟩
  · rintro ⟨fuel, h⟩
    rw [hscan] at h
    exact servedOuter S.rt S.ok S.alive S.prefetch hf fuel fuel _ hrows 0 s o h
  · obtain ⟨N, hN⟩ := hfrom h
    exact ⟨N, hN N (Nat.le_refl _)⟩

/-- a callback that, called again and again for one row, at last calls `Get` or asks to stop -/
def NotForEver (f : σ → Bytes → Cb σ T) : Prop := ∀ k s, Acc (fun s' s => f s k = .ret s' true none) s

theorem served_total {f : σ → Bytes → Cb σ T} (hf : AtMostOnce f) (hn : NotForEver f) (n : Nat) (rows : List (Bytes × T)) (left : Nat) (s : σ) :
    ∃ o, Served f n left rows s o := by
  induction rows generalizing left s with
  | nil => exact ⟨_, .done⟩
  | cons r rows ih =>
    obtain ⟨k, x⟩ := r
    induction hn k s with
    | intro s _ ihs =>
      by_cases hgo : goesOn ((f s k).run (.ok x))
      · rcases hf s k with ⟨s', c, e, he⟩ | ⟨s0, g, hg, -⟩
        · have ha : (f s k).asked = none := by rw [he]; rfl
          rw [he] at hgo
          obtain ⟨rfl, rfl⟩ : c = true ∧ e = none := hgo
          cases left with
          | zero =>
            obtain ⟨o, ho⟩ := ih 0 s'
            exact ⟨o, .pass (by rw [he]; exact ⟨rfl, rfl⟩) ha (by rw [he]; exact ho)⟩
          | succ left =>
            obtain ⟨o, ho⟩ := ihs s' he
            exact ⟨o, .again (by rw [he]; exact ⟨rfl, rfl⟩) ha (by rw [he]; exact ho)⟩
        · obtain ⟨o, ho⟩ := ih (if left = 0 then min (n - 1) rows.length else left - 1) ((f s k).run (.ok x)).1
          exact ⟨o, .fetch hgo (by rw [hg]; rfl) ho⟩
      · exact ⟨_, .stop hgo⟩

/-- C35 for callbacks that call `Get` at most once per call and that, called again and again for the same row, at last call it or ask to
stop: the scan ends.
Missing for the full C35: callbacks that go on without calling `Get`, see `C35_refuted`. -/
theorem C35_notForEver_partial {t : Table T F} {env : Env T} {filt : F} {db : KV} {ob : Option Batch} {m : Rows T}
    (S : Setting t env filt db ob m) {idx : Index T} (hi : idx ∈ t.indexes) {sel : Selector T} (hs : sel.OK idx) (reverse : Bool)
    {f : σ → Bytes → Cb σ T} (hf : AtMostOnce f) (hn : NotForEver f) (s : σ) :
    ∃ o N, ∀ fuel, N ≤ fuel → t.scanIndexForEach env filt (fun _ => (db, ob)) idx sel f reverse fuel s = some o := by
  obtain ⟨rows, _, h⟩ := C35_exact S hi hs reverse hf
  obtain ⟨o, ho⟩ := served_total hf hn t.prefetch (seen t idx rows) 0 s
  obtain ⟨N, hN⟩ := (h s o).2 ho
  exact ⟨o, N, hN⟩

/-- test callback: calls `Get` for every other call; the state counts the calls and collects the keys and the records -/
def everyOtherCb (s : Nat × List (Bytes ⊕ Rec)) (k : Bytes) : Cb (Nat × List (Bytes ⊕ Rec)) Rec :=
  if s.1 % 2 = 0 then .get s (fun
    | .error e => .ret s false (some e)
    | .ok x => .ret (s.1 + 1, s.2 ++ [.inr x]) true none)
  else .ret (s.1 + 1, s.2 ++ [.inl k]) true none

theorem everyOtherCb_once : AtMostOnce everyOtherCb := by
  intro s k
  unfold everyOtherCb
  split
  · right
    refine ⟨_, _, rfl, ?_⟩
    intro r; cases r <;> exact ⟨_, _, _, rfl⟩
  · exact Or.inl ⟨_, _, _, rfl⟩

theorem everyOtherCb_ends : NotForEver everyOtherCb := by
  intro k s
  have even : ∀ s : Nat × List (Bytes ⊕ Rec), s.1 % 2 = 0 → Acc (fun s' s => everyOtherCb s k = .ret s' true none) s := by
    intro s hs
    refine ⟨_, fun s' h => ?_⟩
    unfold everyOtherCb at h
    rw [if_pos hs] at h
    cases h
  refine ⟨_, fun s' h => ?_⟩
  unfold everyOtherCb at h
  split at h
  · cases h
  · cases h
    exact even _ (by simp only; omega)

/-- the theorems at this callback -/
example := C35_exact exSetting (idx := exIndex) (by simp [exTable]) exRange_ok true everyOtherCb_once
example := C35_notForEver_partial exSetting (idx := exIndex) (by simp [exTable]) exRange_ok false everyOtherCb_once everyOtherCb_ends (0, [])

/-- what happens then: the callback gets the record of the first row, is called for the second row, and is called for it again -/
example : (exTable.scanIndexForEach (stdEnv exTable) () (fun _ => (exDB, none)) exIndex (.range (0, 0) (9, 9)) everyOtherCb false 9 (0, [])).map (fun o => (o.s, o.err)) =
    some ((3, [.inr (1, 5), .inl (exTable.indexKey exIndex (2, 6)), .inr (2, 6)]), none) := by decide

end Bond
