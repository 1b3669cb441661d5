import Verif.CtxBlocks
import Verif.Props.MoreReads

/-
C71 on secondary indexes, exactly.
-/

namespace Bond
open Spec
variable {T F σ : Type}

/-- C71 on a secondary index, exactly, for all contexts, selectors and callbacks that read the record of each row once (or of none until
they have read one): the context is asked before the first row and then once per block of prefetched rows. -/
theorem C71_exact {t : Table T F} {env : Env T} {filt : F} {db : KV} {ob : Option Batch} {m : Rows T}
    (S : Setting t env filt db ob m) {idx : Index T} (hi : IsIndex t idx) (hid : idx.id ≠ primaryIndexID) {sel : Selector T} (hs : sel.OK idx)
    {reverse : Bool} {rows : List T} (hy : Yields t env filt db ob idx sel reverse rows) (d : Nat → Bool) {f : σ → Bytes → Cb σ T}
    {fetched : σ → Prop} (hf : FetchesAll f fetched) {fuel : Nat} (hfuel : rows.length ≤ fuel) (s : σ) :
    t.scanIndexForEach (env.withDone d) filt (fun _ => (db, ob)) idx sel f reverse fuel s =
      some (ctxBlocks d f t.prefetch 0 0 (seen t idx rows) s) := by
  obtain ⟨V, hr, hH⟩ := S.content
  obtain ⟨h1, h2⟩ := iterBounds_eq S.wf hi hs
  obtain ⟨parts, h3, hp⟩ := scan_parts S.wf hi hH _ h2
  have hrows : rows = dir reverse parts.flatten := hy.unique ⟨parts.flatten.length, fun fuel hf tr =>
      scanIndex_eq S.wf S.rt S.ok S.alive S.prefetch hi hr hH S.covers h1 h2 hp reverse tr hf⟩
  unfold Table.scanIndexForEach Table.iterParts
  rw [h1]
  have hents : (boundsOf t idx sel).map (fun b => iterEntries db ob b.1 b.2) = parts.map (fun rows => rows.map (entryOf t idx)) := by
    rw [← h3]; unfold iterEntries; rw [hr]
  simp only [Option.map_some, hents, walk_map]
  rw [if_neg hid, ← hrows]
  have hent : rows.map (entryOf t idx) = (seen t idx rows).map (fun r => (r.1, (fun _ => []) r)) := by
    unfold seen
    rw [List.map_map]
    apply List.map_congr_left
    intro x _
    simp [entryOf, hid]
  rw [hent]
  have hsees : ∀ s : σ, Sees t filt (fun _ : σ => (db, ob)) s (seen t idx rows) := fun s =>
    sees_of_holds hr hH S.covers (fun x hx => hp.indexed x ((mem_dir _ _ _).1 (by rw [← hrows]; exact hx))) s
  have ok' : (env.withDone d).OK t := ⟨S.ok.1, S.ok.2, S.ok.3⟩
  exact outerLoop_blocks S.rt ok' S.prefetch hf (keeps_const f) (fun _ => []) fuel fuel (seen t idx rows)
    (by intro r hr'; obtain ⟨x, _, rfl⟩ := List.mem_map.1 hr'; exact toDataKey_indexKey S.wf hi x) 0 s hsees
    (by simpa [seen] using hfuel) (by simpa [seen] using hfuel)

theorem ctxBlocks_rest (d : Nat → Bool) (pre n : Nat) (left : Nat) (rows : List (Bytes × T)) (tr : List T) :
    ctxBlocks d scanIndexCb pre n left rows tr = ctxBlocks d scanIndexCb pre n 0 (rows.drop left) (tr ++ (rows.take left).map Prod.snd) := by
  induction left generalizing rows tr with
  | zero => simp
  | succ left ih =>
    cases rows with
    | nil => simp [ctxBlocks]
    | cons r rows =>
      obtain ⟨k, x⟩ := r
      rw [ctxBlocks_go (s' := tr ++ [x]) (cont := true) (err := none) rfl (by simp), ih]
      simp

theorem ctxBlocks_scan (d : Nat → Bool) {pre : Nat} (hp : 0 < pre) (n b : Nat) (hlt : ∀ k, b ≤ k → k < b + n → d k = false) (hn : d (b + n) = true)
    (rows : List (Bytes × T)) (tr : List T) :
    ctxBlocks d scanIndexCb pre b 0 rows tr =
      ⟨tr ++ (rows.take (n * pre)).map Prod.snd, if rows.length ≤ n * pre then none else some .ctxDone⟩ := by
  induction n generalizing b rows tr with
  | zero =>
    cases rows with
    | nil => simp [ctxBlocks]
    | cons r rows =>
      obtain ⟨k, x⟩ := r
      rw [ctxBlocks, if_pos (by simpa using hn)]; simp
  | succ n ih =>
    cases rows with
    | nil => simp [ctxBlocks]
    | cons r rows =>
      obtain ⟨k, x⟩ := r
      rw [ctxBlocks_ask_go (s' := tr ++ [x]) (cont := true) (err := none) (hlt b (by omega) (by omega)) rfl (by simp)]
      have hb : blockLeft pre (scanIndexCb (T := T) tr k) = pre - 1 := rfl
      rw [hb, ctxBlocks_rest, ih (b + 1) (fun k h1 h2 => hlt k (by omega) (by omega)) (by rw [← hn]; congr 1; omega)]
      obtain ⟨p, rfl⟩ : ∃ p, pre = p + 1 := ⟨pre - 1, by omega⟩
      have e : (n + 1) * (p + 1) = (p + n * (p + 1)) + 1 := by rw [Nat.add_mul]; omega
      rw [Nat.add_sub_cancel, e, List.take_succ_cons, List.length_drop, List.length_cons, List.take_add]
      congr 1
      · simp
      · by_cases h : rows.length - p ≤ n * (p + 1)
        · rw [if_pos h, if_pos (by omega)]
        · rw [if_neg h, if_neg (by omega)]

/-- C71 for ScanIndex on a secondary index, exactly: with a context that is done when it is asked for the n-th time (counting from 0), the
first n blocks of rows are appended, and the context's error is returned if and only if there are more. -/
theorem C71_exact_scan {t : Table T F} {env : Env T} {filt : F} {db : KV} {ob : Option Batch} {m : Rows T}
    (S : Setting t env filt db ob m) {idx : Index T} (hi : IsIndex t idx) (hid : idx.id ≠ primaryIndexID) {sel : Selector T} (hs : sel.OK idx)
    {reverse : Bool} {rows : List T} (hy : Yields t env filt db ob idx sel reverse rows) (d : Nat → Bool) (n : Nat) (hlt : ∀ k, k < n → d k = false)
    (hn : d n = true) {fuel : Nat} (hfuel : rows.length ≤ fuel) (tr : List T) :
    t.scanIndex (env.withDone d) filt db ob idx sel reverse fuel tr =
      some ⟨tr ++ rows.take (n * t.prefetch), if rows.length ≤ n * t.prefetch then none else some .ctxDone⟩ := by
  unfold Table.scanIndex
  rw [C71_exact S hi hid hs hy d scanIndexCb_fetches hfuel,
    ctxBlocks_scan d S.prefetch n 0 (fun k _ h => hlt k (by omega)) (by rw [Nat.zero_add]; exact hn)]
  rw [List.map_take, seen_snd]
  simp [seen]

/-- a table that prefetches two rows at a time -/
def exTablePf2 : Table Rec Unit := { exTable with prefetch := 2 }

/-- `C71_exact_scan` at the group of (2,6), with a context that is done when asked for the second time -/
example (fuel : Nat) (hf : 9 ≤ fuel) (rows : List Rec) (hrows : rows.length ≤ 9)
    (hy : Yields exTable (stdEnv exTable) () exDB none exIndex (.point (0, 6)) false rows) :
    exTable.scanIndex ((stdEnv exTable).withDone (fun n => decide (1 ≤ n))) () exDB none exIndex (.point (0, 6)) false fuel [] =
      some ⟨[] ++ rows.take (1 * 100), if rows.length ≤ 1 * 100 then none else some .ctxDone⟩ :=
  C71_exact_scan exSetting exIndex_is (by decide) ⟨by decide, by intro p _; simp [exIndex]⟩ hy _ 1 (by intro k hk; simp; omega) (by simp)
    (by omega) []

/-- three rows read in blocks of two, with a context that is done when asked for the second time: two rows and the error -/
example : exTablePf2.scanIndex ((stdEnv exTablePf2).withDone (fun n => decide (1 ≤ n))) () exDB3 none exIndex (.range (0, 0) (9, 9)) false 9 [] =
    some ⟨[(1, 5), (2, 6)], some .ctxDone⟩ := by
  decide

end Bond
