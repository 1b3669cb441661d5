import Verif.FaultLemmas
import Verif.QueryLemmas
/-
Lemmas about reads that fail during scans that the callback may end.
-/
namespace Bond
open Spec
variable {T F σ : Type}

/-- Once `Get` failed, the callback ends with an error. (It may end the scan at any row.)
The callbacks of table.go:1019-1025 and query.go:155-280 are such. -/
def Cb.Careful : Cb σ T → Prop
  | .ret _ _ _ => True
  | .get _ k => (∀ x, (k (.ok x)).Careful) ∧ ∀ e, (k (.error e)).Fails

theorem Cb.Fails.careful {c : Cb σ T} (h : c.Fails) : c.Careful := by
  induction c with
  | ret s cont err => trivial
  | get s k ih => exact ⟨fun x => ih _ (h _), fun e => h _⟩

theorem runOuterF_careful (t : Table T F) (env : Env T) (filt : F) (bad : PSt → Bool) (view : σ → KV × Option Batch) (p : PSt)
    (c : Cb σ T) (hc : c.Careful) {p' s' cont} (h : t.runOuterF env filt bad view p c = some (p', s', cont, none)) :
    t.runOuter env filt view p c = some (p', s', cont, none) := by
  induction c generalizing p with
  | ret s cont' err' => exact h
  | get s k ih =>
    rw [Table.runOuterF] at h
    rw [Table.runOuter]
    unfold Table.prefetchAndGetValueF at h
    by_cases hb : bad p = true
    · simp only [hb, if_true] at h
      cases hk : t.collectKeys p.rest p.keys p.indexKeys with
      | none => simp [hk] at h
      | some o =>
        simp only [hk] at h
        have := runOuterF_fails t env filt bad view _ _ (hc.2 .notFound) h
        simp at this
    · simp only [hb, Bool.false_eq_true, if_false] at h
      cases hp : t.prefetchAndGetValue env filt (view s).1 (view s).2 p with
      | none => simp [hp] at h
      | some o =>
        simp only [hp] at h ⊢
        cases hr : o.2 with
        | ok x => rw [hr] at h; exact ih _ _ (hc.1 x) h
        | error e =>
          rw [hr] at h
          have := runOuterF_fails t env filt bad view _ _ (hc.2 e) h
          simp at this

theorem outerLoopF_careful (t : Table T F) (env : Env T) (filt : F) (bad : PSt → Bool) (ce : Option Err) (view : σ → KV × Option Batch)
    (f : σ → Bytes → Cb σ T) (hf : ∀ s k, (f s k).Careful) (innerFuel fuel clock : Nat) (p : PSt) (s s1 : σ)
    (h : t.outerLoopF env filt bad ce view f innerFuel fuel clock p s = some ⟨s1, none⟩) :
    t.outerLoopF env filt (fun _ => false) ce view f innerFuel fuel clock p s = some ⟨s1, none⟩ := by
  induction fuel generalizing clock p s with
  | zero => exact h
  | succ fuel ih =>
    rw [Table.outerLoopF] at h ⊢
    cases hr : p.rest with
    | nil => simp only [hr] at h ⊢; exact h
    | cons en rest =>
      simp only [hr] at h ⊢
      split at h
      · simp at h
      · rename_i hd
        rw [if_neg hd]
        rw [runOuterF_good t env filt (fun _ => false) view p (fun _ => rfl)]
        cases ho : t.runOuterF env filt bad view p (f s en.1) with
        | none => simp [ho] at h
        | some out =>
          obtain ⟨p', s', cont, err⟩ := out
          simp only [ho] at h
          have he : err = none := by
            split at h
            · simp only [Option.some.injEq, ScanOut.mk.injEq] at h; exact h.2
            · rename_i hc
              simp only [Bool.or_eq_true, not_or, Bool.not_eq_true, Option.isSome_eq_false_iff, Option.isNone_iff_eq_none] at hc
              exact hc.2
          subst he
          rw [runOuterF_careful t env filt bad view p _ (hf s en.1) ho]
          simp only
          split at h
          · rename_i hc; rw [if_pos hc]; exact h
          · rename_i hc
            rw [if_neg hc]
            cases hi : t.innerLoop f innerFuel p' s' with
            | running => simp [hi] at h
            | stop o' => simp only [hi] at h ⊢; exact h
            | go b => simp only [hi] at h ⊢; exact ih _ _ _ h

theorem outerLoopF_good (t : Table T F) (env : Env T) (filt : F) (view : σ → KV × Option Batch)
    (f : σ → Bytes → Cb σ T) (innerFuel fuel clock : Nat) (p : PSt) (s : σ) :
    t.outerLoopF env filt (fun _ => false) none view f innerFuel fuel clock p s = t.outerLoop env filt view f innerFuel fuel clock p s := by
  induction fuel generalizing clock p s with
  | zero => rfl
  | succ fuel ih =>
    rw [Table.outerLoopF, Table.outerLoop]
    simp only [runOuterF_good t env filt (fun _ => false) view p (fun _ => rfl), ih]
    rfl

/-- A scan that sees only the first rows and would fail at their end: if it ends well, the callback has ended it, and it
would have ended all the same had the scan seen more rows. -/
theorem outerLoopF_stops {t : Table T F} (rt : t.RoundTripFresh) {env : Env T} (ok : env.OK t) (hd : ∀ n, env.done n = false)
    {filt : F} {view : σ → KV × Option Batch} (hp : 0 < t.prefetch) {f : σ → Bytes → Cb σ T} {fetched : σ → Prop}
    (hf : FetchesAll f fetched) {inv : List (Bytes × T) → σ → Prop} (hk : KeepsRows t filt view f inv)
    (val : Bytes × T → Bytes) (e : Err) (extra : List (Bytes × T)) (innerFuel : Nat) (fuel : Nat) (rows : List (Bytes × T))
    (hr : RowKeys t rows) (clock : Nat) (s : σ) (hinv : inv (rows ++ extra) s) (h2 : rows.length ≤ innerFuel) {s1 : σ}
    (h : t.outerLoopF env filt (fun _ => false) (some e) view f innerFuel fuel clock
      { rest := rows.map (fun r => (r.1, val r)), keys := [], indexKeys := [], values := [], vidx := 0 } s = some ⟨s1, none⟩) :
    runRows f (rows ++ extra) s = ⟨s1, none⟩ := by
  induction fuel generalizing rows clock s with
  | zero =>
    rw [Table.outerLoopF] at h
    split at h <;> simp at h
  | succ fuel ih =>
    cases rows with
    | nil => rw [Table.outerLoopF] at h; simp at h
    | cons r rows =>
      obtain ⟨k, x⟩ := r
      rw [Table.outerLoopF] at h
      rw [List.cons_append] at hinv ⊢
      simp only [List.map_cons, hd, Bool.false_eq_true, if_false,
        runOuterF_good t env filt (fun _ => false) view _ (fun _ => rfl)] at h
      rcases hf.once s k with hno | hone
      · obtain ⟨s', cont, err, he⟩ := hno
        have hout : (f s k).run (.ok x) = (s', cont, err) := by rw [he, Cb.run]
        rw [he, Table.runOuter] at h
        simp only at h
        by_cases hc : (!cont || err.isSome) = true
        · simp only [hc, if_true, Option.some.injEq] at h
          rw [runRows_cons_stop hout hc, h]
        · simp only [hc] at h
          rw [runRows_cons_go hout hc]
          have hct : cont = true := by cases cont <;> simp_all
          have hinv' := hk.step k x (rows ++ extra) s hinv (by rw [hout]; exact hct)
          rw [hout] at hinv'
          have hin : ∀ p : PSt, p.values = [] → t.innerLoop f innerFuel p s' = .go (p, s') := by
            intro p hp0
            have : ¬ p.vidx < p.values.length := by rw [hp0]; simp
            cases innerFuel <;> rw [Table.innerLoop, if_neg this]
          rw [hin _ rfl] at h
          simp only [List.tail_cons] at h
          exact ih rows (fun r hr' => hr r (by simp [hr'])) (clock + 1) s' hinv' (by simp at h2; omega) h
      · obtain ⟨s0, g, hg, hng⟩ := hone
        have hs := hk.sees k x (rows ++ extra) s s0 g hinv hg
        obtain ⟨rest', keys', hpre, htail⟩ := prefetch_eq (view := view) rt ok hp val hr
          (fun r hr' => hs r (by
            have := List.mem_of_mem_take hr'
            simp only [List.mem_cons, List.mem_append] at this ⊢
            exact this.imp id Or.inl))
        simp only [List.map_cons] at hpre
        have hrun : t.runOuter env filt view
            { rest := (k, val (k, x)) :: rows.map (fun r => (r.1, val r)), keys := [], indexKeys := [], values := [], vidx := 0 } (f s k) =
            some ({ rest := rest', keys := keys', indexKeys := (((k, x) :: rows).take t.prefetch).map Prod.fst, values := serAll t (((k, x) :: rows).take t.prefetch), vidx := 1 }, (f s k).run (.ok x)) := by
          rw [hg, Table.runOuter, hpre]
          simp only
          obtain ⟨s1, c1, e1, h1⟩ := hng (.ok x)
          rw [h1, Table.runOuter, Cb.run, h1, Cb.run]
        rw [hrun] at h
        have hone : (f s k).oneGet := ⟨s0, g, hg, hng⟩
        simp only at h
        generalize hout : (f s k).run (.ok x) = out at h
        obtain ⟨s', cont, err⟩ := out
        by_cases hc : (!cont || err.isSome) = true
        · simp only [hc, if_true, Option.some.injEq] at h
          rw [runRows_cons_stop hout hc, h]
        · simp only [hc] at h
          have hct : cont = true := by cases cont <;> simp_all
          have hinv' := hk.step k x (rows ++ extra) s hinv (by rw [hout]; exact hct)
          rw [hout] at hinv'
          have hfe' := hf.stays s k (.ok x) hone (by rw [hout]; exact hct)
          rw [hout] at hfe'
          obtain ⟨n, hn⟩ : ∃ n, t.prefetch = n + 1 := ⟨t.prefetch - 1, by omega⟩
          simp only [hn, List.take_succ_cons, List.drop_succ_cons] at htail h
          rw [runRows_cons_go hout hc]
          have hin := innerLoop_eq rt hf hk (rows.drop n ++ extra) (rows.take n) [(k, x)] innerFuel
            { rest := rest', keys := keys', indexKeys := ((k, x) :: rows.take n).map Prod.fst,
              values := serAll t ((k, x) :: rows.take n), vidx := 1 } s'
            (fun r hr' => by
              obtain ⟨b, hb, _⟩ := hs r (by simp [List.mem_of_mem_take hr'])
              simp [hb])
            rfl rfl rfl hfe' (by rw [← List.append_assoc, List.take_append_drop]; exact hinv') (by simp at h2 ⊢; omega)
          rw [← List.append_assoc, List.take_append_drop] at hin
          rcases hin with ⟨o, ho, hrr⟩ | ⟨p', s'', ho, hrest, hrr, hinv''⟩
          · rw [ho] at h; simp only [Bool.false_eq_true, if_false, Option.some.injEq] at h; rw [hrr]; exact h
          · rw [ho] at h; simp only [Bool.false_eq_true, if_false] at h
            rw [hrest, htail] at h
            rw [hrr]
            apply ih (rows.drop n) (fun r hr' => hr r (by simp [List.mem_of_mem_drop hr'])) (clock + 1) s'' hinv'' _ h
            simp at h2 ⊢; omega

theorem scanPrimaryLoopF_stops (t : Table T F) (done : Nat → Bool) (e : Err) (f : σ → Bytes → Cb σ T)
    (l extra : List (Bytes × Bytes)) (clock : Nat) (s s1 : σ) (h : t.scanPrimaryLoopF done (some e) f l clock s = ⟨s1, none⟩) :
    t.scanPrimaryLoop done f (l ++ extra) clock s = ⟨s1, none⟩ := by
  induction l generalizing clock s with
  | nil => simp [Table.scanPrimaryLoopF] at h
  | cons en l ih =>
    obtain ⟨k, v⟩ := en
    rw [Table.scanPrimaryLoopF] at h
    rw [List.cons_append, Table.scanPrimaryLoop]
    split at h
    · simp at h
    · rename_i hd
      rw [if_neg hd]
      simp only at h ⊢
      split at h
      · rename_i hc; rw [if_pos hc]; exact h
      · rename_i hc; rw [if_neg hc]; exact ih _ _ h

theorem zipIdx_entries_prefix (ls : List (List (Bytes × Bytes))) (cuts : Nat → Cut) (n : Nat)
    (h : ∀ i, i + 1 < ls.length → cuts (n + i) = none) :
    ∃ extra, ls.flatten = ((ls.zipIdx n).map (fun p => (cuts p.2).entries p.1)).flatten ++ extra := by
  induction ls generalizing n with
  | nil => exact ⟨[], rfl⟩
  | cons l ls ih =>
    rw [List.zipIdx_cons, List.map_cons, List.flatten_cons, List.flatten_cons]
    cases ls with
    | nil =>
      simp only [List.flatten_nil, List.append_nil, List.zipIdx_nil, List.map_nil]
      cases cuts n with
      | none => exact ⟨[], by simp [Cut.entries]⟩
      | some k => exact ⟨l.drop k, by simp [Cut.entries, List.take_append_drop]⟩
    | cons l' ls =>
      obtain ⟨extra, he⟩ := ih (n + 1) (fun i hi => by
        have := h (i + 1) (by simp at hi ⊢; omega)
        rwa [show n + (i + 1) = n + 1 + i by omega] at this)
      have h0 := h 0 (by simp)
      rw [Nat.add_zero] at h0
      exact ⟨extra, by rw [he, h0, List.append_assoc]; rfl⟩

theorem walkF_prefix (parts : List (List (Bytes × Bytes))) (reverse : Bool) (cuts : Nat → Cut)
    (hc : ∀ i, i + 1 < parts.length → cuts i = none) : ∃ extra, walk parts reverse = walkF parts reverse cuts ++ extra := by
  rw [← childrenInOrder_flatten]
  exact zipIdx_entries_prefix _ cuts 0 (fun i hi => by
    rw [Nat.zero_add]; exact hc i (by rwa [childrenInOrder_length] at hi))

/-- scans of the primary index -/
theorem scanF_primary (t : Table T F) (env : Env T) (filt : F) (cuts : Nat → Cut) (bad : PSt → Bool) (view : σ → KV × Option Batch)
    {idx : Index T} (hid : idx.id = primaryIndexID) (sel : Selector T) (f : σ → Bytes → Cb σ T) (reverse : Bool) (fuel : Nat) (s s' : σ)
    (hc : ∀ parts, t.iterParts (view s).1 (view s).2 idx sel = some parts → ∀ i, i + 1 < parts.length → cuts i = none)
    (h : t.scanIndexForEachF env filt cuts bad view idx sel f reverse fuel s = some ⟨s', none⟩) :
    t.scanIndexForEach env filt view idx sel f reverse fuel s = some ⟨s', none⟩ := by
  unfold Table.scanIndexForEachF at h
  unfold Table.scanIndexForEach
  cases hp : t.iterParts (view s).1 (view s).2 idx sel with
  | none => simp [hp] at h
  | some parts =>
    simp only [hp, if_pos hid, Option.some.injEq] at h ⊢
    cases hce : walkCloseErr parts reverse cuts with
    | some e =>
      rw [hce] at h
      obtain ⟨extra, he⟩ := walkF_prefix parts reverse cuts (hc parts hp)
      rw [he]
      exact scanPrimaryLoopF_stops t env.done e f _ extra 0 s s' h
    | none =>
      rw [hce, walkF_of_closeErr parts reverse cuts (hc parts hp) hce, scanPrimaryLoopF_none] at h
      exact h

/-- scans that do not write, of a table in good order -/
theorem scanF_stops {t : Table T F} {env : Env T} {filt : F} {db : KV} {ob : Option Batch} {m : Rows T}
    (S : Setting t env filt db ob m) {idx : Index T} (hi : IsIndex t idx) {sel : Selector T} (hs : sel.OK idx)
    {f : σ → Bytes → Cb σ T} {fetched : σ → Prop}
    (hf : idx.id = primaryIndexID ∨ FetchesAll f fetched ∧ ∀ s k, (f s k).Careful) (reverse : Bool) :
    ∃ N, ∀ fuel, N ≤ fuel → ∀ (cuts : Nat → Cut) (bad : PSt → Bool),
      (∀ parts, t.iterParts db ob idx sel = some parts → ∀ i, i + 1 < parts.length → cuts i = none) → ∀ s s',
      t.scanIndexForEachF env filt cuts bad (fun _ => (db, ob)) idx sel f reverse fuel s = some ⟨s', none⟩ →
      t.scanIndexForEach env filt (fun _ => (db, ob)) idx sel f reverse fuel s = some ⟨s', none⟩ := by
  by_cases hid : idx.id = primaryIndexID
  · exact ⟨0, fun fuel _ cuts bad hc s s' h => scanF_primary t env filt cuts bad (fun _ => (db, ob)) hid sel f reverse fuel s s' hc h⟩
  obtain ⟨hfe, hca⟩ := hf.resolve_left hid
  obtain ⟨V, hr, hH⟩ := S.content
  obtain ⟨hsel, hb⟩ := iterBounds_eq S.wf hi hs
  obtain ⟨rows, hrows, hparts⟩ := scan_parts S.wf hi hH _ hb
  refine ⟨rows.flatten.length, fun fuel hfuel cuts bad hc s s' h => ?_⟩
  have hfull := scanConst_eq S.wf S.rt S.ok S.alive S.prefetch hi hr hH S.covers hsel hb (Or.inr hfe) hparts reverse s hfuel
  have hip : t.iterParts db ob idx sel = some (rows.map (fun rs => rs.map (entryOf t idx))) := by
    unfold Table.iterParts
    rw [hsel, Option.map_some, ← hrows]
    unfold iterEntries; rw [hr]
  unfold Table.scanIndexForEachF at h
  simp only [hip, if_neg hid] at h
  have hcp := hc _ hip
  have h' := outerLoopF_careful t env filt bad _ _ f hca _ _ _ _ _ _ h
  cases hce : walkCloseErr (rows.map (fun rs => rs.map (entryOf t idx))) reverse cuts with
  | none =>
    rw [hce, walkF_of_closeErr _ reverse cuts hcp hce, outerLoopF_good] at h'
    unfold Table.scanIndexForEach
    simp only [hip, if_neg hid]
    exact h'
  | some e =>
    rw [hce] at h'
    obtain ⟨extra, hex⟩ := walkF_prefix _ reverse cuts hcp
    rw [walk_map] at hex
    have hent : ∀ l : List T, l.map (entryOf t idx) = (seen t idx l).map (fun r => (r.1, (fun _ => []) r)) := by
      intro l
      unfold seen
      rw [List.map_map]
      apply List.map_congr_left
      intro x _
      simp [entryOf, hid]
    generalize walkF (rows.map (fun rs => rs.map (entryOf t idx))) reverse cuts = w at h' hex
    obtain ⟨n, hn⟩ : ∃ n, w = ((dir reverse rows.flatten).take n).map (entryOf t idx) := by
      refine ⟨w.length, ?_⟩
      rw [List.map_take, hex, List.take_left]
    rw [hn, hent] at h'
    have hkeys : ∀ l : List T, RowKeys t (seen t idx l) := by
      intro l r hr'
      obtain ⟨x, _, rfl⟩ := List.mem_map.1 hr'
      exact toDataKey_indexKey S.wf hi x
    have := outerLoopF_stops S.rt S.ok S.alive S.prefetch hfe
      (keeps_const (t := t) (filt := filt) (db := db) (ob := ob) f) (fun _ => []) e (seen t idx ((dir reverse rows.flatten).drop n))
      fuel fuel _ (hkeys _) 0 s (fun s => by
        rw [seen, seen, ← List.map_append, List.take_append_drop]
        exact sees_of_holds hr hH S.covers (fun x hx => hparts.indexed x ((mem_dir _ _ _).1 hx)) s)
      (by simp only [seen, List.length_map, List.length_take, length_dir]; omega) h'
    rw [seen, seen, ← List.map_append, List.take_append_drop] at this
    rw [hfull, ← this]; rfl

end Bond
