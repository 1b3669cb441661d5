import Verif.LiveScanLemmas
import Verif.QueryLemmas
import Verif.Props.Scans
/-
Property C79: scans while others write.
-/
namespace Bond
open Spec
variable {T F σ : Type}

/-! ## C79 A scan shows the table at one moment

Full statement: while others write, a scan visits exactly the rows that match the selector at one moment during the scan,
with their records of that moment. True for scans of the primary index with a point or range selector (`C79_partial`).
Otherwise what holds is `C79_rows`: the parts are selected each at its own moment, and on secondary indexes the records
are read later than the index entries, block by block. -/

theorem runRows_tick (f : σ → Bytes → Cb σ T) (rows : List (Bytes × T)) (s : σ) (n : Nat) :
    ∃ n', runRows (tickCb f) rows (s, n) = ⟨((runRows f rows s).s, n'), (runRows f rows s).err⟩ := by
  induction rows generalizing s n with
  | nil => exact ⟨n, rfl⟩
  | cons r rows ih =>
    obtain ⟨k, x⟩ := r
    generalize hout : (f s k).run (.ok x) = out
    obtain ⟨s', cont, err⟩ := out
    have ht : (tickCb f (s, n) k).run (.ok x) = ((s', n + 1), cont, err) := by rw [tickCb, tick_run, hout]
    by_cases hc : (!cont || err.isSome) = true
    · exact ⟨n + 1, by rw [runRows_cons_stop ht hc, runRows_cons_stop hout hc]⟩
    · obtain ⟨n', h⟩ := ih s' (n + 1)
      exact ⟨n', by rw [runRows_cons_go ht hc, runRows_cons_go hout hc, h]⟩

theorem primaryLoop_tick (t : Table T F) (done : Nat → Bool) (f : σ → Bytes → Cb σ T) (l : List (Bytes × Bytes)) (clock : Nat)
    (s : σ) (n : Nat) : ∃ n', t.scanPrimaryLoop done (tickCb f) l clock (s, n) =
      ⟨((t.scanPrimaryLoop done f l clock s).s, n'), (t.scanPrimaryLoop done f l clock s).err⟩ := by
  induction l generalizing clock s n with
  | nil => exact ⟨n, rfl⟩
  | cons e l ih =>
    obtain ⟨k, v⟩ := e
    rw [Table.scanPrimaryLoop, Table.scanPrimaryLoop]
    by_cases hd : done clock = true
    · simp only [hd, if_true]; exact ⟨n, rfl⟩
    · simp only [hd, Bool.false_eq_true, if_false, tickCb, tick_run]
      by_cases hc : (!((f s k).run (t.decode v)).2.1 || ((f s k).run (t.decode v)).2.2.isSome) = true
      · simp only [hc, if_true]; exact ⟨_, rfl⟩
      · simp only [hc, Bool.false_eq_true, if_false]; exact ih _ _ _

/-- C79 for scans of the primary index with a point or a range: whatever others write meanwhile, the scan is the one of
the moment when its iterator was made, for all callbacks, directions, contents and context answers. -/
theorem C79_partial (t : Table T F) (env : Env T) (filt : F) (h : Nat → KV) (opened : Nat → Nat) (sel : Selector T)
    (hsel : (∃ p, sel = .point p) ∨ ∃ lo hi, sel = .range lo hi) (f : σ → Bytes → Cb σ T) (reverse : Bool) (fuel : Nat) (s : σ) :
    ∃ o n', t.scanIndexForEach env filt (fun _ => (h (opened 0), none)) t.primaryIndex sel f reverse fuel s = some o ∧
      t.scanLive env filt h opened t.primaryIndex sel f reverse fuel s = some ⟨(o.s, n'), o.err⟩ := by
  have hb : t.iterBounds t.primaryIndex sel = none ∨ ∃ b, t.iterBounds t.primaryIndex sel = some [b] := by
    rcases hsel with ⟨p, rfl⟩ | ⟨lo, hi, rfl⟩
    · simp only [Table.iterBounds]; cases t.pointBounds t.primaryIndex p <;> simp
    · exact Or.inr ⟨_, rfl⟩
  have hid : t.primaryIndex.id = primaryIndexID := rfl
  unfold Table.scanIndexForEach Table.scanLive Table.iterParts Table.liveParts
  rcases hb with hb | ⟨b, hb⟩
  · simp only [hb, Option.map_none]; exact ⟨_, 0, rfl, rfl⟩
  · simp only [hb, Option.map_some, if_pos hid]
    have hz : [b].zipIdx.map (fun p => iterEntries (h (opened p.2)) none p.1.1 p.1.2) =
        [b].map (fun b => iterEntries (h (opened 0)) none b.1 b.2) := rfl
    rw [hz]
    obtain ⟨n', hn⟩ := primaryLoop_tick t env.done f (walk ([b].map (fun b => iterEntries (h (opened 0)) none b.1 b.2)) reverse) 0 s 0
    exact ⟨_, n', rfl, by rw [hn]⟩

theorem LiveSetting.at {t : Table T F} {env : Env T} {filt : F} {h : Nat → KV} {m : Nat → Rows T}
    (S : LiveSetting t env filt h m) (n : Nat) : Setting t env filt (h n) none (m n) :=
  ⟨S.wf, S.rt, S.ok, S.alive, S.prefetch, ⟨h n, rfl, S.content n⟩, S.covers n⟩

theorem single_bounds (t : Table T F) (idx : Index T) (sel : Selector T) :
    boundsOf t idx sel = (sel.single idx).flatMap (boundsOf t idx) ∧ ∀ s ∈ sel.single idx, ∃ b, boundsOf t idx s = [b] := by
  cases sel with
  | point p => exact ⟨by simp [Selector.single], by simp [Selector.single, boundsOf]⟩
  | range lo hi =>
    refine ⟨by simp [Selector.single], fun s hs => ?_⟩
    simp only [Selector.single, List.mem_singleton] at hs
    subst hs; exact ⟨_, rfl⟩
  | points ps =>
    constructor
    · simp only [Selector.single, boundsOf]
      induction ps with
      | nil => rfl
      | cons p ps ih =>
        simp only [List.map_cons, List.flatMap_cons, ih]
        split <;> rfl
    · intro s hs
      obtain ⟨p, _, rfl⟩ := List.mem_map.1 hs
      split
      · exact ⟨_, rfl⟩
      · exact ⟨_, rfl⟩
  | ranges rs =>
    constructor
    · simp only [Selector.single, boundsOf]
      induction rs with
      | nil => rfl
      | cons p ps ih => simp only [List.map_cons, List.flatMap_cons, ih]; rfl
    · intro s hs
      obtain ⟨p, _, rfl⟩ := List.mem_map.1 hs
      exact ⟨_, rfl⟩

theorem single_ok {idx : Index T} {sel : Selector T} (h : sel.OK idx) : ∀ s ∈ sel.single idx, s.OK idx := by
  obtain ⟨_, hl⟩ := h
  cases sel with
  | point p => intro s hs; simp only [Selector.single, List.mem_singleton] at hs; subst hs; exact ⟨by simp [Selector.elems], hl⟩
  | range lo hi => intro s hs; simp only [Selector.single, List.mem_singleton] at hs; subst hs; exact ⟨by simp [Selector.elems], hl⟩
  | points ps =>
    intro s hs
    obtain ⟨p, hp, rfl⟩ := List.mem_map.1 hs
    have := hl p (by simpa [Selector.elems] using hp)
    split <;> exact ⟨by simp [Selector.elems], by simpa [Selector.elems] using this⟩
  | ranges rs =>
    intro s hs
    obtain ⟨r, hr, rfl⟩ := List.mem_map.1 hs
    refine ⟨by simp [Selector.elems], fun p hp => hl p ?_⟩
    simp only [Selector.elems, List.mem_flatMap] at hp ⊢
    exact ⟨r, hr, hp⟩

theorem liveRows_entries {t : Table T F} {env : Env T} {filt : F} {h : Nat → KV} {m : Nat → Rows T}
    (S : LiveSetting t env filt h m) (opened : Nat → Nat) {idx : Index T} (hi : IsIndex t idx) (sels : List (Selector T))
    (hok : ∀ s ∈ sels, s.OK idx) (hone : ∀ s ∈ sels, ∃ b, boundsOf t idx s = [b]) (i : Nat) :
    ∃ parts, LiveRows t env filt h opened idx i sels parts ∧
      ((sels.flatMap (boundsOf t idx)).zipIdx i).map (fun p => iterEntries (h (opened p.2)) none p.1.1 p.1.2) =
        parts.map (fun rows => rows.map (entryOf t idx)) ∧
      (∀ x ∈ parts.flatten, (t.ser x).isSome) := by
  induction sels generalizing i with
  | nil => exact ⟨[], .nil, rfl, by simp⟩
  | cons sel sels ih =>
    obtain ⟨parts, h1, h2, h3⟩ := ih (fun s hs => hok s (by simp [hs])) (fun s hs => hone s (by simp [hs])) (i + 1)
    obtain ⟨b, hb⟩ := hone sel (by simp)
    obtain ⟨parts', hp, hy, _⟩ := (S.at (opened i)).parts hi (hok sel (by simp))
    obtain ⟨_, hbi⟩ := iterBounds_eq S.wf hi (hok sel (by simp))
    obtain ⟨rows, hr1, hr2⟩ := scan_rows S.wf hi (S.content (opened i)) (hbi b (by rw [hb]; simp))
    rw [hb] at hp
    have hpp : parts' = [rows] := hp.unique S.wf hi (.cons hr2 .nil)
    subst hpp
    have hy' := hy false
    simp only [dir, List.flatten_cons, List.flatten_nil, List.append_nil, Bool.false_eq_true, if_false] at hy'
    refine ⟨rows :: parts, .cons hy' h1, ?_, ?_⟩
    · rw [List.flatMap_cons, hb, List.singleton_append, List.zipIdx_cons, List.map_cons, List.map_cons, h2]
      congr 1
    · intro x hx
      rw [List.flatten_cons, List.mem_append] at hx
      rcases hx with hx | hx
      · obtain ⟨v, hv, _⟩ := (S.content (opened i)).present _ _ ((hr2.2 x).1 hx).1.1
        simp [hv]
      · exact h3 x hx

/-- What scans do while others write, for all indexes, selectors, directions, moments at which the parts are opened, and
all contents before, between and after. The visited rows are, part by part, those that the part alone yields at the
moment when it was opened. On the primary index the callback gets exactly these, with their records. On a secondary index
it gets, for the same keys in the same order, the rows as they are at some later moment of the scan; if a row is gone then,
the scan may end with `notFound`. -/
theorem C79_rows {t : Table T F} {env : Env T} {filt : F} {h : Nat → KV} {m : Nat → Rows T} (S : LiveSetting t env filt h m)
    (opened : Nat → Nat) {idx : Index T} (hi : IsIndex t idx) {sel : Selector T} (hs : sel.OK idx) (f : σ → Bytes → Cb σ T)
    {fetched : σ → Prop} (hf : idx.id = primaryIndexID ∨ FetchesAll f fetched ∧ StopsOnError f) (reverse : Bool) :
    ∃ parts, LiveRows t env filt h opened idx 0 (sel.single idx) parts ∧
      ∀ fuel, parts.flatten.length ≤ fuel → ∀ s, ∃ o n', t.scanLive env filt h opened idx sel f reverse fuel s =
        some ⟨(o.s, n'), o.err⟩ ∧
        (idx.id = primaryIndexID → o = runRows f (seen t idx (dir reverse parts.flatten)) s) ∧
        (idx.id ≠ primaryIndexID → Visited t m idx parts.flatten.length f 0 (dir reverse parts.flatten) s o) := by
  obtain ⟨hb1, hb2⟩ := single_bounds t idx sel
  obtain ⟨parts, h1, h2, h3⟩ := liveRows_entries S opened hi (sel.single idx) (single_ok hs) hb2 0
  refine ⟨parts, h1, fun fuel hfuel s => ?_⟩
  unfold Table.scanLive Table.liveParts
  rw [(iterBounds_eq S.wf hi hs).1, hb1]
  simp only [Option.map_some]
  rw [h2, walk_map]
  rcases hi.id S.wf with ⟨hid, rfl⟩ | ⟨hid, hmem⟩
  · rw [if_pos hid, scanPrimaryLoop_eq S.rt S.alive (tickCb f) _ (fun x hx => h3 x ((mem_dir _ _ _).1 hx))]
    obtain ⟨n', hn⟩ := runRows_tick f (seen t t.primaryIndex (dir reverse parts.flatten)) s 0
    exact ⟨_, n', by rw [hn], fun _ => rfl, fun hne => absurd hid hne⟩
  · rw [if_neg hid]
    rcases hf with h | ⟨hf, hst⟩
    · exact absurd h hid
    have hent : (dir reverse parts.flatten).map (entryOf t idx) =
        (seen t idx (dir reverse parts.flatten)).map (fun r => (r.1, [])) := by
      unfold seen
      rw [List.map_map]
      apply List.map_congr_left
      intro x _
      simp [entryOf, hid]
    rw [hent]
    obtain ⟨o, n', ho, hv⟩ := liveOuter S hi hf hst parts.flatten.length fuel fuel (dir reverse parts.flatten) 0 0 0 s (by omega)
      (by rw [length_dir]; exact hfuel) (by rw [length_dir]; exact hfuel) (by rw [length_dir]; omega)
    exact ⟨o, n', ho, fun h => absurd h hid, fun _ => hv⟩

/-- a visit of rows that stay as they are is the plain visit -/
theorem visited_unchanged {t : Table T F} {m : Nat → Rows T} {idx : Index T} {N : Nat} {f : σ → Bytes → Cb σ T} {n : Nat}
    {rows : List T} {s : σ} {o : ScanOut σ} (hv : Visited t m idx N f n rows s o)
    (hu : ∀ x ∈ rows, ∀ n' ≤ N, m n' (t.pk x) = some x) : o = runRows f (seen t idx rows) s := by
  have hstop : ∀ {cont : Bool} {err : Option Err}, (cont = true → err.isSome) → (!cont || err.isSome) = true := by
    intro cont err h; cases cont <;> simp_all
  induction hv with
  | nil => rfl
  | skip he _ ih =>
    rw [ih (fun x hx => hu x (by simp [hx]))]
    exact (runRows_cons_go (cont := true) (err := none) (by rw [he]; rfl) (by simp)).symm
  | skipStop he hc => exact (runRows_cons_stop (by rw [he]; rfl) (hstop hc)).symm
  | @row n n' x r rows s s' o _ hN hm hr _ ih =>
    have := hu x (by simp) _ hN
    rw [hm] at this
    simp only [Option.some.injEq] at this
    subst this
    rw [ih (fun x hx => hu x (by simp [hx]))]
    exact (runRows_cons_go hr (by simp)).symm
  | @rowStop n n' x r rows s s' cont err _ hN hm hr hc =>
    have := hu x (by simp) _ hN
    rw [hm] at this
    simp only [Option.some.injEq] at this
    subst this
    exact (runRows_cons_stop hr (hstop hc)).symm
  | gone _ hN hy hm _ _ =>
    rw [hu _ hy _ hN] at hm
    simp at hm

/-- C79 holds for every scan if the rows it selects stay as they are during the scan: whatever happens to other rows, it
visits exactly the selected rows with their records. With `LiveRows`: a point or range shows the table at the moment when
it was opened. -/
theorem C79_unchanged {t : Table T F} {env : Env T} {filt : F} {h : Nat → KV} {m : Nat → Rows T} (S : LiveSetting t env filt h m)
    (opened : Nat → Nat) {idx : Index T} (hi : IsIndex t idx) {sel : Selector T} (hs : sel.OK idx) (f : σ → Bytes → Cb σ T)
    {fetched : σ → Prop} (hf : idx.id = primaryIndexID ∨ FetchesAll f fetched ∧ StopsOnError f) (reverse : Bool) :
    ∃ parts, LiveRows t env filt h opened idx 0 (sel.single idx) parts ∧
      ((∀ x ∈ parts.flatten, ∀ n ≤ parts.flatten.length, m n (t.pk x) = some x) →
        ∀ fuel, parts.flatten.length ≤ fuel → ∀ s, ∃ n', t.scanLive env filt h opened idx sel f reverse fuel s =
          some ⟨((runRows f (seen t idx (dir reverse parts.flatten)) s).s, n'),
            (runRows f (seen t idx (dir reverse parts.flatten)) s).err⟩) := by
  obtain ⟨parts, h1, h2⟩ := C79_rows S opened hi hs f hf reverse
  refine ⟨parts, h1, fun hu fuel hfuel s => ?_⟩
  obtain ⟨o, n', ho, hp, hsec⟩ := h2 fuel hfuel s
  have : o = runRows f (seen t idx (dir reverse parts.flatten)) s := by
    by_cases hid : idx.id = primaryIndexID
    · exact hp hid
    · exact visited_unchanged (hsec hid) (fun x hx n hn => hu x ((mem_dir _ _ _).1 hx) n hn)
  subst this
  exact ⟨n', ho⟩

theorem scanIndexCb_stops : StopsOnError (scanIndexCb (T := T)) := by
  intro s k e _ h
  simp [scanIndexCb, Cb.run] at h

theorem visited_scanIndex {t : Table T F} {m : Nat → Rows T} {idx : Index T} {N n : Nat} {rows : List T} {tr : List T}
    {o : ScanOut (List T)} (hpk : ∀ n pk x, m n pk = some x → t.pk x = pk) (hv : Visited t m idx N scanIndexCb n rows tr o) :
    ∃ out, o.s = tr ++ out ∧ out.map t.pk <+: rows.map t.pk ∧ (∀ r ∈ out, ∃ n' ≤ N, m n' (t.pk r) = some r) ∧
      ((o.err = none ∧ out.map t.pk = rows.map t.pk) ∨
       (o.err = some .notFound ∧ ∃ x ∈ rows, ∃ n' ≤ N, m n' (t.pk x) = none)) := by
  induction hv with
  | nil => exact ⟨[], by simp, by simp, by simp, Or.inl ⟨rfl, rfl⟩⟩
  | skip he _ _ => simp [scanIndexCb] at he
  | skipStop he _ => simp [scanIndexCb] at he
  | @row n n' x r rows s s' o _ hN hm hr _ ih =>
    simp only [scanIndexCb, Cb.run, Prod.mk.injEq, and_true] at hr
    obtain ⟨out, h1, h2, h3, h4⟩ := ih
    have hp := hpk _ _ _ hm
    refine ⟨r :: out, by rw [h1, ← hr]; simp, by simpa [hp] using h2, ?_, ?_⟩
    · intro r' hr'
      rcases List.mem_cons.1 hr' with rfl | hr'
      · exact ⟨_, hN, by rw [hp]; exact hm⟩
      · exact h3 r' hr'
    · rcases h4 with ⟨a, b⟩ | ⟨a, x', hx', b⟩
      · exact Or.inl ⟨a, by simp [hp, b]⟩
      · exact Or.inr ⟨a, x', by simp [hx'], b⟩
  | rowStop _ hN hm hr hc =>
    simp only [scanIndexCb, Cb.run, Prod.mk.injEq] at hr
    obtain ⟨_, rfl, rfl⟩ := hr
    simp at hc
  | gone _ hN hy hm hr _ =>
    simp only [scanIndexCb, Cb.run, Prod.mk.injEq] at hr
    obtain ⟨rfl, _, rfl⟩ := hr
    exact ⟨[], by simp, List.nil_prefix, by simp, Or.inr ⟨rfl, _, hy, _, hN, hm⟩⟩

/-- What `ScanIndex` on a secondary index returns while others write: records that are current at some moment of the scan,
for the selected primary keys in order, all of them if there is no error; the only error is `notFound`, and only if a
selected row is gone at some moment. -/
theorem C79_scanIndex {t : Table T F} {env : Env T} {filt : F} {h : Nat → KV} {m : Nat → Rows T} (S : LiveSetting t env filt h m)
    (opened : Nat → Nat) {idx : Index T} (hi : idx ∈ t.indexes) {sel : Selector T} (hs : sel.OK idx) (reverse : Bool) :
    ∃ parts, LiveRows t env filt h opened idx 0 (sel.single idx) parts ∧
      ∀ fuel, parts.flatten.length ≤ fuel → ∀ tr, ∃ out n' err, t.scanLive env filt h opened idx sel scanIndexCb reverse fuel tr =
        some ⟨(tr ++ out, n'), err⟩ ∧ out.map t.pk <+: (dir reverse parts.flatten).map t.pk ∧
        (∀ r ∈ out, ∃ n ≤ parts.flatten.length, m n (t.pk r) = some r) ∧
        ((err = none ∧ out.map t.pk = (dir reverse parts.flatten).map t.pk) ∨
         (err = some .notFound ∧ ∃ x ∈ parts.flatten, ∃ n ≤ parts.flatten.length, m n (t.pk x) = none)) := by
  obtain ⟨parts, h1, h2⟩ := C79_rows S opened (Or.inl hi) hs scanIndexCb (Or.inr ⟨scanIndexCb_fetches, scanIndexCb_stops⟩) reverse
  refine ⟨parts, h1, fun fuel hfuel tr => ?_⟩
  obtain ⟨o, n', ho, _, hsec⟩ := h2 fuel hfuel tr
  obtain ⟨out, e1, e2, e3, e4⟩ := visited_scanIndex (fun n => (S.content n).row_pk) (hsec (S.wf.nz idx hi))
  refine ⟨out, n', o.err, by rw [ho, e1], e2, e3, ?_⟩
  rcases e4 with h | ⟨a, x, hx, b⟩
  · exact Or.inl h
  · exact Or.inr ⟨a, x, (mem_dir _ _ _).1 hx, b⟩

/-! ### queries -/

theorem body_records (q : Query T) (s : QSt T) (r : Except Err T) : ((q.body s).run r).1.records = s.records ∨
    ∃ x, r = .ok x ∧ q.filter.all (· x) = true ∧ ((q.body s).run r).1.records = s.records ++ [x] := by
  unfold Query.body
  split
  · exact Or.inl rfl
  · cases r with
    | error e => exact Or.inl rfl
    | ok x =>
      simp only [Cb.run]
      by_cases hf : q.filter.all (· x) = true
      · refine Or.inr ⟨x, rfl, hf, ?_⟩
        simp only [hf, if_true]
        split <;> rfl
      · refine Or.inl ?_
        simp only [hf]
        split <;> rfl

theorem callback_records (t : Table T F) (q : Query T) (s : QSt T) (k : Bytes) (r : Except Err T) :
    ((q.callback t s k).run r).1.records = s.records ∨
    ∃ x, r = .ok x ∧ q.filter.all (· x) = true ∧ ((q.callback t s k).run r).1.records = s.records ++ [x] := by
  unfold Query.callback
  split
  · exact body_records q s r
  · split
    · dsimp only
      split
      · split
        · exact Or.inl rfl
        · exact body_records q { s with skippedFirstRow := true, afterApplied := true } r
      · exact Or.inl rfl
    · exact body_records q s r

theorem body_stops (q : Query T) (s : QSt T) (e : Err) (h : (q.body s).oneGet) :
    ((q.body s).run (.error e)).2.2.isSome := by
  unfold Query.body at h ⊢
  split
  · rename_i hc; rw [if_pos hc] at h; exact (not_both h ⟨_, _, _, rfl⟩).elim
  · rfl

theorem callback_stops (t : Table T F) (q : Query T) : StopsOnError (q.callback t) := by
  intro s k e h _
  unfold Query.callback at h ⊢
  split
  · rename_i ha; simp only [ha] at h; exact body_stops q s e h
  · rename_i a ha
    simp only [ha] at h
    split
    · rename_i hc
      rw [if_pos hc] at h
      dsimp only at h ⊢
      split
      · rename_i h1 h2
        simp only [h1, h2] at h
        split
        · rename_i hk; rw [if_pos hk] at h; exact (not_both h ⟨_, _, _, rfl⟩).elim
        · rename_i hk; rw [if_neg hk] at h; exact body_stops q _ e h
      · rfl
    · rename_i hc; rw [if_neg hc] at h; exact body_stops q s e h

theorem finish_mem {t : Table T F} {srt : (T → T → Bool) → List T → List T} (hsrt : ∀ less l x, x ∈ srt less l → x ∈ l)
    {q : Query T} {s : QSt T} {out : List T} (h : q.finish t srt s = .ok out) : ∀ x ∈ out, x ∈ s.records := by
  have hdrop : ∀ (a : T) (l l' : List T), dropAfter t.pk a l = some l' → ∀ x ∈ l', x ∈ l := by
    intro a l
    induction l with
    | nil => intro l' h; simp [dropAfter] at h
    | cons y l ih =>
      intro l' h x hx
      rw [dropAfter] at h
      split at h
      · simp only [Option.some.injEq] at h; subst h; exact List.mem_cons_of_mem _ hx
      · exact List.mem_cons_of_mem _ (ih l' h x hx)
  have hoff : ∀ (u : UInt64) (l l' : List T), applyOffset u l = some l' → ∀ x ∈ l', x ∈ l := by
    intro u l l' h x hx
    unfold applyOffset at h
    split at h
    · simp only [Option.some.injEq] at h; subst h; simp at hx
    · split at h
      · simp only [Option.some.injEq] at h; subst h; exact List.mem_of_mem_drop hx
      · simp at h
  have hlim : ∀ (u : UInt64) (l l' : List T), applyLimit u l = some l' → ∀ x ∈ l', x ∈ l := by
    intro u l l' h x hx
    unfold applyLimit at h
    split at h
    · simp only [Option.some.injEq] at h; subst h; exact hx
    · split at h
      · simp only [Option.some.injEq] at h; subst h; exact List.mem_of_mem_take hx
      · simp at h
  have hskip : ∀ x ∈ q.skipAfter t s.afterApplied (q.sortRecords srt s.records), x ∈ s.records := by
    intro x hx
    have hso : ∀ x ∈ q.sortRecords srt s.records, x ∈ s.records := by
      intro x hx
      unfold Query.sortRecords at hx
      split at hx
      · exact hsrt _ _ _ hx
      · exact hx
    unfold Query.skipAfter at hx
    split at hx
    · split at hx
      · exact hso x hx
      · cases hd : dropAfter t.pk _ (q.sortRecords srt s.records) with
        | none => rw [hd] at hx; exact hso x hx
        | some l' => rw [hd] at hx; exact hso x (hdrop _ _ _ hd x hx)
    · exact hso x hx
  unfold Query.finish Query.slice at h
  intro x hx
  apply hskip
  generalize q.skipAfter t s.afterApplied (q.sortRecords srt s.records) = l at h
  split at h
  · simp at h
  · rename_i l1 h1
    have hl1 : ∀ x ∈ l1, x ∈ l := by
      split at h1
      · exact hoff _ _ _ h1
      · simp only [Option.some.injEq] at h1; subst h1; exact fun x hx => hx
    split at h
    · simp at h
    · rename_i l2 h2
      simp only [Except.ok.injEq] at h
      subst h
      split at h2
      · exact hl1 x (hlim _ _ _ h2 x hx)
      · simp only [Option.some.injEq] at h2; subst h2; exact hl1 x hx

theorem visited_query {t : Table T F} {m : Nat → Rows T} {q : Query T} {idx : Index T} {N n : Nat} {rows all : List T} {s : QSt T}
    {o : ScanOut (QSt T)} (hpk : ∀ n pk x, m n pk = some x → t.pk x = pk) (hv : Visited t m idx N (q.callback t) n rows s o)
    (hall : ∀ x ∈ rows, x ∈ all) (hs : ∀ r ∈ s.records, q.filter.all (· r) = true ∧ ∃ x ∈ all, t.pk x = t.pk r ∧ ∃ n ≤ N, m n (t.pk r) = some r) :
    ∀ r ∈ o.s.records, q.filter.all (· r) = true ∧ ∃ x ∈ all, t.pk x = t.pk r ∧ ∃ n ≤ N, m n (t.pk r) = some r := by
  induction hv with
  | nil => exact hs
  | @skip n x rows s s' o he _ ih =>
    apply ih (fun x hx => hall x (by simp [hx]))
    have := callback_records t q s (t.indexKey idx x) (.error .panic)
    rw [he] at this
    simp only [Cb.run] at this
    rcases this with h | ⟨_, h, _⟩
    · rw [h]; exact hs
    · simp at h
  | @skipStop n x rows s s' cont err he _ =>
    have := callback_records t q s (t.indexKey idx x) (.error .panic)
    rw [he] at this
    simp only [Cb.run] at this
    rcases this with h | ⟨_, h, _⟩
    · rw [h]; exact hs
    · simp at h
  | @row n n' x r rows s s' o _ hN hm hr _ ih =>
    apply ih (fun x hx => hall x (by simp [hx]))
    have := callback_records t q s (t.indexKey idx x) (.ok r)
    rw [hr] at this
    rcases this with h | ⟨y, h, hf, h'⟩
    · rw [h]; exact hs
    · simp only [Except.ok.injEq] at h
      subst h
      rw [h']
      intro z hz
      rcases List.mem_append.1 hz with hz | hz
      · exact hs z hz
      · rw [List.mem_singleton] at hz
        subst hz
        have hp := hpk _ _ _ hm
        exact ⟨hf, x, hall x (by simp), hp.symm, n', hN, by rw [hp]; exact hm⟩
  | @rowStop n n' x r rows s s' cont err _ hN hm hr _ =>
    have := callback_records t q s (t.indexKey idx x) (.ok r)
    rw [hr] at this
    rcases this with h | ⟨y, h, hf, h'⟩
    · rw [h]; exact hs
    · simp only [Except.ok.injEq] at h
      subst h
      simp only at h' ⊢
      rw [h']
      intro z hz
      rcases List.mem_append.1 hz with hz | hz
      · exact hs z hz
      · rw [List.mem_singleton] at hz
        subst hz
        have hp := hpk _ _ _ hm
        exact ⟨hf, x, hall x (by simp), hp.symm, n', hN, by rw [hp]; exact hm⟩
  | @gone n n' x y rows s s' cont err _ _ _ _ hr _ =>
    have := callback_records t q s (t.indexKey idx x) (.error .notFound)
    rw [hr] at this
    rcases this with h | ⟨_, h, _⟩
    · rw [h]; exact hs
    · simp at h

/-- What a query over a secondary index returns while others write (filter, order, offset, limit and After as given): only
records that were current at some moment of the query, pass the filter, and belong to a selected primary key. (They need
not have the selected index value any more, `C79_refuted_other_value`.) -/
theorem C79_query {t : Table T F} {env : Env T} {filt : F} {h : Nat → KV} {m : Nat → Rows T} (S : LiveSetting t env filt h m)
    (opened : Nat → Nat) {srt : (T → T → Bool) → List T → List T} (hsrt : ∀ less l, (srt less l).Perm l) (q : Query T)
    (hi : q.index ∈ t.indexes) {sel : Selector T} (hs : sel.OK q.index)
    (hsel : q.selected t = some sel) :
    ∃ parts, LiveRows t env filt h opened q.index 0 (sel.single q.index) parts ∧
      ∀ fuel, parts.flatten.length ≤ fuel → ∃ res, q.executeQueryLive t env srt filt h opened fuel = some res ∧
        ∀ out, res = .ok out → ∀ r ∈ out, q.filter.all (· r) = true ∧
          ∃ x ∈ parts.flatten, t.pk x = t.pk r ∧ ∃ n ≤ parts.flatten.length, m n (t.pk r) = some r := by
  obtain ⟨parts, h1, h2⟩ := C79_rows S opened (Or.inl hi) hs (q.callback t) (Or.inr ⟨callback_fetches q, callback_stops t q⟩) q.reverse
  refine ⟨parts, h1, fun fuel hfuel => ?_⟩
  obtain ⟨o, n', ho, _, hsec⟩ := h2 fuel hfuel {}
  have hv := visited_query (all := parts.flatten) (fun n => (S.content n).row_pk) (hsec (S.wf.nz _ hi))
    (fun x hx => (mem_dir _ _ _).1 hx) (by intro r hr; simp at hr)
  unfold Query.executeQueryLive
  simp only [hsel, ho]
  obtain ⟨s', err⟩ := o
  cases err with
  | some e => exact ⟨_, rfl, by intro out h; simp at h⟩
  | none =>
    refine ⟨_, rfl, fun out hout r hr => hv r (finish_mem (fun less l x hx => (hsrt less l).mem_iff.1 hx) hout r hr)⟩

/-- test history: row (1, 5) is changed to (1, 9) before the first row of the scan is read -/
def exUpdated (n : Nat) : KV := if n = 0 then exDB else (exTable.update (stdEnv exTable) exDB () none [(1, 9)]).db

/-- test history: row (1, 5) is deleted before the first row of the scan is read -/
def exDeleted (n : Nat) : KV := if n = 0 then exDB else (exTable.delete (stdEnv exTable) exDB () none [(1, 5)]).db

/-- test history: row (1, 5) alone, then it is deleted, then (2, 6) inserted -/
def exMoved (n : Nat) : KV :=
  let d1 := (exTable.insert (stdEnv exTable) KV.empty () none [(1, 5)]).db
  let d2 := (exTable.delete (stdEnv exTable) d1 () none [(1, 5)]).db
  if n = 0 then d1 else (exTable.insert (stdEnv exTable) d2 () none [(2, 6)]).db

theorem exUpdated_setting : LiveSetting exTable (stdEnv exTable) () exUpdated
    (fun n => if n = 0 then exRows else exRows.putAll exTable.pk [(1, 9)]) where
  wf := exTable_wf
  rt := fun x b hb => exTable_rt x b hb _
  ok := stdEnv_ok exTable
  alive := fun _ => rfl
  prefetch := by decide
  content := by
    intro n
    unfold exUpdated
    by_cases h : n = 0
    · rw [if_pos h, if_pos h]; exact exDB_holds
    · rw [if_neg h, if_neg h]
      obtain ⟨m', h1, _, _, _, _, h2, _⟩ := C15_effect exTable_wf (stdEnv_ok exTable) exTable_rt exDB_holds (covers_nofilter rfl _ _)
        (f := ()) (trs := [(1, 9)]) (Or.inl (by decide)) (by decide)
      rw [h2 (Or.inl (by decide))] at h1
      exact h1
  covers := fun _ => covers_nofilter rfl _ _

/-- test query -/
def exQueryLive : Query Rec := { index := exIndex, sel := .range (0, 0) (9, 9), filter := some (fun r => r.1 == 1) }

/-- the hypotheses of `C79_rows`, `C79_unchanged`, `C79_scanIndex` are met by a history with a change -/
example : LiveSetting exTable (stdEnv exTable) () exUpdated (fun n => if n = 0 then exRows else exRows.putAll exTable.pk [(1, 9)]) ∧
    exIndex ∈ exTable.indexes ∧ (Selector.point ((0, 5) : Rec)).OK exIndex ∧
    FetchesAll (scanIndexCb (T := Rec)) (fun _ => True) ∧ StopsOnError (scanIndexCb (T := Rec)) :=
  ⟨exUpdated_setting, by simp [exTable], ⟨by simp [Selector.elems], by simp [Selector.elems, exIndex]⟩, scanIndexCb_fetches, scanIndexCb_stops⟩

/-- and one with a row that the scan does not select: `C79_unchanged` gives the whole result -/
example : (exTable.scanLive (stdEnv exTable) () exUpdated (fun _ => 0) exIndex (.point (0, 6)) scanIndexCb false 9 []) =
    some ⟨([(2, 6)], 1), none⟩ := by decide

/-- and of `C79_query`: a query with a filter over the changed table -/
example : (exQueryLive.selected exTable).isSome = true ∧ exQueryLive.index ∈ exTable.indexes ∧
    exQueryLive.executeQueryLive exTable (stdEnv exTable) (fun less l => l.mergeSort less) () exUpdated (fun _ => 0) 9 = some (.ok [(1, 9)]) :=
  ⟨by decide, by simp [exTable, exQueryLive], by decide⟩

/-- C79 is false on secondary indexes: asked for the rows with value 5, the scan returns a row with value 9. -/
theorem C79_refuted_other_value :
    exTable.scanLive (stdEnv exTable) () exUpdated (fun _ => 0) exIndex (.point (0, 5)) scanIndexCb false 9 [] =
      some ⟨([(1, 9)], 1), none⟩ ∧
    (∀ n, exTable.scanIndex (stdEnv exTable) () (exUpdated n) none exIndex (.point (0, 5)) false 9 [] ≠ some ⟨[(1, 9)], none⟩) := by
  refine ⟨by decide, fun n => ?_⟩
  unfold exUpdated
  by_cases h : n = 0
  · rw [if_pos h]; decide
  · rw [if_neg h]; decide

/-- C79 is false on secondary indexes: a scan over two rows fails with `notFound` and without any row, because one was
deleted meanwhile; at no moment a scan would fail. -/
theorem C79_refuted_fails :
    exTable.scanLive (stdEnv exTable) () exDeleted (fun _ => 0) exIndex (.range (0, 0) (9, 9)) scanIndexCb false 9 [] =
      some ⟨([], 1), some .notFound⟩ ∧
    (∀ n, (exTable.scanIndex (stdEnv exTable) () (exDeleted n) none exIndex (.range (0, 0) (9, 9)) false 9 []).map (·.err) = some none) := by
  refine ⟨by decide, fun n => ?_⟩
  unfold exDeleted
  by_cases h : n = 0
  · rw [if_pos h]; decide
  · rw [if_neg h]; decide

/-- C79 is false for several points, on the primary index too: the scan returns two rows that were never in the table
together. -/
theorem C79_refuted_parts :
    exTable.scanLive (stdEnv exTable) () exMoved (fun i => i) exTable.primaryIndex (.points [(1, 0), (2, 0)]) scanIndexCb false 9 [] =
      some ⟨([(1, 5), (2, 6)], 2), none⟩ ∧
    (∀ n, exTable.scanIndex (stdEnv exTable) () (exMoved n) none exTable.primaryIndex (.points [(1, 0), (2, 0)]) false 9 [] ≠
      some ⟨[(1, 5), (2, 6)], none⟩) := by
  refine ⟨by decide, fun n => ?_⟩
  unfold exMoved
  by_cases h : n = 0
  · simp only [if_pos h]; decide
  · simp only [if_neg h]; decide

/-- test history: when the second call of the callback asks for its row, the first call has changed the value of its row (1, 5) to 8 -/
def exChangedInCall (n : Nat) : KV := if n ≤ 1 then exDB else (exTable1.update (stdEnv exTable1) exDB () none [(1, 8)]).db

/-- C62 is false for several ranges: a callback that changes each row it visits meets the changed row again. The iterator of the second
range is made when the first range is used up, here by the second call of the callback (`ScanPrefetchSize` is 1), and it shows the row that
the first call has moved there. The first range alone holds the two rows (1, 5) and (2, 6). -/
theorem C62_refuted_twice :
    exTable1.scanLive (stdEnv exTable1) () exChangedInCall (fun i => if i = 0 then 0 else 2) exIndex (.ranges [((0, 0), (9, 6)), ((0, 8), (9, 9))])
      scanIndexCb false 9 [] = some ⟨([(1, 5), (2, 6), (1, 8)], 3), none⟩ ∧
    exTable1.scanIndex (stdEnv exTable1) () exDB none exIndex (.ranges [((0, 0), (9, 6)), ((0, 8), (9, 9))]) false 9 [] =
      some ⟨[(1, 5), (2, 6)], none⟩ := by
  decide

end Bond
