import Verif.UnreadableLemmas
import Verif.BatchLocal
import Verif.Props.Faults
import Verif.Props.LiveScan
import Verif.ConcurrentLemmas
import Verif.Props.ReIndex
/-
Property C91: rows whose stored bytes cannot be decoded.
-/
namespace Bond
open Spec
variable {T F σ : Type}

/-! ## C91 A row that cannot be decoded is reported, and does no other harm

Full statement: when the stored bytes of some rows cannot be decoded, every call that reads such a row fails, every other call
does what it would do otherwise, and a callback may go on to the next row. False for ReIndex, which removes the index
entries of all rows before it fails, and for callbacks on secondary indexes, which cannot go on. -/

theorem Spec.Damaged.isSome {t : Table T F} {good V : KV} {m : Rows T} {bad : Bytes → Bool} (D : Damaged t good V m bad) (k : Bytes) :
    (V.get k).isSome = (good.get k).isSome := by
  by_cases h : ∃ pk, bad pk = true ∧ k = dataKey t.id pk
  · obtain ⟨pk, hb, rfl⟩ := h
    obtain ⟨hm, v, hv, _⟩ := D.row pk hb
    obtain ⟨x, hx⟩ := Option.isSome_iff_exists.1 hm
    obtain ⟨b, _, hg⟩ := D.holds.present pk x hx
    rw [hv, hg]; rfl
  · rw [D.same k (fun pk hb he => h ⟨pk, hb, he⟩)]

/-- the entries between two bounds: the same keys, with the bytes stored now -/
theorem Spec.Damaged.scan {t : Table T F} {good V : KV} {m : Rows T} {bad : Bytes → Bool} (D : Damaged t good V m bad) (lo hi : Bytes) :
    V.scan lo hi = (good.scan lo hi).map (fun e => (e.1, (V.get e.1).getD [])) := by
  apply sortedKV_ext (V.scan_sorted lo hi)
  · have := good.scan_sorted lo hi
    unfold SortedKV at this ⊢
    rw [List.pairwise_map]; exact this
  · rintro ⟨k, v⟩
    rw [KV.mem_scan]
    have hs := D.isSome k
    constructor
    · rintro ⟨h1, h2, h3⟩
      rw [h1] at hs
      obtain ⟨w, hw⟩ := Option.isSome_iff_exists.1 (show (good.get k).isSome = true by rw [← hs]; rfl)
      exact List.mem_map.2 ⟨(k, w), (KV.mem_scan _ _ _ _ _).2 ⟨hw, h2, h3⟩, by simp [h1]⟩
    · intro h
      obtain ⟨⟨k', w⟩, hm, he⟩ := List.mem_map.1 h
      rw [KV.mem_scan] at hm
      simp only [Prod.mk.injEq] at he
      obtain ⟨rfl, rfl⟩ := he
      have hs := D.isSome k'
      rw [hm.1] at hs
      obtain ⟨w', hw⟩ := Option.isSome_iff_exists.1 (show (V.get k').isSome = true by rw [hs]; rfl)
      exact ⟨by rw [hw]; rfl, hm.2⟩

/-- what reading a stored row gives -/
theorem Spec.Damaged.read {t : Table T F} (rt : t.RoundTripFresh) {good V : KV} {m : Rows T} {bad : Bytes → Bool} (D : Damaged t good V m bad)
    {x : T} (hx : m (t.pk x) = some x) : t.decode ((V.get (t.key x)).getD []) = readOf t bad x := by
  unfold readOf
  by_cases hb : bad (t.pk x) = true
  · obtain ⟨_, v, hv, hd⟩ := D.row _ hb
    rw [if_pos hb, show t.key x = dataKey t.id (t.pk x) from rfl, hv]
    unfold Table.decode
    rw [show (some v).getD [] = v from rfl, hd]
  · obtain ⟨b, hs, hg⟩ := D.holds.present _ _ hx
    have he : V.get (t.key x) = some b := by
      rw [D.same _ (fun pk hpk he => ?_)]
      · exact hg
      · obtain ⟨_, e⟩ := dataKey_inj he
        rw [e] at hb; exact hb hpk
    rw [if_neg hb, he]
    unfold Table.decode
    rw [show (some b).getD [] = b from rfl, rt x b hs]

/-- the setting of C91: as for the other reads, with a damaged table -/
structure DamagedSetting (t : Table T F) (env : Env T) (filt : F) (db : KV) (ob : Option Batch) (good V : KV) (m : Rows T) (bad : Bytes → Bool) : Prop where
  wf : t.WF
  rt : t.RoundTripFresh
  ok : env.OK t
  alive : ∀ n, env.done n = false
  prefetch : 0 < t.prefetch
  view : readable db ob = some V
  damaged : Damaged t good V m bad
  covers : FilterCovers t filt m

/-- C91 for all scans: the callback is called for the rows the scan would visit if nothing were damaged, in the same order, and
`Get` answers the row, or the error if it cannot be decoded; on secondary indexes for callbacks that stop when `Get` fails.
Missing for the full C91: callbacks that go on after an error, see `C91_refuted_skip`. -/
theorem C91_forEach_partial {t : Table T F} {env : Env T} {filt : F} {db : KV} {ob : Option Batch} {good V : KV} {m : Rows T} {bad : Bytes → Bool}
    (S : DamagedSetting t env filt db ob good V m bad) {idx : Index T} (hi : IsIndex t idx) {sel : Selector T} (hs : sel.OK idx)
    (reverse : Bool) :
    ∃ rows : List T, Yields t env filt good none idx sel reverse rows ∧
      ∀ {σ : Type} {f : σ → Bytes → Cb σ T} {fetched : σ → Prop}, (idx.id = primaryIndexID ∨ FetchesAll f fetched ∧ StopsOnError f) →
        ∃ N, ∀ fuel, N ≤ fuel → ∀ s, t.scanIndexForEach env filt (fun _ => (db, ob)) idx sel f reverse fuel s =
          some (runReads f (rows.map (fun x => (t.indexKey idx x, readOf t bad x))) s) := by
  have D := S.damaged
  obtain ⟨h1, h2⟩ := iterBounds_eq S.wf hi hs
  obtain ⟨parts, hsc, hp⟩ := scan_parts S.wf hi D.holds _ h2
  refine ⟨dir reverse parts.flatten, ⟨parts.flatten.length, fun fuel hfu tr =>
    scanIndex_eq S.wf S.rt S.ok S.alive S.prefetch hi rfl D.holds S.covers h1 h2 hp reverse tr hfu⟩, ?_⟩
  intro σ f fetched hf
  refine ⟨parts.flatten.length, fun fuel hfuel s => ?_⟩
  have hrow : ∀ x ∈ dir reverse parts.flatten, m (t.pk x) = some x := fun x hx => (hp.indexed x ((mem_dir _ _ _).1 hx)).1
  unfold Table.scanIndexForEach Table.iterParts
  rw [h1]
  have hents : (boundsOf t idx sel).map (fun b => iterEntries db ob b.1 b.2) =
      (parts.map (fun rows => rows.map (entryOf t idx))).map (fun l => l.map (fun e => (e.1, (V.get e.1).getD []))) := by
    rw [← hsc, List.map_map]
    apply List.map_congr_left
    intro b _
    unfold iterEntries
    rw [S.view]
    exact D.scan _ _
  have hwalk : walk ((parts.map (fun rows => rows.map (entryOf t idx))).map (fun l => l.map (fun e => (e.1, (V.get e.1).getD [])))) reverse =
      (dir reverse parts.flatten).map (fun x => (t.indexKey idx x, (V.get (t.indexKey idx x)).getD [])) := by
    have : ∀ ps : List (List (Bytes × Bytes)), walk (ps.map (fun l => l.map (fun e => (e.1, (V.get e.1).getD [])))) reverse =
        (walk ps reverse).map (fun e => (e.1, (V.get e.1).getD [])) := by
      intro ps
      unfold walk
      rw [← List.map_flatten]
      cases reverse <;> simp
    rw [this, walk_map, List.map_map]
    rfl
  simp only [Option.map_some, hents, hwalk]
  rcases hi.id S.wf with ⟨hid, rfl⟩ | ⟨hid, hmem⟩
  · rw [if_pos hid, scanPrimaryLoop_reads t S.alive]
    congr 2
    unfold decoded
    rw [List.map_map]
    apply List.map_congr_left
    intro x hx
    simp only [Function.comp]
    rw [indexKey_primary, D.read S.rt (hrow x hx)]
  · rw [if_neg hid]
    rcases hf with h | ⟨hf, hst⟩
    · exact absurd h hid
    have hl : Leads t filt db ob ((dir reverse parts.flatten).map (fun x => (t.indexKey idx x, (V.get (t.key x)).getD []))) := by
      intro e he
      obtain ⟨x, hx, rfl⟩ := List.mem_map.1 he
      refine ⟨x, toDataKey_indexKey S.wf hi x, ?_⟩
      have hmx := hrow x hx
      have hs1 := D.isSome (t.key x)
      obtain ⟨b, _, hg⟩ := D.holds.present _ _ hmx
      rw [show good.get (t.key x) = some b from hg] at hs1
      obtain ⟨v, hv⟩ := Option.isSome_iff_exists.1 (show (V.get (t.key x)).isSome = true by rw [hs1]; rfl)
      unfold lookup
      rw [if_pos (show t.mayContain filt (t.key x) = true from mayContain_of_covers S.covers hmx), S.view]
      simp only
      rw [hv]; rfl
    have hrest : (dir reverse parts.flatten).map (fun x => (t.indexKey idx x, (V.get (t.indexKey idx x)).getD [])) =
        ((dir reverse parts.flatten).map (fun x => (t.indexKey idx x, (V.get (t.key x)).getD []))).map
          (fun r => (r.1, (fun r : Bytes × Bytes => (V.get r.1).getD []) r)) := by
      rw [List.map_map]; rfl
    rw [hrest, outerLoop_reads S.ok S.alive S.prefetch hf hst (fun r => (V.get r.1).getD []) fuel fuel _ hl 0 s
      (by simpa [length_dir] using hfuel) (by simpa [length_dir] using hfuel)]
    congr 2
    unfold decoded
    rw [List.map_map]
    apply List.map_congr_left
    intro x hx
    simp only [Function.comp]
    rw [D.read S.rt (hrow x hx)]

theorem runReads_scanIndexCb (t : Table T F) (bad : Bytes → Bool) (key : T → Bytes) (rows : List T) (tr : List T) :
    runReads scanIndexCb (rows.map (fun x => (key x, readOf t bad x))) tr =
      ⟨tr ++ rows.takeWhile (fun x => !bad (t.pk x)), if rows.any (fun x => bad (t.pk x)) then some .deser else none⟩ := by
  induction rows generalizing tr with
  | nil => simp [runReads]
  | cons x rows ih =>
    rw [List.map_cons]
    by_cases hb : bad (t.pk x) = true
    · rw [runReads_stop (s' := tr) (cont := false) (err := some .deser) (by simp [readOf, hb, scanIndexCb, Cb.run]) (by rfl)]
      simp [hb]
    · rw [runReads_go (s' := tr ++ [x]) (cont := true) (err := none) (by simp [readOf, hb, scanIndexCb, Cb.run]) (by simp), ih]
      simp [hb]

/-- C91 for ScanIndex and Scan, on every index and in both directions: the rows up to the first one that cannot be decoded, and an
error if there is one; otherwise the same as if nothing were damaged. -/
theorem C91_scanIndex {t : Table T F} {env : Env T} {filt : F} {db : KV} {ob : Option Batch} {good V : KV} {m : Rows T} {bad : Bytes → Bool}
    (S : DamagedSetting t env filt db ob good V m bad) {idx : Index T} (hi : IsIndex t idx) {sel : Selector T} (hs : sel.OK idx)
    (reverse : Bool) :
    ∃ rows : List T, Yields t env filt good none idx sel reverse rows ∧
      ∃ N, ∀ fuel, N ≤ fuel → ∀ tr, t.scanIndex env filt db ob idx sel reverse fuel tr =
        some ⟨tr ++ rows.takeWhile (fun x => !bad (t.pk x)), if rows.any (fun x => bad (t.pk x)) then some .deser else none⟩ := by
  obtain ⟨rows, hy, h⟩ := C91_forEach_partial S hi hs reverse
  obtain ⟨N, hN⟩ := h (f := scanIndexCb) (Or.inr ⟨scanIndexCb_fetches, scanIndexCb_stops⟩)
  refine ⟨rows, hy, N, fun fuel hf tr => ?_⟩
  unfold Table.scanIndex
  rw [hN fuel hf tr, runReads_scanIndexCb]

/-- with a loud callback that fetches every row, one row that cannot be decoded is enough for an error -/
theorem runReads_loud {t : Table T F} {bad : Bytes → Bool} (key : T → Bytes) {f : σ → Bytes → Cb σ T} (hl : ∀ s k, (f s k).Loud)
    (hg : ∀ s k, (f s k).oneGet) (rows : List T) (h : ∃ x ∈ rows, bad (t.pk x) = true) (s : σ) :
    (runReads f (rows.map (fun x => (key x, readOf t bad x))) s).err.isSome := by
  induction rows generalizing s with
  | nil => obtain ⟨x, hx, _⟩ := h; simp at hx
  | cons x rows ih =>
    rw [List.map_cons]
    generalize hout : (f s (key x)).run (readOf t bad x) = out
    obtain ⟨s', cont, err⟩ := out
    by_cases hc : (!cont || err.isSome) = true
    · rw [runReads_stop hout hc]
      have := (hl s (key x)).run (readOf t bad x)
      rw [hout] at this
      simp only at this
      cases cont <;> cases err <;> simp_all
    · rw [runReads_go hout hc]
      apply ih
      obtain ⟨y, hy, hby⟩ := h
      rcases List.mem_cons.1 hy with rfl | hy
      · exfalso
        obtain ⟨s0, g, hgg, hng⟩ := hg s (key y)
        have hL := hl s (key y)
        rw [hgg] at hL hout
        have hf := (hL.2 .deser).run (.error .deser)
        simp only [readOf, hby, if_true, Cb.run] at hout
        rw [hout] at hf
        simp only at hf
        rw [hf] at hc; simp at hc
      · exact ⟨y, hy, hby⟩

/-- C91 for queries without After and Intersects, that look at all rows (no Limit, or an order; no Offset, or a filter or an
order): if one of the rows of the index range cannot be decoded, the query fails. -/
theorem C91_query {t : Table T F} {env : Env T} {filt : F} {db : KV} {ob : Option Batch} {good V : KV} {m : Rows T} {bad : Bytes → Bool}
    (S : DamagedSetting t env filt db ob good V m bad) (srt : (T → T → Bool) → List T → List T) (q : Query T) (hi : IsIndex t q.index)
    (hs : q.sel.OK q.index) (ha : q.after = none) (hL : q.less.isSome ∨ q.limit = 0) (hO : q.filter.isSome ∨ q.less.isSome ∨ q.offset = 0) :
    ∃ rows : List T, Yields t env filt good none q.index q.sel q.reverse rows ∧
      ((∃ x ∈ rows, bad (t.pk x) = true) → ∃ N, ∀ fuel, N ≤ fuel → ∃ e, q.executeQuery t env srt filt db ob fuel = some (.error e)) := by
  obtain ⟨rows, hy, h⟩ := C91_forEach_partial S hi hs q.reverse
  refine ⟨rows, hy, fun hb => ?_⟩
  obtain ⟨N, hN⟩ := h (f := q.callback t) (Or.inr ⟨callback_fetches q, callback_stops t q⟩)
  refine ⟨N, fun fuel hf => ?_⟩
  have hone : ∀ s k, (q.callback t s k).oneGet := by
    intro s k
    unfold Query.callback
    rw [ha]
    simp only
    unfold Query.body
    rw [if_neg]
    · refine ⟨s, _, rfl, fun r => ?_⟩
      cases r with
      | error e => exact ⟨_, _, _, rfl⟩
      | ok x =>
        simp only
        split
        · exact ⟨_, _, _, rfl⟩
        · exact ⟨_, _, _, rfl⟩
    · rintro ⟨h1, h2, h3⟩
      rcases hO with hO | hO | hO
      · cases hq : q.filter <;> simp_all
      · cases hq : q.less <;> simp_all
      · rw [hO] at h3; exact absurd h3 (Nat.not_lt_zero _)
  have hsel : q.selected t = some q.sel := by unfold Query.selected; rw [ha]
  rw [executeQuery_selected, hsel]
  simp only
  rw [hN fuel hf]
  have := runReads_loud (t.indexKey q.index) (callback_loud t q hL) hone rows hb {}
  generalize runReads (q.callback t) (rows.map (fun x => (t.indexKey q.index x, readOf t bad x))) {} = o at this ⊢
  obtain ⟨s, e⟩ := o
  cases e with
  | none => cases this
  | some e => exact ⟨e, rfl⟩

/-- with a callback that fails when `Get` failed, a damaged row that is read ends the scan with an error, and one that is not read changes nothing -/
theorem runReads_safe {t : Table T F} {bad : Bytes → Bool} (key : T → Bytes) {f : σ → Bytes → Cb σ T} (hf : ∀ s k, (f s k).Careful) (rows : List T)
    (s : σ) : (runReads f (rows.map (fun x => (key x, readOf t bad x))) s).err.isSome ∨
      runReads f (rows.map (fun x => (key x, readOf t bad x))) s = runReads f (rows.map (fun x => (key x, .ok x))) s := by
  have one : ∀ (c : Cb σ T), c.Careful → ∀ x : T, (c.run (readOf t bad x)).2.2.isSome ∨ c.run (readOf t bad x) = c.run (.ok x) := by
    intro c hc x
    unfold readOf
    by_cases hb : bad (t.pk x) = true
    · rw [if_pos hb]
      cases c with
      | ret s cont err => exact Or.inr rfl
      | get s k => exact Or.inl ((hc.2 .deser).run _)
    · rw [if_neg hb]; exact Or.inr rfl
  induction rows generalizing s with
  | nil => exact Or.inr rfl
  | cons x rows ih =>
    rw [List.map_cons, List.map_cons]
    have h1 := one _ (hf s (key x)) x
    generalize hout : (f s (key x)).run (readOf t bad x) = out at h1
    obtain ⟨s', cont, err⟩ := out
    rcases h1 with h1 | h1
    · left
      rw [runReads_stop hout (by simp only at h1; simp [h1])]
      exact h1
    · by_cases hc : (!cont || err.isSome) = true
      · right
        rw [runReads_stop hout hc, runReads_stop h1.symm hc]
      · rw [runReads_go hout hc, runReads_go h1.symm hc]
        exact ih s'

/-- the undamaged database is a damaged one without damaged rows -/
theorem DamagedSetting.undamaged {t : Table T F} {env : Env T} {filt : F} {db : KV} {ob : Option Batch} {good V : KV} {m : Rows T} {bad : Bytes → Bool}
    (S : DamagedSetting t env filt db ob good V m bad) : DamagedSetting t env filt good none good good m (fun _ => false) :=
  ⟨S.wf, S.rt, S.ok, S.alive, S.prefetch, rfl, ⟨S.damaged.holds, fun _ _ => rfl, fun _ h => by cases h⟩, S.covers⟩

/-- C91 for all queries without Intersects, with any After, Limit, Offset, Filter and Order: rows that cannot be decoded never make a query
return something wrong. It fails, or it returns what it would return if nothing were damaged. -/
theorem C91_query_safe {t : Table T F} {env : Env T} {filt : F} {db : KV} {ob : Option Batch} {good V : KV} {m : Rows T} {bad : Bytes → Bool}
    (S : DamagedSetting t env filt db ob good V m bad) (srt : (T → T → Bool) → List T → List T) (q : Query T) (hi : IsIndex t q.index)
    (hs : ∀ sel, q.selected t = some sel → sel.OK q.index) :
    ∃ N, ∀ fuel, N ≤ fuel → (∃ e, q.executeQuery t env srt filt db ob fuel = some (.error e)) ∨
      q.executeQuery t env srt filt db ob fuel = q.executeQuery t env srt filt good none fuel := by
  cases hsel : q.selected t with
  | none => exact ⟨0, fun fuel _ => Or.inl ⟨.panic, by rw [executeQuery_selected, hsel]⟩⟩
  | some sel =>
    obtain ⟨rows, hy, h⟩ := C91_forEach_partial S hi (hs sel hsel) q.reverse
    obtain ⟨rows', hy', h'⟩ := C91_forEach_partial S.undamaged hi (hs sel hsel) q.reverse
    rw [Yields.unique hy' hy] at h'
    obtain ⟨N, hN⟩ := h (f := q.callback t) (Or.inr ⟨callback_fetches q, callback_stops t q⟩)
    obtain ⟨N', hN'⟩ := h' (f := q.callback t) (Or.inr ⟨callback_fetches q, callback_stops t q⟩)
    refine ⟨max N N', fun fuel hf => ?_⟩
    have e2 := hN' fuel (by omega) {}
    have e3 : (rows.map (fun x => (t.indexKey q.index x, readOf t (fun _ => false) x))) = rows.map (fun x => (t.indexKey q.index x, .ok x)) :=
      List.map_congr_left (fun x _ => rfl)
    rw [executeQuery_selected, executeQuery_selected, hsel]
    simp only
    rw [hN fuel (by omega), e2, e3]
    rcases runReads_safe (t := t) (bad := bad) (t.indexKey q.index) (callback_careful t q) rows {} with hr | hr
    · left
      generalize runReads (q.callback t) (rows.map (fun x => (t.indexKey q.index x, readOf t bad x))) {} = o at hr ⊢
      obtain ⟨s, e⟩ := o
      cases e with
      | none => cases hr
      | some e => exact ⟨e, rfl⟩
    · right; rw [hr]

/-! ### intersect queries -/

theorem collectSet_keys (done : Nat → Bool) (keep : Bytes → Bool) {l l' : List (Bytes × Bytes)} (h : l.map Prod.fst = l'.map Prod.fst) (c : Nat) (m : KV) :
    collectSet done keep l c m = collectSet done keep l' c m := by
  induction l generalizing l' c m with
  | nil => cases l' with
    | nil => rfl
    | cons => simp at h
  | cons e l ih =>
    cases l' with
    | nil => simp at h
    | cons e' l' =>
      obtain ⟨k, v⟩ := e
      obtain ⟨k', v'⟩ := e'
      simp only [List.map_cons, List.cons.injEq] at h
      obtain ⟨rfl, h⟩ := h
      rw [collectSet, collectSet]
      simp only [ih h]

/-- the keys of an intersection do not depend on the bytes of the rows -/
theorem Spec.Damaged.intersect {t : Table T F} {good V : KV} {m : Rows T} {bad : Bytes → Bool} (D : Damaged t good V m bad) (env : Env T) (idx : Index T)
    (sel : Selector T) (qs : List (Query T)) : t.intersect env V none idx sel qs = t.intersect env good none idx sel qs := by
  have hp : ∀ idx sel, (t.iterParts V none idx sel).map (fun ps => ps.flatten.map Prod.fst) =
      (t.iterParts good none idx sel).map (fun ps => ps.flatten.map Prod.fst) := by
    intro idx sel
    unfold Table.iterParts
    simp only [Option.map_map]
    cases t.iterBounds idx sel with
    | none => rfl
    | some bs =>
      simp only [Option.map_some, Function.comp, Option.some.injEq, List.map_flatten, List.map_map]
      congr 1
      refine List.map_congr_left (fun b _ => ?_)
      simp only [Function.comp, iterEntries, readable]
      rw [D.scan, List.map_map]
      rfl
  have hl : ∀ qs c m, t.intersectLoop env V none qs c m = t.intersectLoop env good none qs c m := by
    intro qs
    induction qs with
    | nil => intros; rfl
    | cons q qs ih =>
      intro c m
      rw [Table.intersectLoop, Table.intersectLoop]
      have := hp q.index q.sel
      cases h1 : t.iterParts V none q.index q.sel with
      | none => cases h2 : t.iterParts good none q.index q.sel with
        | none => rfl
        | some _ => rw [h1, h2] at this; cases this
      | some ps => cases h2 : t.iterParts good none q.index q.sel with
        | none => rw [h1, h2] at this; cases this
        | some ps' =>
          rw [h1, h2] at this
          simp only [Option.map_some, Option.some.injEq] at this
          simp only [collectSet_keys env.done _ this]
          generalize collectSet env.done (fun k => (m.get k).isSome) ps'.flatten c KV.empty = r
          cases r with
          | error e => rfl
          | ok r => exact ih _ _
  unfold Table.intersect
  have := hp idx sel
  cases h1 : t.iterParts V none idx sel with
  | none => cases h2 : t.iterParts good none idx sel with
    | none => rfl
    | some _ => rw [h1, h2] at this; cases this
  | some ps => cases h2 : t.iterParts good none idx sel with
    | none => rw [h1, h2] at this; cases this
    | some ps' =>
      rw [h1, h2] at this
      simp only [Option.map_some, Option.some.injEq] at this
      simp only [collectSet_keys env.done _ this, hl]

theorem mem_sliceKeys {q : Query T} {keys ks : List Bytes} (h : q.sliceKeys keys = .ok ks) {k : Bytes} (hk : k ∈ ks) : k ∈ keys := by
  unfold Query.sliceKeys at h
  split at h
  · split at h
    · cases h; simp at hk
    · unfold Query.slice at h
      split at h
      · cases h
      · rename_i l hl
        split at h
        · cases h
        · rename_i l' hl'
          cases h
          have h1 : k ∈ l := by
            split at hl'
            · unfold applyLimit at hl'
              split at hl'
              · cases hl'; exact hk
              · split at hl'
                · cases hl'; exact List.mem_of_mem_take hk
                · cases hl'
            · cases hl'; exact hk
          split at hl
          · unfold applyOffset at hl
            split at hl
            · cases hl; simp at h1
            · split at hl
              · cases hl; exact List.mem_of_mem_drop h1
              · cases hl
          · cases hl; exact h1
  · cases h; exact hk

theorem decodeFilter_safe (t : Table T F) (q : Query T) (g g' : Bytes → Bytes) (keys : List Bytes)
    (h : ∀ k ∈ keys, g' k = g k ∨ t.deser t.nil (g' k) = none) :
    (∃ e, t.decodeFilter q (keys.map g') = .error e) ∨ t.decodeFilter q (keys.map g') = t.decodeFilter q (keys.map g) := by
  induction keys with
  | nil => exact Or.inr rfl
  | cons k ks ih =>
    rw [List.map_cons, List.map_cons, Table.decodeFilter, Table.decodeFilter]
    rcases h k (by simp) with h1 | h1
    · rw [h1]
      cases t.deser t.nil (g k) with
      | none => exact Or.inl ⟨_, rfl⟩
      | some x =>
        rcases ih (fun k hk => h k (by simp [hk])) with ⟨e, he⟩ | he
        · left; exact ⟨e, by simp only [he]⟩
        · right; simp only [he]
    · rw [h1]; exact Or.inl ⟨_, rfl⟩

/-- C91 for queries with Intersects, without a batch: they fail, or return what they would return if nothing were damaged. -/
theorem C91_intersect_safe {t : Table T F} {env : Env T} {filt : F} {good V : KV} {m : Rows T} {bad : Bytes → Bool}
    (S : DamagedSetting t env filt V none good V m bad) (srt : (T → T → Bool) → List T → List T) (q : Query T) (hi : IsIndex t q.index)
    (hs : q.sel.OK q.index) (hqs : ∀ q' ∈ q.intersects, IsIndex t q'.index ∧ q'.sel.OK q'.index) :
    (∃ e, q.executeIntersect t env srt filt V none = .error e) ∨
      q.executeIntersect t env srt filt V none = q.executeIntersect t env srt filt good none := by
  have Sg : Setting t env filt good none m := ⟨S.wf, S.rt, S.ok, S.alive, S.prefetch, ⟨good, rfl, S.damaged.holds⟩, S.covers⟩
  obtain ⟨prts, _, h2, _⟩ := Sg.parts hi hs
  obtain ⟨rows, h1, h3⟩ := intersect_eq Sg hi hs q.intersects hqs (h2 false)
  unfold Query.executeIntersect
  split
  · exact Or.inl ⟨_, rfl⟩
  · rw [S.damaged.intersect, h1]
    simp only
    cases hk : q.sliceKeys (rows.map t.key) with
    | error e => exact Or.inl ⟨e, rfl⟩
    | ok keys =>
      simp only
      have hrow : ∀ k ∈ keys, ∃ x, k = t.key x ∧ m (t.pk x) = some x := by
        intro k hk'
        obtain ⟨x, hx, rfl⟩ := List.mem_map.1 (mem_sliceKeys hk hk')
        exact ⟨x, rfl, ((h3.2 x).1 hx).1.1⟩
      have hend : ∀ k ∈ keys, blt k t.dataKeySpaceEnd = true := by
        intro k hk'
        obtain ⟨x, rfl, _⟩ := hrow k hk'
        exact blt_key_end t x
      have hlk : ∀ db : KV, ∀ k ∈ keys, lookup t filt db none k = db.get k := by
        intro db k hk'
        obtain ⟨x, rfl, hx⟩ := hrow k hk'
        unfold lookup
        rw [if_pos (show t.mayContain filt (t.key x) = true from mayContain_of_covers S.covers hx)]
        rfl
      have hg : ∀ k ∈ keys, (good.get k).isSome := by
        intro k hk'
        obtain ⟨x, rfl, hx⟩ := hrow k hk'
        obtain ⟨b, _, hb⟩ := S.damaged.holds.present _ _ hx
        rw [show good.get (t.key x) = some b from hb]; rfl
      rw [getKeys_ok t S.ok filt V none hend (Nat.le_refl _) true (fun _ k hk' => by rw [hlk V k hk', S.damaged.isSome]; exact hg k hk'),
        getKeys_ok t S.ok filt good none hend (Nat.le_refl _) true (fun _ k hk' => by rw [hlk good k hk']; exact hg k hk')]
      simp only
      rcases decodeFilter_safe t q (fun k => (lookup t filt good none k).getD []) (fun k => (lookup t filt V none k).getD []) keys (by
        intro k hk'
        simp only [hlk V k hk', hlk good k hk']
        by_cases hb : ∃ pk, bad pk = true ∧ k = dataKey t.id pk
        · right
          obtain ⟨pk, hb, rfl⟩ := hb
          obtain ⟨_, v, hv, hd⟩ := S.damaged.row pk hb
          rw [hv]; exact hd _
        · left
          rw [S.damaged.same k (fun pk hp he => hb ⟨pk, hp, he⟩)]) with ⟨e, he⟩ | he
      · left; rw [he]; exact ⟨e, rfl⟩
      · right; rw [he]

/-! ### Get -/

/-- C91 for Get with a point: an error for a row that cannot be decoded, the row itself otherwise. -/
theorem C91_getOne {t : Table T F} {env : Env T} {filt : F} {db : KV} {ob : Option Batch} {good V : KV} {m : Rows T} {bad : Bytes → Bool}
    (S : DamagedSetting t env filt db ob good V m bad) (p : T) :
    t.getOne filt db ob p = match m (t.pk p) with
      | none => .error .notFound
      | some x => if bad (t.pk p) then .error .deser else .ok [x] := by
  unfold Table.getOne
  rw [S.view]
  have D := S.damaged
  cases hm : m (t.pk p) with
  | none =>
    have hs := D.isSome (t.key p)
    rw [show good.get (t.key p) = none from D.holds.absent _ hm] at hs
    have hn : V.get (t.key p) = none := by cases h : V.get (t.key p) with
      | none => rfl
      | some v => rw [h] at hs; cases hs
    simp only [hn]
    split <;> rfl
  | some x =>
    have hpk := D.holds.row_pk _ _ hm
    have hk : t.key p = t.key x := by unfold Table.key; rw [hpk]
    have hmay : t.mayContain filt (t.key p) = true := mayContain_of_covers S.covers hm
    have hs := D.isSome (t.key p)
    obtain ⟨b, _, hg⟩ := D.holds.present _ _ hm
    rw [show good.get (t.key p) = some b from hg] at hs
    obtain ⟨v, hv⟩ := Option.isSome_iff_exists.1 (show (V.get (t.key p)).isSome = true by rw [hs]; rfl)
    have hr := D.read S.rt (x := x) (by rw [hpk]; exact hm)
    rw [← hk, hv] at hr
    simp only [hmay, Bool.not_true, Bool.false_eq_true, if_false, hv]
    unfold Table.decode readOf at hr
    rw [show (some v).getD [] = v from rfl, hpk] at hr
    by_cases hb : bad (t.pk p) = true
    · rw [if_pos hb] at hr ⊢
      cases hd : t.deser t.nil v with
      | none => rfl
      | some y => rw [hd] at hr; cases hr
    · rw [if_neg hb] at hr ⊢
      cases hd : t.deser t.nil v with
      | none => rw [hd] at hr; cases hr
      | some y => rw [hd] at hr; simp only [Except.ok.injEq] at hr; rw [hr]

theorem decodeAll_error {t : Table T F} {vs : List Bytes} {v : Bytes} (hv : v ∈ vs) (hne : v ≠ []) (hd : t.deser t.nil v = none) :
    ∃ e, t.decodeAll vs = .error e := by
  induction vs with
  | nil => simp at hv
  | cons w vs ih =>
    rw [Table.decodeAll]
    rcases List.mem_cons.1 hv with rfl | hv
    · rw [if_neg hne]; simp only [hd]; exact ⟨_, rfl⟩
    · obtain ⟨e, he⟩ := ih hv
      rw [he]
      split
      · exact ⟨_, rfl⟩
      · cases t.deser t.nil w <;> exact ⟨_, rfl⟩

/-- C91 for Get with points: an error if the stored bytes of one of them cannot be decoded and are not empty.
Missing for the full C91: empty bytes, which are taken for a missing row (as in C20). -/
theorem C91_getMany_partial {t : Table T F} {env : Env T} {filt : F} {db : KV} {ob : Option Batch} {good V : KV} {m : Rows T} {bad : Bytes → Bool}
    (S : DamagedSetting t env filt db ob good V m bad) {pts : List T} {p : T} (hp : p ∈ pts) (hb : bad (t.pk p) = true)
    (hne : V.get (t.key p) ≠ some []) : ∃ e, t.getMany env filt db ob pts = .error e := by
  have hpts : pts ≠ [] := by intro e; subst e; simp at hp
  obtain ⟨hm, v, hv, hd⟩ := S.damaged.row _ hb
  obtain ⟨x, hx⟩ := Option.isSome_iff_exists.1 hm
  have hlk : lookup t filt db ob (t.key p) = some v := by
    unfold lookup
    rw [if_pos (show t.mayContain filt (t.key p) = true from mayContain_of_covers S.covers hx), S.view]; exact hv
  unfold Table.getMany
  rw [batched_single pts (Nat.le_refl _) hpts, Table.getChunks, getKeys_ok t S.ok filt db ob _ (by simp) false (by simp)]
  · simp only
    obtain ⟨e, he⟩ := decodeAll_error (t := t) (vs := (pts.map t.key).map (fun k => (lookup t filt db ob k).getD [])) (v := v)
      (List.mem_map.2 ⟨t.key p, List.mem_map.2 ⟨p, hp, rfl⟩, by rw [hlk]; rfl⟩) (fun e => hne (by rw [← e]; exact hv)) (hd _)
    rw [he]; exact ⟨e, rfl⟩
  · intro k hk
    obtain ⟨y, _, rfl⟩ := List.mem_map.1 hk
    exact blt_key_end t y

/-! ### Writes -/

theorem updateLoop_decodes {t : Table T F} {env : Env T} {entries : List (Bytes × Bytes)} {trs : List T} (items : List (Bytes × Nat))
    (s : WSt T F) (h : (t.updateLoop env entries trs items s).2 = none) :
    ∀ e ∈ items, ∃ v o x, seekExact entries e.1 = some v ∧ t.deser o v = some x := by
  induction items generalizing s with
  | nil => simp
  | cons e items ih =>
    obtain ⟨k, j⟩ := e
    rw [Table.updateLoop] at h
    split at h
    · cases h
    split at h
    · rename_i hh
      have := ih _ h
      intro e he
      rcases List.mem_cons.1 he with rfl | he
      · cases items with
        | nil => simp at hh
        | cons e' items =>
          simp only [List.head?_cons, Option.map_some, Option.some.injEq] at hh
          have := this e' (by simp)
          rw [hh] at this; exact this
      · exact this e he
    · cases hsk : seekExact entries k with
      | none => simp [hsk] at h
      | some v =>
        simp only [hsk] at h
        cases hd : t.deser s.oldTr v with
        | none => simp [hd] at h
        | some old =>
          simp only [hd] at h
          split at h
          · cases h
          split at h
          · cases h
          intro e he
          rcases List.mem_cons.1 he with rfl | he
          · exact ⟨v, _, _, hsk, hd⟩
          · exact ih _ h e he

theorem mem_dropWhile_key {k key : Bytes} {j : Nat} (hk : ¬ key = k) {items : List (Bytes × Nat)} (h : (key, j) ∈ items) :
    (key, j) ∈ items.dropWhile (fun x => x.fst == k) := by
  induction items with
  | nil => simp at h
  | cons e items ih =>
    rw [List.dropWhile_cons]
    split
    · rename_i he
      rcases List.mem_cons.1 h with e' | e'
      · subst e'; simp at he; exact absurd he hk
      · exact ih e'
    · exact h

theorem upsertLoop_decodes {t : Table T F} (fs : t.FilterSound) {env : Env T} {oc : Table.OnConflict T} {entries : List (Bytes × Bytes)} {trs : List T}
    {key : Bytes} (fuel i : Nat) (items : List (Bytes × Nat)) (hf : items.length ≤ fuel)
    (s : WSt T F) (hmay : t.mayContain s.filt key = true) (h : (t.upsertLoop env oc entries trs fuel i items s).2 = none) :
    (∃ j, (key, j) ∈ items) → ∀ v, seekExact entries key = some v → ∃ o x, t.deser o v = some x := by
  induction fuel generalizing i items s with
  | zero =>
    rintro ⟨j, hj⟩
    have : items = [] := List.eq_nil_of_length_eq_zero (by omega)
    subst this; simp at hj
  | succ fuel ih =>
    cases items with
    | nil => rintro ⟨j, hj⟩; simp at hj
    | cons e items =>
      obtain ⟨k, j⟩ := e
      rw [Table.upsertLoop] at h
      split at h
      · cases h
      split at h
      · cases h
      simp only at h
      split at h
      · cases h
      rename_i found hfound
      split at h
      · cases h
      rename_i rest' i' tr' old' hdup
      split at h
      · cases h
      rintro ⟨j', hj'⟩ v hv
      by_cases hk : key = k
      · subst hk
        have hex : t.existIter s.filt entries key = some v := by
          unfold Table.existIter
          unfold Table.mayContain at hmay
          cases hfl : t.filter with
          | none => exact hv
          | some fl => simp only [hfl] at hmay; simp [hmay, hv]
        rw [hex] at hfound
        simp only [Option.map_eq_some_iff] at hfound
        obtain ⟨x, hx, _⟩ := hfound
        exact ⟨_, x, hx⟩
      · have hr := (upsertDup_rest _ _ _ _ _ hdup).1
        simp only at hr
        have hmem : (key, j') ∈ rest' := by
          rw [hr]
          have : (key, j') ∈ items := by
            rcases List.mem_cons.1 hj' with e | e
            · simp only [Prod.mk.injEq] at e; exact absurd e.1 hk
            · exact e
          exact mem_dropWhile_key hk this
        have hlen : rest'.length ≤ items.length := by
          rw [hr]; exact (List.dropWhile_sublist _).length_le
        refine ih (i' + 1) rest' (by simp at hf; omega) _ ?_ h ⟨j', hmem⟩ v hv
        simp only
        split
        · exact hmay
        · have := filtLe_add fs s.filt k
          unfold Table.mayContain at hmay ⊢
          cases hfl : t.filter with
          | none => rfl
          | some fl =>
            simp only [hfl] at hmay ⊢
            exact this fl hfl key hmay

theorem forChunks_each {α β : Type} {f : List β → α → α × Option Err} {P : α → Prop} (hP : ∀ c s, P s → (f c s).2 = none → P (f c s).1)
    (cs : List (List β)) (s : α) (hs : P s) (hn : (forChunks f cs s).2 = none) : ∀ c ∈ cs, ∃ s', P s' ∧ (f c s').2 = none := by
  induction cs generalizing s with
  | nil => simp
  | cons c cs ih =>
    rw [forChunks] at hn
    split at hn
    · rename_i s' hfc
      have h0 : (f c s).2 = none := by rw [hfc]
      intro c' hc'
      rcases List.mem_cons.1 hc' with rfl | hc'
      · exact ⟨s, hs, h0⟩
      · have := hP c s hs h0
        rw [hfc] at this
        exact ih _ this hn c' hc'
    · rename_i s' e hfc hne
      exfalso
      cases hn

/-- C91 for Update and Upsert: a call that is given a row whose stored bytes cannot be decoded fails and changes nothing. -/
theorem C91_update {t : Table T F} {env : Env T} (ok : env.OK t) {filt : F} {good V : KV} {m : Rows T} {bad : Bytes → Bool}
    (D : Damaged t good V m bad) {trs : List T} {x : T} (hx : x ∈ trs) (hb : bad (t.pk x) = true) :
    (t.update env V filt none trs).err ≠ none ∧ (t.update env V filt none trs).db = V := by
  have he : (t.update env V filt none trs).err ≠ none := by
    intro he
    have h := finish_none he
    rw [← batched_flatten trs (by decide : 0 < persistentBatchSize)] at hx
    obtain ⟨c, hc, hxc⟩ := List.mem_flatten.1 hx
    obtain ⟨s', _, hs'⟩ := forChunks_each (P := fun _ => True) (fun _ _ _ _ => trivial) _ _ trivial h c hc
    have hkm : t.key x ∈ (sortKeys env (c.map t.key)).map Prod.fst := by
      rw [(describes_sort t env ok c).1.keys]
      exact List.mem_map.2 ⟨x, (describes_sort t env ok c).2.mem_iff.2 hxc, rfl⟩
    obtain ⟨e, hem, hek⟩ := List.mem_map.1 hkm
    obtain ⟨v, o, y, hsk, hd⟩ := updateLoop_decodes _ s' hs' e hem
    rw [seek_chunk ok _ _ e hem, hek] at hsk
    obtain ⟨_, w, hw, hn⟩ := D.row _ hb
    have : V.get (t.key x) = some v := hsk
    rw [show t.key x = dataKey t.id (t.pk x) from rfl, hw] at this
    rw [← Option.some.inj this, hn] at hd
    cases hd
  exact ⟨he, ((C13 t env V filt (.update trs)).1 he).1⟩

theorem C91_upsert {t : Table T F} (fs : t.FilterSound) {env : Env T} (ok : env.OK t) {filt : F} {good V : KV} {m : Rows T} {bad : Bytes → Bool}
    (D : Damaged t good V m bad) (hF : FilterCovers t filt m) (oc : Table.OnConflict T) {trs : List T} {x : T} (hx : x ∈ trs)
    (hb : bad (t.pk x) = true) :
    (t.upsert env V filt none oc trs).err ≠ none ∧ (t.upsert env V filt none oc trs).db = V := by
  have he : (t.upsert env V filt none oc trs).err ≠ none := by
    intro he
    have h := finish_none he
    obtain ⟨hm, w, hw, hn⟩ := D.row _ hb
    obtain ⟨y, hy⟩ := Option.isSome_iff_exists.1 hm
    rw [← batched_flatten trs (by decide : 0 < persistentBatchSize)] at hx
    obtain ⟨c, hc, hxc⟩ := List.mem_flatten.1 hx
    obtain ⟨s', hmay, hs'⟩ := forChunks_each (P := fun s : WSt T F => t.mayContain s.filt (t.key x) = true)
      (fun c s hs _ => by
        have := upsertLoop_filt fs (env := env) (oc := oc)
          (entries := (readView V none s.ops).scan (((sortKeys env (c.map t.key)).map Prod.fst).headD []) t.dataKeySpaceEnd) (trs := c)
          (sortKeys env (c.map t.key)).length 0 (sortKeys env (c.map t.key)) s
        unfold Table.mayContain at hs ⊢
        cases hfl : t.filter with
        | none => rfl
        | some fl => simp only [hfl] at hs ⊢; exact this fl hfl _ hs)
      _ _ (mayContain_of_covers hF hy) h c hc
    have hkm : t.key x ∈ (sortKeys env (c.map t.key)).map Prod.fst := by
      rw [(describes_sort t env ok c).1.keys]
      exact List.mem_map.2 ⟨x, (describes_sort t env ok c).2.mem_iff.2 hxc, rfl⟩
    obtain ⟨⟨k, j⟩, hem, rfl⟩ := List.mem_map.1 hkm
    obtain ⟨o, z, hd⟩ := upsertLoop_decodes fs _ 0 _ (Nat.le_refl _) s' hmay hs' ⟨j, hem⟩ w (by
      rw [seek_chunk ok _ _ _ hem]; exact hw)
    rw [hn] at hd
    cases hd
  exact ⟨he, ((C13 t env V filt (.upsert oc trs)).1 he).1⟩

theorem finish_db {env : Env T} {db : KV} {r : WSt T F × Option Err} (h : (finish env db none r).err = none) :
    (finish env db none r).db = db.apply r.1.ops := by
  obtain ⟨_, h2⟩ := finish_ok h
  have hv : (finish env db none r).view = (finish env db none r).db := by
    unfold WOut.view; rw [show (finish env db none r).batch = none from finish_nobatch]; rfl
  rw [← hv, h2]; rfl

theorem finish_changes {env : Env T} {db1 db2 : KV} {r : WSt T F × Option Err} :
    (finish env db1 none r).err = (finish env db2 none r).err ∧ (finish env db1 none r).filt = (finish env db2 none r).filt ∧
    (finish env db1 none r).commits = (finish env db2 none r).commits := by
  unfold finish
  simp only
  split
  · exact ⟨rfl, rfl, rfl⟩
  split
  · exact ⟨rfl, rfl, rfl⟩
  split <;> exact ⟨rfl, rfl, rfl⟩

/-- C91 for writes that are not given a damaged row: the same answer, the same changes, and the table afterwards is the table
without the damage after the same call, with the same rows damaged. -/
theorem C91_others {t : Table T F} (wf : t.WF) {env : Env T} (ok : env.OK t) {f : F} {good V : KV} {m m' : Rows T} {bad : Bytes → Bool}
    (D : Damaged t good V m bad) {c : WCall T} (hc : ∀ pk, bad pk = true → dataKey t.id pk ∉ c.keys t)
    (hm' : Holds t (t.run env good f none c).db m') :
    (t.run env V f none c).err = (t.run env good f none c).err ∧
    (t.run env V f none c).filt = (t.run env good f none c).filt ∧
    (t.run env V f none c).commits = (t.run env good f none c).commits ∧
    Damaged t (t.run env good f none c).db (t.run env V f none c).db m' bad := by
  have hl : ∀ k ∈ c.keys t, V.get k = good.get k := fun k hk => D.same k (fun pk hb e => hc pk hb (e ▸ hk))
  have hsame : (t.run env V f none c).err = (t.run env good f none c).err ∧
      (t.run env V f none c).filt = (t.run env good f none c).filt ∧
      (t.run env V f none c).commits = (t.run env good f none c).commits := by
    rw [Table.run_eq, Table.run_eq, body_local ok hl]
    split
    · exact ⟨rfl, rfl, rfl⟩
    · exact finish_changes
  refine ⟨hsame.1, hsame.2.1, hsame.2.2, ?_⟩
  have hops : ∃ ops, (t.run env V f none c).db = V.apply ops ∧ (t.run env good f none c).db = good.apply ops ∧
      ∀ pk, bad pk = true → ∀ o ∈ ops, ¬ o.touches (dataKey t.id pk) := by
    by_cases he : (t.run env good f none c).err = none
    · have heV := hsame.1.trans he
      rw [Table.run_eq] at he heV ⊢
      rw [Table.run_eq]
      by_cases hmm : c.mismatch = true
      · rw [if_pos hmm] at he; cases he
      · rw [if_neg hmm] at he heV ⊢
        rw [if_neg hmm]
        rw [body_local ok hl] at heV ⊢
        refine ⟨_, finish_db heV, finish_db he, ?_⟩
        intro pk hb o ho ht
        have hk := body_keyed wf ok good none c (t.start f) (keyedOps_nil t _)
        exact hc pk hb (hk o ho pk ht)
    · refine ⟨[], ((C13 t env V f c).1 (by rw [hsame.1]; exact he)).1, ((C13 t env good f c).1 he).1, ?_⟩
      simp
  obtain ⟨ops, h1, h2, h3⟩ := hops
  rw [h1]
  rw [h2] at hm' ⊢
  refine ⟨hm', fun k hk => get_apply_congr (D.same k hk) _, fun pk hb => ?_⟩
  obtain ⟨hm, v, hv, hd⟩ := D.row pk hb
  refine ⟨?_, v, ?_, hd⟩
  · obtain ⟨x, hx⟩ := Option.isSome_iff_exists.1 hm
    obtain ⟨b, _, hg⟩ := D.holds.present _ _ hx
    have hg' : (good.apply ops).get (dataKey t.id pk) = some b := by rw [get_apply_of_not_touch _ _ _ (h3 pk hb)]; exact hg
    cases hmp : m' pk with
    | some y => rfl
    | none => rw [hm'.absent _ hmp] at hg'; cases hg'
  · rw [get_apply_of_not_touch _ _ _ (h3 pk hb)]; exact hv

/-- C91 for Delete, which does not read: it removes damaged rows as any others; if all damaged rows are among the given ones,
the database afterwards is the one that the same call gives when nothing is damaged. -/
theorem C91_delete {t : Table T F} (wf : t.WF) {env : Env T} (ok : env.OK t) {f : F} {good V : KV} {m : Rows T} {bad : Bytes → Bool}
    (D : Damaged t good V m bad) {trs : List T} (hc : ∀ pk, bad pk = true → pk ∈ trs.map t.pk)
    (he : (t.delete env V f none trs).err = none) :
    (t.delete env V f none trs).db = (t.delete env good f none trs).db := by
  have he' : (t.delete env good f none trs).err = none := (finish_changes (db1 := good) (db2 := V)).1.trans he
  apply KV.ext
  intro k
  by_cases h : ∃ pk, bad pk = true ∧ k = dataKey t.id pk
  · obtain ⟨pk, hb, rfl⟩ := h
    rw [C17_rows wf ok he, C17_rows wf ok he', if_pos (hc pk hb), if_pos (hc pk hb)]
  · rw [show (t.delete env V f none trs).db = V.apply _ from finish_db he, show (t.delete env good f none trs).db = good.apply _ from finish_db he']
    exact get_apply_congr (D.same k (fun pk hb e => h ⟨pk, hb, e⟩)) _

/-! ### A concrete damaged table -/

/-- test database: the bytes of the row (1, 5) are damaged -/
def exDamaged : KV := exDB.set (dataKey 7 [1]) [9]

/-- which row is damaged in `exDamaged` -/
def exBad (pk : Bytes) : Bool := pk == [1]

theorem exDamaged_damaged : Damaged exTable exDB exDamaged exRows exBad where
  holds := exDB_holds
  same := by
    intro k h
    unfold exDamaged
    rw [KV.get_set, if_neg]
    intro e; exact h [1] (by decide) e
  row := by
    intro pk h
    have : pk = [1] := by simpa [exBad] using h
    subst this
    exact ⟨by decide, [9], by unfold exDamaged; rw [show exTable.id = 7 from rfl, KV.get_set, if_pos rfl], fun _ => rfl⟩

theorem exDamaged_setting : DamagedSetting exTable (stdEnv exTable) () exDamaged none exDB exDamaged exRows exBad where
  wf := exTable_wf
  rt := fun x b h => exTable_rt x b h _
  ok := stdEnv_ok exTable
  alive := fun _ => rfl
  prefetch := by decide
  view := rfl
  damaged := exDamaged_damaged
  covers := covers_nofilter rfl _ _

/-- `C91_intersect_safe` at two intersections, one without and one with the damaged row -/
example := C91_intersect_safe exDamaged_setting (fun _ l => l)
  { index := exIndex, sel := .range (0, 0) (9, 9), intersects := [{ index := exIndex, sel := .point (0, 6) }] } (Or.inl (by simp [exTable]))
  ⟨by simp [Selector.elems], by simp [Selector.elems, exIndex]⟩
  (by intro q h; simp at h; subst h; exact ⟨Or.inl (by simp [exTable]), by simp [Selector.elems], by simp [Selector.elems, exIndex]⟩)

example : Query.executeIntersect exTable (stdEnv exTable) (fun _ l => l) () exDamaged none
      { index := exIndex, sel := .range (0, 0) (9, 9), intersects := [{ index := exIndex, sel := .point (0, 6) }] } = .ok [(2, 6)] ∧
    Query.executeIntersect exTable (stdEnv exTable) (fun _ l => l) () exDamaged none
      { index := exIndex, sel := .range (0, 0) (9, 9), intersects := [{ index := exIndex, sel := .range (0, 0) (9, 9) }] } = .error .deser := by decide

/-- `C91_query_safe` at a query with After and Limit that does not come to the damaged row, and at one that does -/
example := C91_query_safe exDamaged_setting (fun _ l => l) { index := exIndex, sel := .range (0, 6) (9, 9), limit := 1 } (Or.inl (by simp [exTable]))
  (by intro sel h; simp [Query.selected] at h; subst h; exact ⟨by simp [Selector.elems], by simp [Selector.elems, exIndex]⟩)

example : Query.executeQuery exTable (stdEnv exTable) (fun _ l => l) () exDamaged none { index := exIndex, sel := .range (0, 6) (9, 9), limit := 1 } 9 =
      some (.ok [(2, 6)]) ∧
    Query.executeQuery exTable (stdEnv exTable) (fun _ l => l) () exDamaged none { index := exIndex, sel := .range (0, 0) (9, 9), limit := 1 } 9 =
      some (.error .deser) ∧
    Query.executeQuery exTable (stdEnv exTable) (fun _ l => l) () exDamaged none { index := exIndex, sel := .range (0, 0) (9, 9), limit := 1, after := some (1, 5) } 9 =
      some (.ok [(2, 6)]) := by decide

example : exTable.scanIndex (stdEnv exTable) () exDamaged none exIndex (.range (0, 0) (9, 9)) true 9 [] = some ⟨[(2, 6)], some .deser⟩ ∧
    exTable.scanIndex (stdEnv exTable) () exDamaged none exIndex (.range (0, 0) (9, 9)) false 9 [] = some ⟨[], some .deser⟩ ∧
    exTable.scanIndex (stdEnv exTable) () exDamaged none exIndex (.range (0, 6) (9, 9)) false 9 [] = some ⟨[(2, 6)], none⟩ := by decide +kernel

example : exQuery.executeQuery exTable (stdEnv exTable) (fun _ l => l) () exDamaged none 9 = some (.error .deser) := by decide +kernel

example : exTable.getOne () exDamaged none (1, 0) = .error .deser ∧ exTable.getOne () exDamaged none (2, 0) = .ok [(2, 6)] := by decide +kernel

example : exTable.getMany (stdEnv exTable) () exDamaged none [(2, 0), (1, 0)] = .error .deser := by decide +kernel

example : (exTable.update (stdEnv exTable) exDamaged () none [(2, 9), (1, 9)]).err = some .deser ∧
    (exTable.upsert (stdEnv exTable) exDamaged () none (fun _ n => (n, n)) [(2, 9), (1, 9)]).err = some .deser ∧
    (exTable.update (stdEnv exTable) exDamaged () none [(2, 9)]).err = none ∧
    (exTable.delete (stdEnv exTable) exDamaged () none [(1, 5)]).err = none := by decide +kernel

/-! ### What is false -/

/-- test callback: counts the rows that can be read and skips the others -/
def goOnCb (s : Nat) (_ : Bytes) : Cb Nat Rec :=
  .get s (fun r => match r with | .ok _ => .ret (s + 1) true none | .error _ => .ret s true none)

/-- C91 is false for callbacks that go on after an error: on a secondary index such a callback is called for ever with the row
that cannot be decoded (a failing `Get` does not advance the prefetched rows); on the primary index the scan ends. -/
theorem C91_refuted_skip :
    (∀ fuel, exTable.scanIndexForEach (stdEnv exTable) () (fun _ => (exDamaged, none)) exIndex (.range (0, 0) (9, 9)) goOnCb false fuel 0 = none) ∧
    exTable.scanIndexForEach (stdEnv exTable) () (fun _ => (exDamaged, none)) exTable.primaryIndex (.range (0, 0) (9, 9)) goOnCb false 9 0 = some ⟨1, none⟩ := by
  refine ⟨fun fuel => ?_, by decide +kernel⟩
  have hin : ∀ (fuel : Nat) (p : PSt) (s : Nat) (v : Bytes), p.vidx < p.values.length → (∃ k, p.indexKeys[p.vidx]? = some k) →
      p.values[p.vidx]? = some v → exTable.deser exTable.nil v = none →
      exTable.innerLoop goOnCb fuel p s = .running := by
    intro fuel
    induction fuel with
    | zero => intro p s v h _ _ _; rw [Table.innerLoop, if_pos h]
    | succ fuel ih =>
      rintro p s v h ⟨k, hk⟩ hv hd
      rw [Table.innerLoop, if_pos h, hk]
      have : exTable.runInner p (goOnCb s k) = some (p, s, true, none) := by
        simp [goOnCb, Table.runInner, Table.getPrefetchedValue, Table.decode, hv, hd]
      simp only [this]
      exact ih p s v h ⟨k, hk⟩ hv hd
  cases fuel with
  | zero => decide +kernel
  | succ fuel =>
    have hparts : exTable.iterParts exDamaged none exIndex (.range (0, 0) (9, 9)) =
        some [[(exTable.indexKey exIndex (1, 5), []), (exTable.indexKey exIndex (2, 6), [])]] := by decide +kernel
    unfold Table.scanIndexForEach
    rw [hparts]
    simp only [walk, if_neg (show ¬ exIndex.id = primaryIndexID by decide)]
    rw [show (if false = true then ([[(exTable.indexKey exIndex (1, 5), []), (exTable.indexKey exIndex (2, 6), [])]] : List (List (Bytes × Bytes))).flatten.reverse
      else [[(exTable.indexKey exIndex (1, 5), []), (exTable.indexKey exIndex (2, 6), [])]].flatten) =
      [(exTable.indexKey exIndex (1, 5), []), (exTable.indexKey exIndex (2, 6), [])] from rfl]
    rw [Table.outerLoop]
    have hout : exTable.runOuter (stdEnv exTable) () (fun _ => (exDamaged, none))
        { rest := [(exTable.indexKey exIndex (1, 5), []), (exTable.indexKey exIndex (2, 6), [])], keys := [], indexKeys := [], values := [], vidx := 0 }
        (goOnCb 0 (exTable.indexKey exIndex (1, 5))) =
        some ({ rest := [], keys := [exTable.key (1, 5), exTable.key (2, 6)]
                indexKeys := [exTable.indexKey exIndex (1, 5), exTable.indexKey exIndex (2, 6)], values := [[9], [2, 6]], vidx := 0 }, 0, true, none) := by
      decide +kernel
    simp only [stdEnv, Bool.false_eq_true, if_false]
    simp only [stdEnv] at hout
    rw [hout]
    simp only [Bool.not_true, Option.isSome_none, Bool.or_self, Bool.false_eq_true, if_false]
    rw [hin (fuel + 1) _ 0 [9] (by decide) ⟨_, rfl⟩ rfl rfl]

/-- the database after ReIndex was called on the damaged table -/
def exReindexed : KV := exDamaged.apply (exTable.reIndex (fun _ => true) exDamaged [exIndex]).commits.flatten

/-- C91 is false for ReIndex: with one row that cannot be decoded it fails after it has removed the index entries of all rows;
from then on a scan of the index misses rows without an error. -/
theorem C91_refuted_reindex : (exTable.reIndex (fun _ => true) exDamaged [exIndex]).err = some .deser ∧
    exTable.scanIndex (stdEnv exTable) () exDamaged none exIndex (.point (0, 6)) false 9 [] = some ⟨[(2, 6)], none⟩ ∧
    exTable.scanIndex (stdEnv exTable) () exReindexed none exIndex (.point (0, 6)) false 9 [] = some ⟨[], none⟩ := by decide +kernel

end Bond
