import Verif.Props.LivePages
import Verif.Props.IntersectPages
/-!
C120 while the table changes between the requests.
-/

namespace Bond

open Spec

variable {T F : Type}

theorem goodPages_intersect {t : Table T F} {srt : (T → T → Bool) → List T → List T} (hsrt : ∀ less l, (srt less l).Perm l) (q : Query T)
    {ws : List (Moment T F)} (S : ∀ w ∈ ws, Setting t w.env w.filt w.db w.batch w.rows) (hb : ∀ w ∈ ws, w.batch = none) (hne : q.intersects ≠ [])
    (hchk : q.checkIntersect = true) (hi : IsIndex t q.index) (hs : q.sel.OK q.index)
    (hqs : ∀ q' ∈ q.intersects, IsIndex t q'.index ∧ q'.sel.OK q'.index) (hfl : q.filter ≠ none ∨ q.less ≠ none)
    (hoff : q.offset = 0) (hn : 0 < q.limit.toNat) (hL : q.limit.toNat < 2 ^ 63)
    {lt : T → T → Prop} (irrefl : ∀ x, ¬ lt x x) (trans : ∀ {x y z}, lt x y → lt y z → lt x z)
    (hpw : ∀ rows : List T, t.WF → rows.Pairwise (IdxLt t t.primaryIndex) → (rows.map t.pk).Nodup → (ordered srt q rows).Pairwise lt) :
    (∀ w ∈ ws, ∀ a, (∀ a', a = some a' → SelectedAt t srt q w a') → ∃ p, PageAt t srt q w a p) ∧
    ∀ pages, LivePages (fun w a p => PageAt t srt q w a p ∧ ∀ a', a = some a' → SelectedAt t srt q w a') ws none pages →
      GoodPages t srt q lt ws pages := by
  have key : ∀ w ∈ ws, ∀ a, (∀ a', a = some a' → SelectedAt t srt q w a') → ∃ L : List T, PageAt t srt q w a (L.take q.limit.toNat) ∧
      L.Pairwise lt ∧ ∀ x, x ∈ L ↔ SelectedAt t srt q w x ∧ ∀ a', a = some a' → lt a' x := by
    intro w hw a ha
    have S := S w hw
    have hb := hb w hw
    obtain ⟨env, filt, db, ob, m⟩ := w
    simp only at hb S
    subst hb
    obtain ⟨rows, h1, hall, h0, hnext, _⟩ := intersect_pages S hsrt q hne hchk hi hs hqs hoff hn hL
    have hpw := hpw rows S.wf h1.1 (h1.nodup_pk S.wf (Or.inr rfl))
    generalize ordered srt q rows = R at *
    have hmem : ∀ x, SelectedAt t srt q ⟨env, filt, db, none, m⟩ x ↔ x ∈ R := by
      intro x
      constructor
      · rintro ⟨r, h, hx⟩; rw [hall.unique h]; exact hx
      · intro hx; exact ⟨_, hall, hx⟩
    cases a with
    | none => exact ⟨R, h0, hpw, fun x => by rw [hmem]; simp⟩
    | some a =>
      obtain ⟨pre, suf, hsplit⟩ := List.append_of_mem ((hmem a).1 (ha a rfl))
      have := hnext hfl pre a suf hsplit
      rw [hsplit, List.pairwise_append, List.pairwise_cons] at hpw
      refine ⟨suf, this, hpw.2.1.2, fun x => ?_⟩
      rw [hmem, hsplit]
      constructor
      · intro hx
        refine ⟨by simp [hx], fun a' e => ?_⟩
        simp only [Option.some.injEq] at e; subst e
        exact hpw.2.1.1 x hx
      · rintro ⟨hx, hlt⟩
        have hlt := hlt a rfl
        rcases List.mem_append.1 hx with hx | hx
        · exact absurd (trans hlt (hpw.2.2 x hx a (by simp))) (irrefl _)
        · rcases List.mem_cons.1 hx with rfl | hx
          · exact absurd hlt (irrefl _)
          · exact hx
  refine ⟨fun w hw a ha => ?_, fun pages hp => ?_⟩
  · obtain ⟨L, h, _⟩ := key w hw a ha
    exact ⟨_, h⟩
  · have := livePages (lt := lt) trans (Sel := SelectedAt t srt q)
      (Cur := fun _ => True) hn hp (fun _ _ _ _ => trivial)
      (fun w hw a p _ hp => by
        obtain ⟨L, h1, h2, h3⟩ := key w hw a hp.2
        exact ⟨L, Returns.unique hp.1 h1, h2, h3⟩) trivial
    exact ⟨this.1, this.2.2.2, fun x hx => this.2.2.1 x hx (by simp)⟩

/-- C120 with a Filter and without Order while the table changes and the After row of each request is still selected: the rows come in the order of
their primary keys, none twice, each selected when its page was requested, and every row selected at all requests comes.
Missing for the full C120: the After row is gone (`C120_refuted_deleted`), queries without Filter and Order (`C120_refuted_limit`). -/
theorem C120_live_partial {t : Table T F} {srt : (T → T → Bool) → List T → List T} (hsrt : ∀ less l, (srt less l).Perm l) (q : Query T)
    {ws : List (Moment T F)} (S : ∀ w ∈ ws, Setting t w.env w.filt w.db w.batch w.rows) (hb : ∀ w ∈ ws, w.batch = none) (hne : q.intersects ≠ [])
    (hchk : q.checkIntersect = true) (hi : IsIndex t q.index) (hs : q.sel.OK q.index)
    (hqs : ∀ q' ∈ q.intersects, IsIndex t q'.index ∧ q'.sel.OK q'.index) (hf : q.filter ≠ none) (hless : q.less = none)
    (hoff : q.offset = 0) (hn : 0 < q.limit.toNat) (hL : q.limit.toNat < 2 ^ 63) :
    (∀ w ∈ ws, ∀ a, (∀ a', a = some a' → SelectedAt t srt q w a') → ∃ p, PageAt t srt q w a p) ∧
    ∀ pages, LivePages (fun w a p => PageAt t srt q w a p ∧ ∀ a', a = some a' → SelectedAt t srt q w a') ws none pages →
      GoodPages t srt q (fun x y => blt (t.pk x) (t.pk y) = true) ws pages := by
  refine goodPages_intersect hsrt q S hb hne hchk hi hs hqs (Or.inl hf) hoff hn hL (fun x h => by rw [blt_irrefl] at h; cases h)
    (fun h1 h2 => blt_trans h1 h2) (fun rows wf h _ => ?_)
  have e : ordered srt q rows = rows.filter (accepts q) := by unfold ordered; rw [hless]
  rw [e]
  refine (h.sublist List.filter_sublist).imp (fun {x y} h => ?_)
  unfold IdxLt at h
  simpa [Table.primaryIndex, blt_irrefl] using h

/-- The same with an Order that tells rows apart.
Missing for the full C120: as for `C120_live_partial`. -/
theorem C120_live_ordered_partial {t : Table T F} {srt : (T → T → Bool) → List T → List T} (hsrt : SortSlice srt)
    (hperm : ∀ less l, (srt less l).Perm l) (q : Query T)
    {ws : List (Moment T F)} (S : ∀ w ∈ ws, Setting t w.env w.filt w.db w.batch w.rows) (hb : ∀ w ∈ ws, w.batch = none) (hne : q.intersects ≠ [])
    (hchk : q.checkIntersect = true) (hi : IsIndex t q.index) (hs : q.sel.OK q.index)
    (hqs : ∀ q' ∈ q.intersects, IsIndex t q'.index ∧ q'.sel.OK q'.index) {less : T → T → Bool} (hless : q.less = some less)
    (hsw : StrictWeak less) (hapart : ∀ x y, t.pk x ≠ t.pk y → less x y = true ∨ less y x = true)
    (hoff : q.offset = 0) (hn : 0 < q.limit.toNat) (hL : q.limit.toNat < 2 ^ 63) :
    (∀ w ∈ ws, ∀ a, (∀ a', a = some a' → SelectedAt t srt q w a') → ∃ p, PageAt t srt q w a p) ∧
    ∀ pages, LivePages (fun w a p => PageAt t srt q w a p ∧ ∀ a', a = some a' → SelectedAt t srt q w a') ws none pages →
      GoodPages t srt q (fun x y => less x y = true) ws pages := by
  refine goodPages_intersect hperm q S hb hne hchk hi hs hqs (Or.inr (by rw [hless]; simp)) hoff hn hL
    (fun x h => by rw [hsw.irrefl] at h; cases h) (fun h1 h2 => hsw.trans _ _ _ h1 h2) (fun rows _ _ hnd => ?_)
  have e : ordered srt q rows = srt less (rows.filter (accepts q)) := by unfold ordered; rw [hless]
  rw [e]
  obtain ⟨h1, h2⟩ := hsrt less hsw (rows.filter (accepts q))
  have h3 : ((srt less (rows.filter (accepts q))).map t.pk).Nodup := (h1.map t.pk).nodup_iff.2 (hnd.sublist (List.filter_sublist.map t.pk))
  refine (h2.and (List.pairwise_map.1 h3)).imp (fun {x y} h => ?_)
  rcases hapart x y h.2 with h' | h'
  · exact h'
  · rw [h.1] at h'; cases h'

/-- test moments: the rows (1,5) and (2,6), then also (3,7) -/
def exMomentsDB : List (Moment Rec Unit) :=
  [⟨stdEnv exTable, (), exDB, none, exRows⟩, ⟨stdEnv exTable, (), exDB.apply exBatch3.ops, none, exRows.putAll exTable.pk [(3, 7)]⟩]

theorem exMomentsDB_ok : ∀ w ∈ exMomentsDB, Setting exTable w.env w.filt w.db w.batch w.rows := by
  intro w hw
  simp only [exMomentsDB, List.mem_cons, List.not_mem_nil, or_false] at hw
  rcases hw with rfl | rfl
  · exact exSetting
  · obtain ⟨V, hV, h⟩ := exSetting3.content
    have e : readable exDB (some exBatch3) = some (exDB.apply exBatch3.ops) := rfl
    rw [e] at hV
    exact ⟨exSetting3.wf, exSetting3.rt, exSetting3.ok, exSetting3.alive, exSetting3.prefetch, ⟨V, hV, h⟩, exSetting3.covers⟩

/-- the theorems at an intersection in pages of one row, with (3,7) written after the first request -/
example := C120_live_partial (srt := insSort) insSort_perm { exQuery with intersects := [exQuery], filter := some (fun x => x.1 < 9), limit := 1 }
  exMomentsDB_ok (by intro w hw; simp only [exMomentsDB, List.mem_cons, List.not_mem_nil, or_false] at hw; rcases hw with rfl | rfl <;> rfl)
  (by simp) (by decide) exIndex_is exRange_ok
  (by intro q' hq'; simp only [List.mem_singleton] at hq'; subst hq'; exact ⟨exIndex_is, exRange_ok⟩) (by simp) rfl rfl (by decide) (by decide)
example := C120_live_ordered_partial mergeSort_sortSlice (fun _ _ => List.mergeSort_perm _ _) (t := exTable)
  { exQuery with intersects := [exQuery], limit := 1, less := some (fun a b => decide (b.1 < a.1)) }
  exMomentsDB_ok (by intro w hw; simp only [exMomentsDB, List.mem_cons, List.not_mem_nil, or_false] at hw; rcases hw with rfl | rfl <;> rfl)
  (by simp) (by decide) exIndex_is exRange_ok
  (by intro q' hq'; simp only [List.mem_singleton] at hq'; subst hq'; exact ⟨exIndex_is, exRange_ok⟩) rfl
  ⟨by intro a; simp, by intro a b c; simp only [decide_eq_true_eq, UInt8.lt_iff_toNat_lt]; omega,
    by intro a b c; simp only [decide_eq_false_iff_not, UInt8.lt_iff_toNat_lt]; omega⟩
  (by
    intro x y h
    simp only [decide_eq_true_eq, UInt8.lt_iff_toNat_lt]
    have : x.1 ≠ y.1 := fun e => h (by simp [exTable, e])
    have : x.1.toNat ≠ y.1.toNat := fun e => this (UInt8.toNat_inj.1 e)
    omega) rfl (by decide) (by decide)

end Bond
