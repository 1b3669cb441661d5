import Verif.Props.Queries
/-
C118: pages of a query while the table changes.
-/
namespace Bond
open Spec
variable {T F : Type}

/-- Reading page by page until a page is empty: the request for each page is made at its own moment, the first of `ws`, the second, ...; each asks
for the rows After the last row of the page before. -/
inductive Spec.LivePages {W : Type} (exec : W → Option T → List T → Prop) : List W → Option T → List (List T) → Prop
  | stop {w a} : exec w a [] → Spec.LivePages exec [w] a []
  | more {w ws a p x rest} : exec w a (p ++ [x]) → Spec.LivePages exec ws (some x) rest → Spec.LivePages exec (w :: ws) a ((p ++ [x]) :: rest)

theorem livePages {W : Type} {exec : W → Option T → List T → Prop} {lt : T → T → Prop} (trans : ∀ {x y z}, lt x y → lt y z → lt x z)
    {Sel : W → T → Prop} {Cur : Option T → Prop} {n : Nat} (hn : 0 < n) {ws : List W} {a : Option T} {pages : List (List T)}
    (hp : LivePages exec ws a pages) :
    (∀ w ∈ ws, ∀ x, Sel w x → Cur (some x)) →
    (∀ w ∈ ws, ∀ a p, Cur a → exec w a p → ∃ L : List T, p = L.take n ∧ L.Pairwise lt ∧ ∀ x, x ∈ L ↔ Sel w x ∧ ∀ a', a = some a' → lt a' x) →
    Cur a → pages.flatten.Pairwise lt ∧ (∀ x ∈ pages.flatten, ∀ a', a = some a' → lt a' x) ∧
      (∀ x, (∀ w ∈ ws, Sel w x) → (∀ a', a = some a' → lt a' x) → x ∈ pages.flatten) ∧
      ∀ (i : Nat) (p : List T), pages[i]? = some p → ∃ w, ws[i]? = some w ∧ p.length ≤ n ∧ ∀ x ∈ p, Sel w x := by
  induction hp with
  | @stop w a h =>
    intro _ hex hc
    obtain ⟨L, h1, _, h3⟩ := hex w (by simp) a [] hc h
    refine ⟨by simp, by simp, fun x hx hax => ?_, by simp⟩
    have hL : L = [] := by
      have := congrArg List.length h1
      simp only [List.length_nil, List.length_take] at this
      exact List.length_eq_zero_iff.1 (by omega)
    have := (h3 x).2 ⟨hx w (by simp), hax⟩
    rw [hL] at this; simp at this
  | @more w ws a p y rest h _ ih =>
    intro hcur hex hc
    obtain ⟨L, h1, h2, h3⟩ := hex w (by simp) a _ hc h
    have hLs : L = (p ++ [y]) ++ L.drop n := by rw [h1, List.take_append_drop]
    have hmem : ∀ x ∈ p ++ [y], x ∈ L := by intro x hx; rw [hLs]; exact List.mem_append_left _ hx
    have hy : Sel w y := ((h3 y).1 (hmem y (by simp))).1
    obtain ⟨i1, i2, i3, i4⟩ := ih (fun w hw => hcur w (by simp [hw])) (fun w hw => hex w (by simp [hw])) (hcur w (by simp) y hy)
    rw [hLs, List.pairwise_append, List.pairwise_append] at h2
    have hpy : ∀ x ∈ p, lt x y := fun x hx => h2.1.2.2 x hx y (by simp)
    refine ⟨?_, ?_, ?_, ?_⟩
    · rw [List.flatten_cons, List.pairwise_append]
      refine ⟨List.pairwise_append.2 h2.1, i1, fun x hx z hz => ?_⟩
      have hyz := i2 z hz y rfl
      rcases List.mem_append.1 hx with hx | hx
      · exact trans (hpy x hx) hyz
      · rw [List.mem_singleton.1 hx]; exact hyz
    · intro x hx a' ha'
      rw [List.flatten_cons] at hx
      rcases List.mem_append.1 hx with hx | hx
      · exact ((h3 x).1 (hmem x hx)).2 a' ha'
      · exact trans (((h3 y).1 (hmem y (by simp))).2 a' ha') (i2 x hx y rfl)
    · intro x hx hax
      rw [List.flatten_cons]
      have hxL := (h3 x).2 ⟨hx w (by simp), hax⟩
      rw [hLs] at hxL
      rcases List.mem_append.1 hxL with hxL | hxL
      · exact List.mem_append_left _ hxL
      · refine List.mem_append_right _ (i3 x (fun w hw => hx w (by simp [hw])) (fun a' ha' => ?_))
        simp only [Option.some.injEq] at ha'
        subst ha'
        exact h2.2.2 _ (by simp) x hxL
    · intro i p' hp'
      cases i with
      | zero =>
        simp only [List.getElem?_cons_zero, Option.some.injEq] at hp'
        subst hp'
        refine ⟨w, by simp, by rw [h1, List.length_take]; omega, fun x hx => ((h3 x).1 (hmem x hx)).1⟩
      | succ i =>
        simp only [List.getElem?_cons_succ] at hp' ⊢
        exact i4 i p' hp'

/-- one moment: the context and sort order of the request, the filter, the database and batch, and the rows in them -/
structure Spec.Moment (T F : Type) where
  env : Env T
  filt : F
  db : KV
  batch : Option Batch
  rows : Rows T

/-- a row that the query without Limit and After returns at this moment -/
def Spec.SelectedAt (t : Table T F) (srt : (T → T → Bool) → List T → List T) (q : Query T) (w : Moment T F) (x : T) : Prop :=
  ∃ rows, Returns t w.env srt w.filt w.db w.batch { q with after := none, limit := 0 } rows ∧ x ∈ rows

/-- the page that the query returns at this moment -/
def Spec.PageAt (t : Table T F) (srt : (T → T → Bool) → List T → List T) (q : Query T) (w : Moment T F) (a : Option T) (p : List T) : Prop :=
  Returns t w.env srt w.filt w.db w.batch { q with after := a } p

/-- what is claimed of the pages of a query whose rows are in the order `lt`: the rows of all pages are in strictly increasing order (so none comes
twice); page `i` has at most Limit rows, all selected at the moment of its request; and a row selected at all moments comes. -/
def Spec.GoodPages (t : Table T F) (srt : (T → T → Bool) → List T → List T) (q : Query T) (lt : T → T → Prop) (ws : List (Moment T F)) (pages : List (List T)) : Prop :=
  pages.flatten.Pairwise lt ∧
  (∀ (i : Nat) (p : List T), pages[i]? = some p → ∃ w, ws[i]? = some w ∧ p.length ≤ q.limit.toNat ∧ ∀ x ∈ p, SelectedAt t srt q w x) ∧
  ∀ x, (∀ w ∈ ws, SelectedAt t srt q w x) → x ∈ pages.flatten

/-- one request without Order, at any cursor that is within the bounds, whether or not that row is stored now -/
theorem pageAt_index {t : Table T F} {w : Moment T F} (S : Setting t w.env w.filt w.db w.batch w.rows) (srt : (T → T → Bool) → List T → List T) (q : Query T)
    (hint : q.intersects = []) (hi : IsIndex t q.index) (hs : q.sel.OK q.index) (hless : q.less = none) (hrev : q.reverse = false) (hoff : q.offset = 0)
    (hn : 0 < q.limit.toNat) (hL : q.limit.toNat < 2 ^ 63) {lo up : Bytes} (hb : boundsOf t q.index q.sel = [(lo, up)])
    (haft : ∀ a, BoundP t q.index (lo, up) a → ∃ sel, q.selectorWithAfter t a = some sel ∧ sel.OK q.index ∧
      boundsOf t q.index sel = [(t.indexKey q.index a, up)]) :
    (∀ x, SelectedAt t srt q w x → BoundP t q.index (lo, up) x) ∧
    ∀ a, (∀ a', a = some a' → BoundP t q.index (lo, up) a') → ∃ L : List T, PageAt t srt q w a (L.take q.limit.toNat) ∧ L.Pairwise (IdxLt t q.index) ∧
      ∀ x, x ∈ L ↔ SelectedAt t srt q w x ∧ ∀ a', a = some a' → IdxLt t q.index a' x := by
  obtain ⟨rows, h1, h2, _⟩ := S.single hi hs hb
  have hy := h2 false
  simp only [dir, Bool.false_eq_true, if_false] at hy
  have hpage : ∀ l : List T, page q.offset.toNat q.limit.toNat l = l.take q.limit.toNat := by
    intro l; unfold page; rw [if_neg (by omega), hoff]; rfl
  have hall : Returns t w.env srt w.filt w.db w.batch { q with after := none, limit := 0 } (rows.filter (accepts q)) := by
    have := query_plain S srt (q := { q with after := none, limit := 0 }) hint hi hs rfl (by simp only [hoff]; decide) (show (0 : UInt64).toNat < 2 ^ 63 by decide)
      (by rw [show ({ q with after := none, limit := 0 } : Query T).reverse = false from hrev]; exact hy)
    have e : ordered srt { q with after := none, limit := 0 } rows = rows.filter (accepts q) := by unfold ordered; simp only [hless]; rfl
    rw [e] at this
    simpa [page, hoff] using this
  have hsel : ∀ x, SelectedAt t srt q w x ↔ x ∈ rows.filter (accepts q) := by
    intro x
    constructor
    · rintro ⟨r, h, hx⟩; rw [hall.unique h]; exact hx
    · intro hx; exact ⟨_, hall, hx⟩
  refine ⟨fun x hx => ((h1.2 x).1 (List.mem_filter.1 ((hsel x).1 hx)).1).2, fun a ha => ?_⟩
  cases a with
  | none =>
    refine ⟨rows.filter (accepts q), ?_, h1.1.sublist List.filter_sublist, fun x => by rw [hsel]; simp⟩
    have := query_plain S srt (q := { q with after := none }) hint hi hs rfl (by rw [hoff]; decide) hL
      (by rw [show ({ q with after := none } : Query T).reverse = false from hrev]; exact hy)
    have e : ordered srt { q with after := none } rows = rows.filter (accepts q) := by unfold ordered; simp only [hless]; rfl
    rw [e, hpage] at this
    exact this
  | some a =>
    have ha := ha a rfl
    obtain ⟨sel, s1, s2, s3⟩ := haft a ha
    obtain ⟨rows', r1, r2, _⟩ := S.single hi s2 s3
    have hy' := r2 false
    simp only [dir, Bool.false_eq_true, if_false] at hy'
    have hq := query_after S srt (q := { q with after := some a }) hint hi rfl hless (sel := sel) (by
        unfold Query.selectorWithAfter at s1 ⊢; exact s1) s2 (by rw [hoff]; decide) hL
      (by rw [show ({ q with after := some a } : Query T).reverse = false from hrev]; exact hy')
    rw [hpage] at hq
    refine ⟨(skipHead t q.index a rows').filter (accepts q), hq, ?_, ?_⟩
    · refine List.Pairwise.sublist (List.filter_sublist.trans ?_) r1.1
      cases rows' with
      | nil => exact List.Sublist.refl _
      | cons x xs =>
        rw [skipHead]
        split
        · exact List.sublist_cons_self _ _
        · exact List.Sublist.refl _
    · intro x
      have hsk : x ∈ skipHead t q.index a rows' ↔ x ∈ rows' ∧ IdxLt t q.index a x := by
        cases rows' with
        | nil => simp [skipHead]
        | cons y ys =>
          have hp := List.pairwise_cons.1 r1.1
          have hle : ∀ z ∈ y :: ys, t.indexKey q.index z ≠ t.indexKey q.index a → IdxLt t q.index a z := by
            intro z hz hne
            have := ((r1.2 z).1 hz).2.1
            rw [← indexKey_lt S.wf hi]
            rcases (ble_iff _ _).1 this with h | h
            · exact absurd h.symm hne
            · exact h
          rw [skipHead]
          by_cases hk : t.indexKey q.index y = t.indexKey q.index a
          · rw [if_pos hk]
            have hya : ∀ z, IdxLt t q.index y z ↔ IdxLt t q.index a z := by
              intro z; rw [← indexKey_lt S.wf hi, ← indexKey_lt S.wf hi, hk]
            constructor
            · intro hx; exact ⟨List.mem_cons_of_mem _ hx, (hya x).1 (hp.1 x hx)⟩
            · rintro ⟨hx, hlt⟩
              rcases List.mem_cons.1 hx with rfl | hx
              · exact absurd ((hya x).2 hlt) (idxLt_irrefl S.wf hi x)
              · exact hx
          · rw [if_neg hk]
            constructor
            · intro hx
              refine ⟨hx, ?_⟩
              have hay := hle y (by simp) hk
              rcases List.mem_cons.1 hx with rfl | hx
              · exact hay
              · exact idxLt_trans S.wf hi hay (hp.1 x hx)
            · exact fun h => h.1
      rw [List.mem_filter, hsk, hsel, List.mem_filter, r1.2, h1.2]
      show _ ∧ accepts q x = true ↔ _
      constructor
      · rintro ⟨⟨⟨i1, i2⟩, i3⟩, i4⟩
        refine ⟨⟨⟨i1, ?_, i2.2⟩, i4⟩, fun a' e => by simp only [Option.some.injEq] at e; subst e; exact i3⟩
        exact ble_trans ha.1 i2.1
      · rintro ⟨⟨⟨i1, i2⟩, i4⟩, i3⟩
        have i3 := i3 a rfl
        refine ⟨⟨⟨i1, ?_, i2.2⟩, i3⟩, i4⟩
        exact ble_of_blt ((indexKey_lt S.wf hi a x).2 i3)

theorem goodPages_index {t : Table T F} (srt : (T → T → Bool) → List T → List T) (q : Query T) {ws : List (Moment T F)}
    (S : ∀ w ∈ ws, Setting t w.env w.filt w.db w.batch w.rows)
    (hint : q.intersects = []) (hi : IsIndex t q.index) (hs : q.sel.OK q.index) (hless : q.less = none) (hrev : q.reverse = false) (hoff : q.offset = 0)
    (hn : 0 < q.limit.toNat) (hL : q.limit.toNat < 2 ^ 63) {lo up : Bytes} (hb : boundsOf t q.index q.sel = [(lo, up)])
    (haft : t.WF → ∀ a, BoundP t q.index (lo, up) a → ∃ sel, q.selectorWithAfter t a = some sel ∧ sel.OK q.index ∧
      boundsOf t q.index sel = [(t.indexKey q.index a, up)]) :
    (∀ w ∈ ws, ∃ p, PageAt t srt q w none p) ∧
    (∀ w ∈ ws, ∀ w' ∈ ws, ∀ a, SelectedAt t srt q w' a → ∃ p, PageAt t srt q w (some a) p) ∧
    ∀ pages, LivePages (PageAt t srt q) ws none pages → GoodPages t srt q (IdxLt t q.index) ws pages := by
  have key := fun w hw => pageAt_index (S w hw) srt q hint hi hs hless hrev hoff hn hL hb (haft (S w hw).wf)
  refine ⟨fun w hw => ?_, fun w hw w' hw' a ha => ?_, fun pages hp => ?_⟩
  · obtain ⟨L, h, _⟩ := (key w hw).2 none (by simp)
    exact ⟨_, h⟩
  · obtain ⟨L, h, _⟩ := (key w hw).2 (some a) (by
      intro a' e; simp only [Option.some.injEq] at e; subst e; exact (key w' hw').1 a ha)
    exact ⟨_, h⟩
  · have hwf : t.WF := by
      cases hp with
      | stop => exact (S _ (List.mem_cons_self ..)).wf
      | more => exact (S _ (List.mem_cons_self ..)).wf
    have := livePages (lt := IdxLt t q.index) (fun h1 h2 => idxLt_trans hwf hi h1 h2) (Sel := SelectedAt t srt q)
      (Cur := fun a => ∀ a', a = some a' → BoundP t q.index (lo, up) a') hn hp
      (fun w hw x hx a' e => by simp only [Option.some.injEq] at e; subst e; exact (key w hw).1 x hx)
      (fun w hw a p hc hp => by
        obtain ⟨L, h1, h2, h3⟩ := (key w hw).2 a hc
        exact ⟨L, Returns.unique hp h1, h2, h3⟩) (by simp)
    exact ⟨this.1, this.2.2.2, fun x hx => this.2.2.1 x hx (by simp)⟩

/-- C118 for point selectors, forward and without Order: the requests are made at any moments `ws`, with anything written in between, also to the After
row. Every request is answered, all rows come in index order and none comes twice, every row that comes is selected at the moment of its page, and a
row that is selected at all moments comes.
Missing for the full C118: Order when the After row is gone (`C118_refuted_order`), and what C32 already excludes (reversed queries, index values ending
with 0xFF). -/
theorem C118_point_partial {t : Table T F} (srt : (T → T → Bool) → List T → List T) (q : Query T) {ws : List (Moment T F)}
    (S : ∀ w ∈ ws, Setting t w.env w.filt w.db w.batch w.rows) {p : T} (hsel : q.sel = .point p)
    (hint : q.intersects = []) (hi : IsIndex t q.index) (hff : NoTrailingFF (q.index.key p))
    (hl : (q.index.key p).length < 2 ^ 32 - 1) (hless : q.less = none) (hrev : q.reverse = false) (hoff : q.offset = 0)
    (hn : 0 < q.limit.toNat) (hL : q.limit.toNat < 2 ^ 63) :
    (∀ w ∈ ws, ∃ p, PageAt t srt q w none p) ∧
    (∀ w ∈ ws, ∀ w' ∈ ws, ∀ a, SelectedAt t srt q w' a → ∃ p, PageAt t srt q w (some a) p) ∧
    ∀ pages, LivePages (PageAt t srt q) ws none pages → GoodPages t srt q (IdxLt t q.index) ws pages := by
  have hs : q.sel.OK q.index := by rw [hsel]; exact ⟨by simp [Selector.elems], by simpa [Selector.elems] using hl⟩
  exact goodPages_index srt q S hint hi hs hless hrev hoff hn hL (lo := t.indexKey q.index p)
    (up := keySuccessor (keyPrefix t.id q.index.id (q.index.key p))) (by rw [hsel]; rfl) (by
      intro wf a ha
      have hk := ((boundP_point wf hi hff hl a).1 ha).1
      refine ⟨.point a, by simp [Query.selectorWithAfter, hsel], ⟨by simp [Selector.elems], by simpa [Selector.elems, hk] using hl⟩, ?_⟩
      simp only [boundsOf, hk])

/-- C118 for range selectors, forward and without Order.
Missing for the full C118: Order when the After row is gone (`C118_refuted_order`), and what C32 already excludes (reversed queries). -/
theorem C118_range_partial {t : Table T F} (srt : (T → T → Bool) → List T → List T) (q : Query T) {ws : List (Moment T F)}
    (S : ∀ w ∈ ws, Setting t w.env w.filt w.db w.batch w.rows) {lo up : T} (hsel : q.sel = .range lo up)
    (hint : q.intersects = []) (hi : IsIndex t q.index) (hl : ∀ x, (q.index.key x).length < 2 ^ 32 - 1) (hless : q.less = none)
    (hrev : q.reverse = false) (hoff : q.offset = 0) (hn : 0 < q.limit.toNat) (hL : q.limit.toNat < 2 ^ 63) :
    (∀ w ∈ ws, ∃ p, PageAt t srt q w none p) ∧
    (∀ w ∈ ws, ∀ w' ∈ ws, ∀ a, SelectedAt t srt q w' a → ∃ p, PageAt t srt q w (some a) p) ∧
    ∀ pages, LivePages (PageAt t srt q) ws none pages → GoodPages t srt q (IdxLt t q.index) ws pages := by
  have hs : q.sel.OK q.index := by rw [hsel]; exact ⟨by simp [Selector.elems], fun x _ => hl x⟩
  exact goodPages_index srt q S hint hi hs hless hrev hoff hn hL (lo := t.indexKey q.index lo)
    (up := keySuccessor (t.indexKey q.index up)) (by rw [hsel]; rfl) (by
      intro _ a _
      exact ⟨.range a up, by simp [Query.selectorWithAfter, hsel], ⟨by simp [Selector.elems], fun x _ => hl x⟩, rfl⟩)

/-- the rows (1,5) and (2,6); then, in a batch, also (3,7) -/
def exMoments : List (Moment Rec Unit) :=
  [⟨stdEnv exTable, (), exDB, none, exRows⟩, ⟨stdEnv exTable, (), exDB, some exBatch3, exRows.putAll exTable.pk [(3, 7)]⟩]

theorem exMoments_ok : ∀ w ∈ exMoments, Setting exTable w.env w.filt w.db w.batch w.rows := by
  intro w hw
  simp only [exMoments, List.mem_cons, List.not_mem_nil, or_false] at hw
  rcases hw with rfl | rfl
  · exact exSetting
  · exact exSetting3

/-- the theorems at pages of one row, with (3,7) written after the first request -/
example := C118_range_partial insSort { exQuery with limit := 1 } exMoments_ok rfl rfl exIndex_is (by intro x; simp [exQuery, exIndex]) rfl rfl rfl
  (by decide) (by decide)
example := C118_point_partial insSort { exQuery with sel := .point (0, 6), limit := 1 } exMoments_ok rfl rfl exIndex_is
  (by simp [NoTrailingFF, exQuery, exIndex]) (by simp [exQuery, exIndex]) rfl rfl rfl (by decide) (by decide)

/-- pages of one row, the After row is deleted after each request: the next page goes on behind it -/
example : let del := fun (db : KV) (x : Rec) => (exTable.delete (stdEnv exTable) db () none [x]).db
    let q : Query Rec := { exQuery with limit := 1 }
    let run := fun (db : KV) (a : Option Rec) => ({ q with after := a }).execute exTable (stdEnv exTable) insSort () db none 9
    run exDB3 none = some (.ok [(1, 5)]) ∧ run (del exDB3 (1, 5)) (some (1, 5)) = some (.ok [(2, 6)]) ∧
    run (del (del exDB3 (1, 5)) (2, 6)) (some (2, 6)) = some (.ok [(3, 7)]) := by
  refine ⟨by decide +kernel, by decide +kernel, by decide +kernel⟩

/-- C118 with Order that tells all rows apart, forward or reversed, for point and range selectors, while the After row of each request is still selected
as it was when the request is made.
Missing for the full C118: the After row is gone or no longer selected (`C118_refuted_order`). -/
theorem C118_ordered_partial {t : Table T F} {srt : (T → T → Bool) → List T → List T} (hsrt : SortSlice srt) (q : Query T) {ws : List (Moment T F)}
    (S : ∀ w ∈ ws, Setting t w.env w.filt w.db w.batch w.rows)
    (hsel : (∃ p, q.sel = .point p) ∨ ∃ lo up, q.sel = .range lo up)
    (hint : q.intersects = []) (hi : IsIndex t q.index) (hs : q.sel.OK q.index) {less : T → T → Bool} (hless : q.less = some less)
    (hsw : StrictWeak less) (hapart : ∀ x y, t.pk x ≠ t.pk y → less x y = true ∨ less y x = true) (hoff : q.offset = 0)
    (hn : 0 < q.limit.toNat) (hL : q.limit.toNat < 2 ^ 63) :
    (∀ w ∈ ws, ∀ a, (∀ a', a = some a' → SelectedAt t srt q w a') → ∃ p, PageAt t srt q w a p) ∧
    ∀ pages, LivePages (fun w a p => PageAt t srt q w a p ∧ ∀ a', a = some a' → SelectedAt t srt q w a') ws none pages →
      GoodPages t srt q (fun x y => less x y = true) ws pages := by
  have key : ∀ w ∈ ws, ∀ a, (∀ a', a = some a' → SelectedAt t srt q w a') → ∃ L : List T, PageAt t srt q w a (L.take q.limit.toNat) ∧
      L.Pairwise (fun x y => less x y = true) ∧ ∀ x, x ∈ L ↔ SelectedAt t srt q w x ∧ ∀ a', a = some a' → less a' x = true := by
    intro w hw a ha
    have S := S w hw
    obtain ⟨b, hb⟩ : ∃ b, boundsOf t q.index q.sel = [b] := by
      rcases hsel with ⟨p, h⟩ | ⟨lo, up, h⟩ <;> rw [h] <;> exact ⟨_, rfl⟩
    obtain ⟨rows, h1, h2, _⟩ := S.single hi hs hb
    have hy := h2 q.reverse
    generalize hd : dir q.reverse rows = drows at hy
    have hpage : ∀ l : List T, page q.offset.toNat q.limit.toNat l = l.take q.limit.toNat := by
      intro l; unfold page; rw [if_neg (by omega), hoff]; rfl
    have hord : ∀ q' : Query T, q'.less = q.less → q'.filter = q.filter → ordered srt q' drows = srt less (drows.filter (accepts q)) := by
      intro q' h1 h2
      have : accepts q' = accepts q := by funext x; unfold accepts; rw [h2]
      unfold ordered; rw [h1, hless, this]
    have hnodup : ((srt less (drows.filter (accepts q))).map t.pk).Nodup := by
      have hp := (hsrt less hsw (drows.filter (accepts q))).1
      rw [(hp.map t.pk).nodup_iff]
      have hr : (rows.map t.pk).Nodup := h1.nodup_pk S.wf hi
      have hdn : (drows.map t.pk).Nodup := by
        rw [← hd]; unfold dir; split
        · have hperm : (rows.reverse.map t.pk).Perm (rows.map t.pk) := (List.reverse_perm rows).map t.pk
          exact hperm.nodup_iff.2 hr
        · exact hr
      exact hdn.sublist (List.filter_sublist.map t.pk)
    have hall : Returns t w.env srt w.filt w.db w.batch { q with after := none, limit := 0 } (srt less (drows.filter (accepts q))) := by
      have := query_plain S srt (q := { q with after := none, limit := 0 }) hint hi hs rfl (by simp only [hoff]; decide) (show (0 : UInt64).toNat < 2 ^ 63 by decide) hy
      rw [hord { q with after := none, limit := 0 } rfl rfl] at this
      simpa [page, hoff] using this
    have hpw : (srt less (drows.filter (accepts q))).Pairwise (fun x y => less x y = true) := by
      have h1 := (hsrt less hsw (drows.filter (accepts q))).2
      have h2 := List.pairwise_map.1 hnodup
      refine (h1.and h2).imp (fun {x y} h => ?_)
      rcases hapart x y h.2 with h' | h'
      · exact h'
      · rw [h.1] at h'; cases h'
    generalize hR : srt less (drows.filter (accepts q)) = R at *
    have hmem : ∀ x, SelectedAt t srt q w x ↔ x ∈ R := by
      intro x
      constructor
      · rintro ⟨r, h, hx⟩; rw [hall.unique h]; exact hx
      · intro hx; exact ⟨_, hall, hx⟩
    cases a with
    | none =>
      refine ⟨R, ?_, hpw, fun x => by rw [hmem]; simp⟩
      have := query_plain S srt (q := { q with after := none }) hint hi hs rfl (by rw [hoff]; decide) hL hy
      rw [hord { q with after := none } rfl rfl, hpage] at this
      exact this
    | some a =>
      obtain ⟨pre, suf, hsplit⟩ := List.append_of_mem ((hmem a).1 (ha a rfl))
      have := query_after_ordered S srt (q := { q with after := some a }) hint hi hs rfl (by simp only [hless]; simp) (by rw [hoff]; decide) hL hy
      rw [hord { q with after := some a } rfl rfl, dropAfter_split hsplit hnodup, Option.getD_some, hpage] at this
      rw [hsplit, List.pairwise_append, List.pairwise_cons] at hpw
      refine ⟨suf, this, hpw.2.1.2, fun x => ?_⟩
      rw [hmem, hsplit]
      constructor
      · intro hx
        refine ⟨by simp [hx], fun a' e => ?_⟩
        simp only [Option.some.injEq] at e; subst e
        exact hpw.2.1.1 x hx
      · rintro ⟨hx, hlt⟩
        have hlt := hlt a rfl
        rcases List.mem_append.1 hx with hx | hx
        · have := hsw.trans _ _ _ hlt (hpw.2.2 x hx a (by simp))
          rw [hsw.irrefl] at this; cases this
        · rcases List.mem_cons.1 hx with rfl | hx
          · rw [hsw.irrefl] at hlt; cases hlt
          · exact hx
  refine ⟨fun w hw a ha => ?_, fun pages hp => ?_⟩
  · obtain ⟨L, h, _⟩ := key w hw a ha
    exact ⟨_, h⟩
  · have := livePages (lt := fun x y => less x y = true) (fun h1 h2 => hsw.trans _ _ _ h1 h2) (Sel := SelectedAt t srt q)
      (Cur := fun _ => True) hn hp (fun _ _ _ _ => trivial)
      (fun w hw a p _ hp => by
        obtain ⟨L, h1, h2, h3⟩ := key w hw a hp.2
        exact ⟨L, Returns.unique hp.1 h1, h2, h3⟩) trivial
    exact ⟨this.1, this.2.2.2, fun x hx => this.2.2.1 x hx (by simp)⟩

theorem mergeSort_sortSlice : SortSlice (T := Rec) (fun less l => l.mergeSort (fun a b => !less b a)) := by
  intro less h l
  refine ⟨List.mergeSort_perm _ _, ?_⟩
  have := List.pairwise_mergeSort (le := fun a b => !less b a) (by
      intro a b c h1 h2
      simp only [Bool.not_eq_true'] at *
      exact h.incomp _ _ _ h2 h1) (by
      intro a b
      cases h1 : less b a with
      | false => rfl
      | true =>
        cases h2 : less a b with
        | false => rfl
        | true => have := h.trans _ _ _ h1 h2; rw [h.irrefl] at this; cases this) l
  exact this.imp (by simp)

/-- the theorem at the rows in the opposite order of their primary keys -/
example := C118_ordered_partial mergeSort_sortSlice (t := exTable) { exQuery with limit := 1, less := some (fun a b => decide (b.1 < a.1)) } exMoments_ok
  (Or.inr ⟨_, _, rfl⟩) rfl exIndex_is exRange_ok rfl
  ⟨by intro a; simp, by intro a b c; simp only [decide_eq_true_eq, UInt8.lt_iff_toNat_lt]; omega,
    by intro a b c; simp only [decide_eq_false_iff_not, UInt8.lt_iff_toNat_lt]; omega⟩
  (by
    intro x y h
    simp only [decide_eq_true_eq, UInt8.lt_iff_toNat_lt]
    have : x.1 ≠ y.1 := fun e => h (by simp [exTable, e])
    have : x.1.toNat ≠ y.1.toNat := fun e => this (UInt8.toNat_inj.1 e)
    omega) rfl (by decide) (by decide)

/-- C118 is false for a query with Order whose After row is deleted between two requests: the rows (1,5), (2,6) and (3,7) in pages of one row, (2,6) is
deleted after it came; the third page is (1,5) again although nobody wrote it, and the page behind it (3,7). Without
Order, or with (2,6) in place, the third page is (3,7). -/
theorem C118_refuted_order :
    let q : Query Rec := { exQuery with limit := 1, less := some (fun a b => decide (a.1 < b.1)) }
    let run := fun (q : Query Rec) (db : KV) (a : Option Rec) => ({ q with after := a }).execute exTable (stdEnv exTable) insSort () db none 9
    let gone := (exTable.delete (stdEnv exTable) exDB3 () none [(2, 6)]).db
    run q exDB3 none = some (.ok [(1, 5)]) ∧ run q exDB3 (some (1, 5)) = some (.ok [(2, 6)]) ∧
    run q gone (some (2, 6)) = some (.ok [(1, 5)]) ∧ run q gone (some (1, 5)) = some (.ok [(3, 7)]) ∧
    run q exDB3 (some (2, 6)) = some (.ok [(3, 7)]) ∧ run { exQuery with limit := 1 } gone (some (2, 6)) = some (.ok [(3, 7)]) := by
  refine ⟨by decide +kernel, by decide +kernel, by decide +kernel, by decide +kernel, by decide +kernel, by decide +kernel⟩

end Bond
