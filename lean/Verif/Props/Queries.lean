import Verif.IntersectLemmas
import Verif.AnyScanner
import Verif.Props.Scans
/-
Properties of queries: C29 (query part), C30-C34, C54, C55.
-/
namespace Bond
open Spec
variable {T F σ : Type}

/-- insertion, for the witnesses -/
def insertBy (less : T → T → Bool) (x : T) : List T → List T
  | [] => [x]
  | y :: ys => if less y x then y :: insertBy less x ys else x :: y :: ys

/-- a sort that meets the contract of `sort.Slice` -/
def insSort (less : T → T → Bool) : List T → List T
  | [] => []
  | x :: xs => insertBy less x (insSort less xs)

theorem insertBy_perm (less : T → T → Bool) (x : T) (l : List T) : (insertBy less x l).Perm (x :: l) := by
  induction l with
  | nil => exact .refl _
  | cons y ys ih =>
    rw [insertBy]; split
    · exact (ih.cons y).trans (.swap x y ys)
    · exact .refl _

theorem insSort_perm (less : T → T → Bool) (l : List T) : (insSort less l).Perm l := by
  induction l with
  | nil => exact .refl _
  | cons x xs ih => exact (insertBy_perm less x _).trans (ih.cons x)

/-- The contract is satisfiable. -/
theorem insSort_ok : SortSlice (insSort (T := T)) := by
  intro less hl l
  induction l with
  | nil => exact ⟨.refl _, .nil⟩
  | cons x xs ih =>
    refine ⟨(insertBy_perm less x _).trans (ih.1.cons x), ?_⟩
    rw [insSort]
    have h := ih.2
    clear ih
    generalize insSort less xs = l at h
    induction l with
    | nil => simp [insertBy]
    | cons y ys ih' =>
      rw [List.pairwise_cons] at h
      have has : ∀ a b, less a b = true → less b a = false := by
        intro a b hab
        cases hba : less b a with
        | false => rfl
        | true => have := hl.trans a b a hab hba; rw [hl.irrefl] at this; simp at this
      rw [insertBy]
      split
      · rename_i hyx
        rw [List.pairwise_cons]
        refine ⟨fun z hz => ?_, ih' h.2⟩
        rw [(insertBy_perm less x ys).mem_iff, List.mem_cons] at hz
        rcases hz with rfl | hz
        · exact has _ _ hyx
        · exact h.1 z hz
      · rename_i hyx
        rw [List.pairwise_cons]
        refine ⟨fun z hz => ?_, List.pairwise_cons.2 h⟩
        rw [List.mem_cons] at hz
        rcases hz with rfl | hz
        · simpa using hyx
        · exact hl.incomp z y x (h.1 z hz) (by simpa using hyx)

/-! ## C30 Query filter, offset and limit -/

/-- C30: a query without Order, After and Intersects returns the rows that the scan of its index and selector yields, filtered,
without the first Offset rows, and at most Limit rows (0: all). What the scan yields is the subject of C23-C28. -/
theorem C30 {t : Table T F} {env : Env T} {filt : F} {db : KV} {ob : Option Batch} {m : Rows T}
    (S : Setting t env filt db ob m) (srt : (T → T → Bool) → List T → List T) (q : Query T) (hint : q.intersects = [])
    (hi : IsIndex t q.index) (hs : q.sel.OK q.index) (haft : q.after = none) (hless : q.less = none)
    (ho : q.offset.toNat < 2 ^ 63) (hL : q.limit.toNat < 2 ^ 63) :
    ∃ rows, Yields t env filt db ob q.index q.sel q.reverse rows ∧
      Returns t env srt filt db ob q (page q.offset.toNat q.limit.toNat (rows.filter (accepts q))) := by
  obtain ⟨parts, _, h2, _⟩ := S.parts hi hs
  refine ⟨_, h2 q.reverse, ?_⟩
  have := query_plain S srt hint hi hs haft ho hL (h2 q.reverse)
  simpa [ordered, hless] using this

/-- the theorem at a query over all groups with a filter and a page of one row -/
example := C30 exSetting insSort { index := exIndex, sel := .range (0, 0) (9, 9), filter := some (fun x => x.1 < 9), offset := 1, limit := 1 } rfl
  exIndex_is exRange_ok rfl rfl (by decide) (by decide)

/-- C30 spelled out for a point selector: the result is a page of the rows of the index group, in index order. -/
theorem C30_point {t : Table T F} {env : Env T} {filt : F} {db : KV} {ob : Option Batch} {m : Rows T}
    (S : Setting t env filt db ob m) (srt : (T → T → Bool) → List T → List T) (q : Query T) {p : T} (hsel : q.sel = .point p)
    (hint : q.intersects = []) (hi : IsIndex t q.index) (hn : NoTrailingFF (q.index.key p))
    (hl : (q.index.key p).length < 2 ^ 32 - 1) (haft : q.after = none) (hless : q.less = none) (hrev : q.reverse = false)
    (ho : q.offset.toNat < 2 ^ 63) (hL : q.limit.toNat < 2 ^ 63) :
    ∃ rows, IsRows t q.index m (fun x => q.index.key x = q.index.key p ∧ IdxLe t q.index p x) rows ∧
      Returns t env srt filt db ob q (page q.offset.toNat q.limit.toNat (rows.filter (accepts q))) := by
  obtain ⟨rows, h1, h2⟩ := C24_partial S hi hn hl
  refine ⟨rows, h1, ?_⟩
  obtain ⟨rows', h3, h4⟩ := C30 S srt q hint hi (by rw [hsel]; exact ⟨by simp [Selector.elems], by simpa [Selector.elems] using hl⟩)
    haft hless ho hL
  have := h2 false
  rw [hsel, hrev] at h3
  rw [show rows = rows' from this.unique h3]
  exact h4

example : (exTable.query).execute exTable (stdEnv exTable) insSort () exDB none 9 = some (.ok [(1, 5), (2, 6)]) ∧
    ({ exTable.query with offset := 1, limit := 5, filter := some (fun x => x.2 < 9) }).execute exTable (stdEnv exTable) insSort () exDB none 9 =
      some (.ok [(2, 6)]) ∧
    ({ exTable.query with limit := 1, reverse := true }).execute exTable (stdEnv exTable) insSort () exDB none 9 = some (.ok [(2, 6)]) := by
  refine ⟨by decide, by decide, by decide⟩

/-! ## C31 Query order -/

/-- C31: a query with Order returns Offset and Limit applied to a sorted arrangement of exactly the filtered rows. -/
theorem C31 {t : Table T F} {env : Env T} {filt : F} {db : KV} {ob : Option Batch} {m : Rows T}
    (S : Setting t env filt db ob m) {srt : (T → T → Bool) → List T → List T} (hsrt : SortSlice srt) (q : Query T)
    (hint : q.intersects = []) (hi : IsIndex t q.index) (hs : q.sel.OK q.index) (haft : q.after = none) {less : T → T → Bool}
    (hless : q.less = some less) (hsw : StrictWeak less) (ho : q.offset.toNat < 2 ^ 63) (hL : q.limit.toNat < 2 ^ 63) :
    ∃ rows sorted, Yields t env filt db ob q.index q.sel q.reverse rows ∧
      sorted.Perm (rows.filter (accepts q)) ∧ sorted.Pairwise (fun a b => less b a = false) ∧
      Returns t env srt filt db ob q (page q.offset.toNat q.limit.toNat sorted) := by
  obtain ⟨parts, _, h2, _⟩ := S.parts hi hs
  refine ⟨_, srt less ((dir q.reverse parts.flatten).filter (accepts q)), h2 q.reverse, (hsrt less hsw _).1, (hsrt less hsw _).2, ?_⟩
  have := query_plain S srt hint hi hs haft ho hL (h2 q.reverse)
  simpa [ordered, hless] using this

example : StrictWeak (fun (a b : Rec) => decide (a.2 > b.2)) ∧
    ({ exTable.query with less := some (fun a b => decide (a.2 > b.2)) }).execute exTable (stdEnv exTable) insSort () exDB none 9 =
      some (.ok [(2, 6), (1, 5)]) := by
  refine ⟨⟨?_, ?_, ?_⟩, by decide⟩
  · intro a; simp
  · intro a b c; simp only [decide_eq_true_eq, gt_iff_lt, UInt8.lt_iff_toNat_lt]; omega
  · intro a b c; simp only [decide_eq_false_iff_not, gt_iff_lt, UInt8.lt_iff_toNat_lt]; omega

/-! ## C29 Reverse queries -/

/-- C29, queries: a query without After, Order and Intersects executed in reverse works on exactly the rows of the forward scan
in the opposite order. -/
theorem C29_query {t : Table T F} {env : Env T} {filt : F} {db : KV} {ob : Option Batch} {m : Rows T}
    (S : Setting t env filt db ob m) (srt : (T → T → Bool) → List T → List T) (q : Query T) (hint : q.intersects = [])
    (hi : IsIndex t q.index) (hs : q.sel.OK q.index) (haft : q.after = none) (hless : q.less = none)
    (ho : q.offset.toNat < 2 ^ 63) (hL : q.limit.toNat < 2 ^ 63) :
    ∃ rows : List T, Returns t env srt filt db ob { q with reverse := false } (page q.offset.toNat q.limit.toNat (rows.filter (accepts q))) ∧
      Returns t env srt filt db ob { q with reverse := true }
        (page q.offset.toNat q.limit.toNat ((rows.filter (accepts q)).reverse)) := by
  obtain ⟨parts, _, h2, _⟩ := S.parts hi hs
  refine ⟨parts.flatten, ?_, ?_⟩
  · have := query_plain S srt (q := { q with reverse := false }) hint hi hs haft ho hL (h2 false)
    have e : ordered srt { q with reverse := false } (dir false parts.flatten) = parts.flatten.filter (accepts q) := by
      unfold ordered; simp only [hless]; rfl
    rw [e] at this
    exact this
  · have := query_plain S srt (q := { q with reverse := true }) hint hi hs haft ho hL (h2 true)
    have e : ordered srt { q with reverse := true } (dir true parts.flatten) = (parts.flatten.filter (accepts q)).reverse := by
      unfold ordered; simp only [hless]; rw [← List.filter_reverse]; rfl
    rw [e] at this
    exact this

/-- the theorem at a query over all groups with a page of one row -/
example := C29_query exSetting insSort { index := exIndex, sel := .range (0, 0) (9, 9), offset := 1, limit := 1 } rfl
  exIndex_is exRange_ok rfl rfl (by decide) (by decide)

/-- a second index for the witnesses: same groups, other order -/
def exQuery : Query Rec := { index := exIndex, sel := .range (0, 0) (9, 9) }

/-- C29 is false for queries with Intersects: the reversed query returns the rows in the same order. -/
theorem C29_refuted :
    ({ exQuery with intersects := [exQuery] }).execute exTable (stdEnv exTable) insSort () exDB none 9 = some (.ok [(1, 5), (2, 6)]) ∧
    ({ exQuery with intersects := [exQuery], reverse := true }).execute exTable (stdEnv exTable) insSort () exDB none 9 =
      some (.ok [(1, 5), (2, 6)]) := by
  refine ⟨by decide, by decide⟩

/-! ## C32 Cursor pagination -/

theorem Spec.IsRows.nodup_pk {t : Table T F} (wf : t.WF) {idx : Index T} (hi : IsIndex t idx) {m : Rows T} {P : T → Prop} {rows : List T}
    (h1 : IsRows t idx m P rows) : (rows.map t.pk).Nodup := by
  unfold List.Nodup
  rw [List.pairwise_map]
  refine h1.1.imp_of_mem ?_
  intro x y hx hy hlt he
  have hx' := ((h1.2 x).1 hx).1.1
  have hy' := ((h1.2 y).1 hy).1.1
  rw [he, hy'] at hx'
  simp at hx'
  subst hx'
  exact idxLt_irrefl wf hi _ hlt

/-- pages of a query -/
def PageOf (t : Table T F) (env : Env T) (srt : (T → T → Bool) → List T → List T) (filt : F) (db : KV) (ob : Option Batch)
    (q : Query T) (a : Option T) (page : List T) : Prop := Returns t env srt filt db ob { q with after := a } page

/-- the first page of a query, and the page after each of its rows -/
theorem query_pages {t : Table T F} {env : Env T} {filt : F} {db : KV} {ob : Option Batch} {m : Rows T}
    (S : Setting t env filt db ob m) (srt : (T → T → Bool) → List T → List T) (q : Query T) (hint : q.intersects = [])
    (hi : IsIndex t q.index) (hs : q.sel.OK q.index) (hless : q.less = none) (hrev : q.reverse = false) (hoff : q.offset = 0)
    (hn : 0 < q.limit.toNat) (hL : q.limit.toNat < 2 ^ 63) {lo up : Bytes} (hb : boundsOf t q.index q.sel = [(lo, up)])
    (haft : ∀ a, BoundP t q.index (lo, up) a → ∃ sel, q.selectorWithAfter t a = some sel ∧ sel.OK q.index ∧
      boundsOf t q.index sel = [(t.indexKey q.index a, up)]) :
    ∃ rows, IsRows t q.index m (BoundP t q.index (lo, up)) rows ∧ Yields t env filt db ob q.index q.sel false rows ∧
      PageOf t env srt filt db ob q none ((rows.filter (accepts q)).take q.limit.toNat) ∧
      ∀ pre a suf, rows.filter (accepts q) = pre ++ a :: suf → PageOf t env srt filt db ob q (some a) (suf.take q.limit.toNat) := by
  obtain ⟨rows, h1, h2, _⟩ := S.single hi hs hb
  have hy := h2 false
  simp only [dir, Bool.false_eq_true, if_false] at hy
  refine ⟨rows, h1, hy, ?_⟩
  have hpage : ∀ l : List T, page q.offset.toNat q.limit.toNat l = l.take q.limit.toNat := by
    intro l; unfold page; rw [if_neg (by omega), hoff]; rfl
  have h0 : PageOf t env srt filt db ob q none ((rows.filter (accepts q)).take q.limit.toNat) := by
    have := query_plain S srt (q := { q with after := none }) hint hi hs rfl (by rw [hoff]; decide) hL
      (by rw [show ({ q with after := none } : Query T).reverse = false from hrev]; exact hy)
    have e : ordered srt { q with after := none } rows = rows.filter (accepts q) := by unfold ordered; simp only [hless]; rfl
    rw [e, hpage] at this
    exact this
  have hnext : ∀ pre a suf, rows.filter (accepts q) = pre ++ a :: suf → PageOf t env srt filt db ob q (some a) (suf.take q.limit.toNat) := by
    intro pre a suf hsplit
    obtain ⟨l1, l2, hl, hl2⟩ := filter_split hsplit
    subst hl
    have ha := (h1.2 a).1 (by simp)
    obtain ⟨sel, s1, s2, s3⟩ := haft a ha.2
    obtain ⟨rows', r1, r2, _⟩ := S.single hi s2 s3
    have : rows' = a :: l2 := r1.unique S.wf hi (rows_from S.wf hi h1)
    subst this
    have hy' := r2 false
    simp only [dir, Bool.false_eq_true, if_false] at hy'
    have := query_after S srt (q := { q with after := some a }) hint hi rfl hless (sel := sel) (by
        unfold Query.selectorWithAfter at s1 ⊢; exact s1) s2 (by rw [hoff]; decide) hL
      (by rw [show ({ q with after := some a } : Query T).reverse = false from hrev]; exact hy')
    rw [skipHead, if_pos rfl, hpage] at this
    have e : l2.filter (accepts { q with after := some a }) = suf := by rw [← hl2]; rfl
    rw [e] at this
    exact this
  exact ⟨h0, hnext⟩

theorem C32_aux {t : Table T F} {env : Env T} {filt : F} {db : KV} {ob : Option Batch} {m : Rows T}
    (S : Setting t env filt db ob m) (srt : (T → T → Bool) → List T → List T) (q : Query T) (hint : q.intersects = [])
    (hi : IsIndex t q.index) (hs : q.sel.OK q.index) (hless : q.less = none) (hrev : q.reverse = false) (hoff : q.offset = 0)
    (hn : 0 < q.limit.toNat) (hL : q.limit.toNat < 2 ^ 63) {lo up : Bytes} (hb : boundsOf t q.index q.sel = [(lo, up)])
    (haft : ∀ a, BoundP t q.index (lo, up) a → ∃ sel, q.selectorWithAfter t a = some sel ∧ sel.OK q.index ∧
      boundsOf t q.index sel = [(t.indexKey q.index a, up)]) :
    ∃ rows, Yields t env filt db ob q.index q.sel false rows ∧
      (∃ pages, Pages (PageOf t env srt filt db ob q) none pages) ∧
      ∀ pages, Pages (PageOf t env srt filt db ob q) none pages →
        pages.flatten = rows.filter (accepts q) ∧ ∀ p ∈ pages, p.length ≤ q.limit.toNat := by
  obtain ⟨rows, _, hy, h0, hnext⟩ := query_pages S srt q hint hi hs hless hrev hoff hn hL hb haft
  exact ⟨rows, hy, pages_exist hn h0 hnext,
    fun pages hp => pages_eq (exec := PageOf t env srt filt db ob q) (fun a p p' h h' => Returns.unique h h') hn h0 hnext hp⟩

/-- C32 for point selectors, forward and without Order: reading page by page with Limit and After ends, and the pages put
together are exactly the rows of the unpaged query, in order, in pages of at most Limit rows. The index value of the point must
not end with 0xFF.
Missing for the full C32: reversed queries (`C32_refuted_reverse`), index values ending with 0xFF (`C32_refuted_ff`). -/
theorem C32_point_partial {t : Table T F} {env : Env T} {filt : F} {db : KV} {ob : Option Batch} {m : Rows T}
    (S : Setting t env filt db ob m) (srt : (T → T → Bool) → List T → List T) (q : Query T) {p : T} (hsel : q.sel = .point p)
    (hint : q.intersects = []) (hi : IsIndex t q.index) (hff : NoTrailingFF (q.index.key p))
    (hl : (q.index.key p).length < 2 ^ 32 - 1) (hless : q.less = none) (hrev : q.reverse = false) (hoff : q.offset = 0)
    (hn : 0 < q.limit.toNat) (hL : q.limit.toNat < 2 ^ 63) :
    ∃ rows, Returns t env srt filt db ob { q with after := none, limit := 0 } rows ∧
      (∃ pages, Pages (PageOf t env srt filt db ob q) none pages) ∧
      ∀ pages, Pages (PageOf t env srt filt db ob q) none pages → pages.flatten = rows ∧ ∀ p ∈ pages, p.length ≤ q.limit.toNat := by
  have hs : q.sel.OK q.index := by rw [hsel]; exact ⟨by simp [Selector.elems], by simpa [Selector.elems] using hl⟩
  obtain ⟨rows, h1, h2, h3⟩ := C32_aux S srt q hint hi hs hless hrev hoff hn hL (lo := t.indexKey q.index p)
    (up := keySuccessor (keyPrefix t.id q.index.id (q.index.key p))) (by rw [hsel]; rfl) (by
      intro a ha
      have hk := ((boundP_point S.wf hi hff hl a).1 ha).1
      refine ⟨.point a, by simp [Query.selectorWithAfter, hsel], ⟨by simp [Selector.elems], by simpa [Selector.elems, hk] using hl⟩, ?_⟩
      simp only [boundsOf, hk])
  refine ⟨rows.filter (accepts q), ?_, h2, h3⟩
  have := query_plain S srt (q := { q with after := none, limit := 0 }) hint hi hs rfl (by simp only [hoff]; decide) (show (0 : UInt64).toNat < 2 ^ 63 by decide)
    (by rw [show ({ q with after := none, limit := 0 } : Query T).reverse = false from hrev]; exact h1)
  have e : ordered srt { q with after := none, limit := 0 } rows = rows.filter (accepts q) := by unfold ordered; simp only [hless]; rfl
  rw [e] at this
  simpa [page, hoff] using this

/-- the theorem at the group of (2,6), in pages of one row -/
example := C32_point_partial exSetting insSort { exQuery with sel := .point (0, 6), limit := 1 } rfl rfl exIndex_is
  (by simp [NoTrailingFF, exQuery, exIndex]) (by simp [exQuery, exIndex]) rfl rfl rfl (by decide) (by decide)

/-- C32 for range selectors, forward and without Order.
Missing for the full C32: reversed queries (`C32_refuted_reverse`). -/
theorem C32_range_partial {t : Table T F} {env : Env T} {filt : F} {db : KV} {ob : Option Batch} {m : Rows T}
    (S : Setting t env filt db ob m) (srt : (T → T → Bool) → List T → List T) (q : Query T) {lo up : T} (hsel : q.sel = .range lo up)
    (hint : q.intersects = []) (hi : IsIndex t q.index) (hl : ∀ x, (q.index.key x).length < 2 ^ 32 - 1) (hless : q.less = none)
    (hrev : q.reverse = false) (hoff : q.offset = 0) (hn : 0 < q.limit.toNat) (hL : q.limit.toNat < 2 ^ 63) :
    ∃ rows, Returns t env srt filt db ob { q with after := none, limit := 0 } rows ∧
      (∃ pages, Pages (PageOf t env srt filt db ob q) none pages) ∧
      ∀ pages, Pages (PageOf t env srt filt db ob q) none pages → pages.flatten = rows ∧ ∀ p ∈ pages, p.length ≤ q.limit.toNat := by
  have hs : q.sel.OK q.index := by rw [hsel]; exact ⟨by simp [Selector.elems], fun x _ => hl x⟩
  obtain ⟨rows, h1, h2, h3⟩ := C32_aux S srt q hint hi hs hless hrev hoff hn hL (lo := t.indexKey q.index lo)
    (up := keySuccessor (t.indexKey q.index up)) (by rw [hsel]; rfl) (by
      intro a _
      exact ⟨.range a up, by simp [Query.selectorWithAfter, hsel], ⟨by simp [Selector.elems], fun x _ => hl x⟩, rfl⟩)
  refine ⟨rows.filter (accepts q), ?_, h2, h3⟩
  have := query_plain S srt (q := { q with after := none, limit := 0 }) hint hi hs rfl (by simp only [hoff]; decide) (show (0 : UInt64).toNat < 2 ^ 63 by decide)
    (by rw [show ({ q with after := none, limit := 0 } : Query T).reverse = false from hrev]; exact h1)
  have e : ordered srt { q with after := none, limit := 0 } rows = rows.filter (accepts q) := by unfold ordered; simp only [hless]; rfl
  rw [e] at this
  simpa [page, hoff] using this

/-- the theorem at all groups, in pages of one row -/
example := C32_range_partial exSetting insSort { exQuery with limit := 1 } rfl rfl exIndex_is (by intro x; simp [exQuery, exIndex]) rfl rfl rfl
  (by decide) (by decide)

/-- C32 for queries with Order, forward or reverse, with any point or range selector. -/
theorem C32_ordered {t : Table T F} {env : Env T} {filt : F} {db : KV} {ob : Option Batch} {m : Rows T}
    (S : Setting t env filt db ob m) {srt : (T → T → Bool) → List T → List T} (hsrt : SortSlice srt) (q : Query T)
    (hsel : (∃ p, q.sel = .point p) ∨ ∃ lo up, q.sel = .range lo up)
    (hint : q.intersects = []) (hi : IsIndex t q.index) (hs : q.sel.OK q.index) {less : T → T → Bool} (hless : q.less = some less)
    (hsw : StrictWeak less) (hoff : q.offset = 0)
    (hn : 0 < q.limit.toNat) (hL : q.limit.toNat < 2 ^ 63) :
    ∃ rows, Returns t env srt filt db ob { q with after := none, limit := 0 } rows ∧
      (∃ pages, Pages (PageOf t env srt filt db ob q) none pages) ∧
      ∀ pages, Pages (PageOf t env srt filt db ob q) none pages → pages.flatten = rows ∧ ∀ p ∈ pages, p.length ≤ q.limit.toNat := by
  obtain ⟨b, hb⟩ : ∃ b, boundsOf t q.index q.sel = [b] := by
    rcases hsel with ⟨p, h⟩ | ⟨lo, up, h⟩ <;> rw [h] <;> exact ⟨_, rfl⟩
  obtain ⟨rows, h1, h2, _⟩ := S.single hi hs hb
  have hy := h2 q.reverse
  generalize hd : dir q.reverse rows = drows at hy
  have hpage : ∀ l : List T, page q.offset.toNat q.limit.toNat l = l.take q.limit.toNat := by
    intro l; unfold page; rw [if_neg (by omega), hoff]; rfl
  have hord : ∀ q' : Query T, q'.less = q.less → q'.filter = q.filter → ordered srt q' drows = srt less (drows.filter (accepts q)) := by
    intro q' h1 h2
    have : accepts q' = accepts q := by funext x; unfold accepts; rw [h2]
    unfold ordered; rw [h1, hless, this]
  have hnodup : ((srt less (drows.filter (accepts q))).map t.pk).Nodup := by
    have hp := (hsrt less hsw (drows.filter (accepts q))).1
    rw [(hp.map t.pk).nodup_iff]
    have hr : (rows.map t.pk).Nodup := h1.nodup_pk S.wf hi
    have hdn : (drows.map t.pk).Nodup := by
      rw [← hd]; unfold dir; split
      · have hperm : (rows.reverse.map t.pk).Perm (rows.map t.pk) := (List.reverse_perm rows).map t.pk
        exact hperm.nodup_iff.2 hr
      · exact hr
    exact hdn.sublist (List.filter_sublist.map t.pk)
  have h0 : PageOf t env srt filt db ob q none ((srt less (drows.filter (accepts q))).take q.limit.toNat) := by
    have := query_plain S srt (q := { q with after := none }) hint hi hs rfl (by rw [hoff]; decide) hL hy
    rw [hord { q with after := none } rfl rfl, hpage] at this
    exact this
  have hnext : ∀ pre a suf, srt less (drows.filter (accepts q)) = pre ++ a :: suf →
      PageOf t env srt filt db ob q (some a) (suf.take q.limit.toNat) := by
    intro pre a suf hsplit
    have := query_after_ordered S srt (q := { q with after := some a }) hint hi hs rfl (by simp only [hless]; simp) (by rw [hoff]; decide) hL hy
    rw [hord { q with after := some a } rfl rfl, dropAfter_split hsplit hnodup, Option.getD_some, hpage] at this
    exact this
  refine ⟨srt less (drows.filter (accepts q)), ?_, pages_exist hn h0 hnext, fun pages hp =>
    pages_eq (exec := PageOf t env srt filt db ob q) (fun a p p' h h' => Returns.unique h h') hn h0 hnext hp⟩
  have := query_plain S srt (q := { q with after := none, limit := 0 }) hint hi hs rfl (by simp only [hoff]; decide) (show (0 : UInt64).toNat < 2 ^ 63 by decide) hy
  rw [hord { q with after := none, limit := 0 } rfl rfl] at this
  simpa [page, hoff] using this

example : ({ exTable.query with limit := 1 }).execute exTable (stdEnv exTable) insSort () exDB none 9 = some (.ok [(1, 5)]) ∧
    ({ exTable.query with limit := 1, after := some (1, 5) }).execute exTable (stdEnv exTable) insSort () exDB none 9 = some (.ok [(2, 6)]) ∧
    ({ exTable.query with limit := 1, after := some (2, 6) }).execute exTable (stdEnv exTable) insSort () exDB none 9 = some (.ok []) ∧
    NoTrailingFF (exTable.primaryIndex.key (0, 0)) := by
  refine ⟨by decide, by decide, by decide, by simp [NoTrailingFF, Table.primaryIndex]⟩

/-- C32 is false for reversed queries: the second page is empty and the row (1, 5) is never returned. -/
theorem C32_refuted_reverse :
    ({ exTable.query with reverse := true }).execute exTable (stdEnv exTable) insSort () exDB none 9 = some (.ok [(2, 6), (1, 5)]) ∧
    ({ exTable.query with limit := 1, reverse := true }).execute exTable (stdEnv exTable) insSort () exDB none 9 = some (.ok [(2, 6)]) ∧
    ({ exTable.query with limit := 1, reverse := true, after := some (2, 6) }).execute exTable (stdEnv exTable) insSort () exDB none 9 =
      some (.ok []) := by
  refine ⟨by decide, by decide, by decide⟩

/-- C32 is false for a point whose index value ends with 0xFF: (the unpaged query already returns too much, and) the pages leave
out a row that the unpaged query returns. -/
theorem C32_refuted_ff :
    let db := (pairTable.insert (stdEnv pairTable) KV.empty () none [(5, 255), (6, 0), (6, 9)]).db
    let q : Query Rec := { index := pairIndex, sel := .point (5, 255) }
    q.execute pairTable (stdEnv pairTable) insSort () db none 9 = some (.ok [(5, 255), (6, 0), (6, 9)]) ∧
    ({ q with limit := 2 }).execute pairTable (stdEnv pairTable) insSort () db none 9 = some (.ok [(5, 255), (6, 0)]) ∧
    ({ q with limit := 2, after := some (6, 0) }).execute pairTable (stdEnv pairTable) insSort () db none 9 = some (.ok []) := by
  refine ⟨by decide, by decide, by decide⟩

/-! ## C33 Intersect is set intersection -/

theorem inAll_cons {t : Table T F} {env : Env T} {filt : F} {db : KV} {ob : Option Batch} {q : Query T} {qs : List (Query T)}
    {first : List T} (hy : Yields t env filt db ob q.index q.sel false first) (x : T) :
    (x ∈ first ∧ InAll t env filt db ob qs x) ↔ InAll t env filt db ob (q :: qs) x := by
  unfold InAll
  constructor
  · rintro ⟨a, b⟩ q' hq'
    rw [List.mem_cons] at hq'
    rcases hq' with rfl | hq'
    · exact ⟨_, hy, a⟩
    · exact b q' hq'
  · intro h
    refine ⟨?_, fun q' hq' => h q' (by simp [hq'])⟩
    obtain ⟨r, hr, hx⟩ := h q (by simp)
    rw [hy.unique hr]; exact hx

/-- C33: a query with Intersects and without After, executed without a batch, returns the rows selected by its own selector and
by those of all its parts, once each, in primary key order, then filtered, ordered (if asked), and cut by Offset and Limit.
Parts must be plain (no Filter, Order, After, Offset, Limit), else the query is rejected (`C33_rejected`).
Missing for the full C33: After without Filter and Order (`C33_refuted_after`), parts that have Intersects themselves
(`C33_refuted_nested`). -/
theorem C33_partial {t : Table T F} {env : Env T} {filt : F} {db : KV} {m : Rows T} (S : Setting t env filt db none m)
    (srt : (T → T → Bool) → List T → List T) (q : Query T) (hne : q.intersects ≠ []) (hchk : q.checkIntersect = true)
    (hi : IsIndex t q.index) (hs : q.sel.OK q.index) (hqs : ∀ q' ∈ q.intersects, IsIndex t q'.index ∧ q'.sel.OK q'.index)
    (haft : q.after = none) (ho : q.offset.toNat < 2 ^ 63) (hL : q.limit.toNat < 2 ^ 63) :
    ∃ rows, IsRows t t.primaryIndex m (InAll t env filt db none (q :: q.intersects)) rows ∧
      Returns t env srt filt db none q (page q.offset.toNat q.limit.toNat (ordered srt q rows)) := by
  obtain ⟨prts, _, h2, _⟩ := S.parts hi hs
  have hy := h2 false
  obtain ⟨rows, h1, h3⟩ := intersect_eq S hi hs q.intersects hqs hy
  have h3' := h3.congr (fun x _ => inAll_cons hy x)
  obtain ⟨V, hV, hH⟩ := S.content
  have hVdb : V = db := by simpa [readable] using hV.symm
  subst hVdb
  refine ⟨rows, h3', 0, fun fuel _ => ?_⟩
  have := executeIntersect_eq (db := V) (ob := none) S.rt S.ok srt hH S.covers hchk h1 (fun x hx => ((h3.2 x).1 hx).1.1) ho hL
  unfold Query.execute
  rw [if_neg (by simpa using hne), this, haft]
  simp [Query.skipAfter, haft]

/-- the theorem at an intersection of all groups with one group -/
example := C33_partial exSetting insSort { exQuery with intersects := [{ exQuery with sel := .point (0, 6) }] } (by simp) (by decide)
  exIndex_is exRange_ok (by intro q' hq'; simp only [List.mem_singleton] at hq'; subst hq'; exact ⟨exIndex_is, by simp [Selector.elems], by
    intro p _; simp [exQuery, exIndex]⟩) rfl (by decide) (by decide)

theorem C33_after' {t : Table T F} {env : Env T} {filt : F} {db : KV} {m : Rows T} (S : Setting t env filt db none m)
    {srt : (T → T → Bool) → List T → List T} (q : Query T) (hne : q.intersects ≠ [])
    (hchk : q.checkIntersect = true) (hi : IsIndex t q.index) (hs : q.sel.OK q.index)
    (hqs : ∀ q' ∈ q.intersects, IsIndex t q'.index ∧ q'.sel.OK q'.index)
    {a : T} (haft : q.after = some a) (hfl : q.filter ≠ none ∨ q.less ≠ none) (ho : q.offset.toNat < 2 ^ 63)
    (hL : q.limit.toNat < 2 ^ 63) (hsrt : ∀ rows, (ordered srt q rows).Perm (rows.filter (accepts q))) :
    ∃ rows, IsRows t t.primaryIndex m (InAll t env filt db none (q :: q.intersects)) rows ∧
      ∀ pre suf, ordered srt q rows = pre ++ a :: suf →
        Returns t env srt filt db none q (page q.offset.toNat q.limit.toNat suf) := by
  obtain ⟨prts, _, h2, _⟩ := S.parts hi hs
  have hy := h2 false
  obtain ⟨rows, h1, h3⟩ := intersect_eq S hi hs q.intersects hqs hy
  have h3' := h3.congr (fun x _ => inAll_cons hy x)
  obtain ⟨V, hV, hH⟩ := S.content
  have hVdb : V = db := by simpa [readable] using hV.symm
  subst hVdb
  have hnd : ((ordered srt q rows).map t.pk).Nodup := by
    have hf : ((rows.filter (accepts q)).map t.pk).Nodup :=
      (h3.nodup_pk S.wf (Or.inr rfl)).sublist (List.filter_sublist.map t.pk)
    exact ((hsrt _).map t.pk).nodup_iff.2 hf
  refine ⟨rows, h3', fun pre suf hsplit => ⟨0, fun fuel _ => ?_⟩⟩
  have := executeIntersect_eq (db := V) (ob := none) S.rt S.ok srt hH S.covers hchk h1 (fun x hx => ((h3.2 x).1 hx).1.1) ho hL
  unfold Query.execute
  rw [if_neg (by simpa using hne), this, if_neg]
  · simp only [Query.skipAfter, haft, dropAfter_split hsplit hnd]; rfl
  · rintro ⟨h1, h2, _⟩
    rcases hfl with h | h
    · exact h (by simpa using h1)
    · exact h (by simpa using h2)

/-- C33 with After, for queries with Filter or Order: the rows up to the After row are dropped before Offset and Limit. -/
theorem C33_after {t : Table T F} {env : Env T} {filt : F} {db : KV} {m : Rows T} (S : Setting t env filt db none m)
    {srt : (T → T → Bool) → List T → List T} (hsrt : ∀ less l, (srt less l).Perm l) (q : Query T) (hne : q.intersects ≠ [])
    (hchk : q.checkIntersect = true) (hi : IsIndex t q.index) (hs : q.sel.OK q.index)
    (hqs : ∀ q' ∈ q.intersects, IsIndex t q'.index ∧ q'.sel.OK q'.index)
    {a : T} (haft : q.after = some a) (hfl : q.filter ≠ none ∨ q.less ≠ none) (ho : q.offset.toNat < 2 ^ 63)
    (hL : q.limit.toNat < 2 ^ 63) :
    ∃ rows, IsRows t t.primaryIndex m (InAll t env filt db none (q :: q.intersects)) rows ∧
      ∀ pre suf, ordered srt q rows = pre ++ a :: suf →
        Returns t env srt filt db none q (page q.offset.toNat q.limit.toNat suf) :=
  C33_after' S q hne hchk hi hs hqs haft hfl ho hL (fun rows => by
    unfold ordered
    split
    · exact hsrt _ _
    · exact .refl _)

/-- the theorem at an intersection of all groups with itself, with a filter, after the row (1,5) -/
example := C33_after exSetting (srt := insSort) insSort_perm { exQuery with intersects := [exQuery], filter := some (fun x => x.1 < 9), after := some (1, 5) }
  (by simp) (by decide) exIndex_is exRange_ok
  (by intro q' hq'; simp only [List.mem_singleton] at hq'; subst hq'; exact ⟨exIndex_is, exRange_ok⟩) rfl (.inl (by simp)) (by decide) (by decide)

/-- Queries passed to Intersects that are not plain make the query fail. -/
theorem C33_rejected {t : Table T F} (env : Env T) (srt : (T → T → Bool) → List T → List T) (filt : F) (db : KV) (ob : Option Batch)
    (q : Query T) {q' : Query T} (hq' : q' ∈ q.intersects)
    (h : q'.filter.isSome ∨ q'.less.isSome ∨ q'.after.isSome ∨ q'.offset ≠ 0 ∨ q'.limit ≠ 0) (fuel : Nat) :
    q.execute t env srt filt db ob fuel = some (.error .badQuery) := by
  unfold Query.execute
  rw [if_neg (by intro he; rw [List.isEmpty_iff] at he; rw [he] at hq'; simp at hq')]
  unfold Query.executeIntersect
  rw [if_pos]
  unfold Query.checkIntersect
  rw [List.all_eq_false]
  refine ⟨q', hq', ?_⟩
  rcases h with h | h | h | h | h
  · cases hq : q'.filter <;> simp_all
  · cases hq : q'.less <;> simp_all
  · cases hq : q'.after <;> simp_all
  · simp [h]
  · simp [h]

example : ({ exQuery with intersects := [{ exQuery with sel := .point (0, 6) }] }).checkIntersect = true ∧
    ({ exQuery with intersects := [{ exQuery with sel := .point (0, 6) }] }).execute exTable (stdEnv exTable) insSort () exDB none 9 =
      some (.ok [(2, 6)]) ∧
    ({ exQuery with intersects := [exQuery], offset := 1, filter := some (fun x => x.1 < 9) }).execute exTable (stdEnv exTable) insSort () exDB none 9 =
      some (.ok [(2, 6)]) := by
  refine ⟨by decide, by decide, by decide⟩

/-- database with the rows (1,5), (2,6), (3,7) -/
def exDB3 : KV := (exTable.insert (stdEnv exTable) exDB () none [(3, 7)]).db

/-- C33 is false with After and neither Filter nor Order: Limit (and Offset) are ignored. -/
theorem C33_refuted_after :
    ({ exQuery with intersects := [exQuery], limit := 1, after := some (1, 5) }).execute exTable (stdEnv exTable) insSort () exDB3 none 9 =
      some (.ok [(2, 6), (3, 7)]) := by
  decide

/-- C33 is false for nested parts: Intersects of a part are accepted and ignored. -/
theorem C33_refuted_nested :
    ({ exQuery with intersects := [{ exQuery with intersects := [{ exQuery with sel := .point (0, 6) }] }] }).execute exTable (stdEnv exTable)
      insSort () exDB none 9 = some (.ok [(1, 5), (2, 6)]) := by
  decide

/-! ## C34 Intersect inside a batch -/

/-- C34 is false: with a read-write batch that inserted a row, the intersect query finds the key in the batch but reads the value
from the database and fails with "not found"; with a batch that updated a row, it returns the old row. -/
theorem C34_refuted :
    let b := (exTable.insert (stdEnv exTable) exDB () (some ⟨true, []⟩) [(3, 7)]).batch
    let b' := (exTable.update (stdEnv exTable) exDB () (some ⟨true, []⟩) [(2, 7)]).batch
    ({ exQuery with intersects := [] }).execute exTable (stdEnv exTable) insSort () exDB b 9 = some (.ok [(1, 5), (2, 6), (3, 7)]) ∧
    ({ exQuery with intersects := [exQuery] }).execute exTable (stdEnv exTable) insSort () exDB b 9 = some (.error .notFound) ∧
    ({ exQuery with intersects := [] }).execute exTable (stdEnv exTable) insSort () exDB b' 9 = some (.ok [(1, 5), (2, 7)]) ∧
    ({ exQuery with intersects := [exQuery] }).execute exTable (stdEnv exTable) insSort () exDB b' 9 = some (.ok [(1, 5), (2, 6)]) := by
  decide

/-- C34, the part that holds: if the rows that all parts select, as seen through the batch, are stored unchanged in the database
(the batch may have deleted or unselected others), the query returns exactly them.
Missing for the full C34: rows written by the batch, see `C34_refuted`. -/
theorem C34_partial {t : Table T F} {env : Env T} {filt : F} {db : KV} {ob : Option Batch} {m m0 : Rows T} (S : Setting t env filt db ob m)
    (hH : Holds t db m0) (hF : FilterCovers t filt m0)
    (srt : (T → T → Bool) → List T → List T) (q : Query T) (hne : q.intersects ≠ []) (hchk : q.checkIntersect = true)
    (hi : IsIndex t q.index) (hs : q.sel.OK q.index) (hqs : ∀ q' ∈ q.intersects, IsIndex t q'.index ∧ q'.sel.OK q'.index)
    (hsame : ∀ x, InAll t env filt db ob (q :: q.intersects) x → m0 (t.pk x) = some x)
    (haft : q.after = none) (ho : q.offset.toNat < 2 ^ 63) (hL : q.limit.toNat < 2 ^ 63) :
    ∃ rows, IsRows t t.primaryIndex m (InAll t env filt db ob (q :: q.intersects)) rows ∧
      Returns t env srt filt db ob q (page q.offset.toNat q.limit.toNat (ordered srt q rows)) := by
  obtain ⟨prts, _, h2, _⟩ := S.parts hi hs
  have hy := h2 false
  obtain ⟨rows, h1, h3⟩ := intersect_eq S hi hs q.intersects hqs hy
  have h3' := h3.congr (fun x _ => inAll_cons hy x)
  refine ⟨rows, h3', 0, fun fuel _ => ?_⟩
  have := executeIntersect_eq (db := db) (ob := ob) S.rt S.ok srt hH hF hchk h1 (fun x hx => hsame x ((h3'.2 x).1 hx).2) ho hL
  unfold Query.execute
  rw [if_neg (by simpa using hne), this, haft]
  simp [Query.skipAfter, haft]

/-- a read-write batch with the new row (3,7) over the test database -/
def exBatch3 : Batch := ((exTable.insert (stdEnv exTable) exDB () (some ⟨true, []⟩) [(3, 7)]).batch).getD ⟨true, []⟩

theorem exSetting3 : Setting exTable (stdEnv exTable) () exDB (some exBatch3) (exRows.putAll exTable.pk [(3, 7)]) where
  wf := exTable_wf
  rt := fun x b hb => exTable_rt x b hb _
  ok := stdEnv_ok exTable
  alive := fun _ => rfl
  prefetch := by decide
  content := ⟨exDB.apply exBatch3.ops, rfl, (insert_view exTable_wf (stdEnv_ok exTable) exTable_fs (by decide : 0 < persistentBatchSize)
    (ob := some ⟨true, []⟩) (f := ()) (trs := [(3, 7)]) (m := exRows) exDB_holds (covers_nofilter rfl _ _)
    (callReads_of (by intro b hb; cases hb; rfl) (Or.inl (by decide))) (by decide)).1⟩
  covers := covers_nofilter rfl _ _

/-- the theorem at a batch with a new row that the intersection does not select -/
example := C34_partial exSetting3 exDB_holds (covers_nofilter rfl _ _) insSort
  { exQuery with intersects := [{ exQuery with sel := .point (0, 6) }] } (by simp)
  (by decide) exIndex_is exRange_ok (by
    intro q' hq'; simp only [List.mem_singleton] at hq'; subst hq'
    exact ⟨exIndex_is, by simp [Selector.elems], by intro p _; simp [exQuery, exIndex]⟩)
  (by
    intro x hx
    obtain ⟨rows, hy, hm⟩ := hx { exQuery with sel := .point (0, 6) } (by simp)
    obtain ⟨r, hr, h⟩ := C24_partial exSetting3 exIndex_is (p := (0, 6)) (by simp [NoTrailingFF, exIndex]) (by simp [exIndex])
    rw [hy.unique (h false)] at hm
    obtain ⟨⟨h1, _⟩, h2, _⟩ := (hr.2 x).1 hm
    obtain ⟨a, g⟩ := x
    simp only [exIndex, List.cons.injEq, and_true] at h2
    subst h2
    by_cases ha : a = 3
    · subst ha; revert h1; decide
    · rw [← h1]
      simp [Rows.putAll, Rows.put, exTable, exRows, ha])
  rfl (by decide) (by decide)

/-! ## C55 Extreme offsets and limits -/

/-- C55 is false: an offset of 2^63 on a query without rows panics, a limit of 2^63 panics on a sorted query, and with offset 1
and the largest limit the sum wraps around and rows are lost. -/
theorem C55_refuted :
    ({ exTable.query with offset := 0x8000000000000000 }).execute exTable (stdEnv exTable) insSort () KV.empty none 9 = some (.error .panic) ∧
    ({ exTable.query with limit := 0x8000000000000000, less := some (fun a b => decide (a.1 < b.1)) }).execute exTable (stdEnv exTable) insSort ()
      exDB none 9 = some (.error .panic) ∧
    ({ exTable.query with limit := 0x8000000000000000 }).execute exTable (stdEnv exTable) insSort () KV.empty none 9 = some (.error .panic) ∧
    ({ exTable.query with offset := 1, limit := 0xFFFFFFFFFFFFFFFF }).execute exTable (stdEnv exTable) insSort () exDB3 none 9 = some (.ok [(2, 6)]) ∧
    ({ exTable.query with offset := 1 }).execute exTable (stdEnv exTable) insSort () exDB3 none 9 = some (.ok [(2, 6), (3, 7)]) := by
  refine ⟨by decide, by decide, by decide, by decide, by decide⟩

/-- C55 below 2^63: every offset and limit is accepted, nothing panics, and a limit of at least the number of rows is no limit.
Missing for the full C55: larger values, see `C55_refuted`. -/
theorem C55_partial {t : Table T F} {env : Env T} {filt : F} {db : KV} {ob : Option Batch} {m : Rows T}
    (S : Setting t env filt db ob m) {srt : (T → T → Bool) → List T → List T} (hsrt : ∀ less l, (srt less l).Perm l) (q : Query T)
    (hint : q.intersects = []) (hi : IsIndex t q.index) (hs : q.sel.OK q.index) (haft : q.after = none)
    (ho : q.offset.toNat < 2 ^ 63) (hL : q.limit.toNat < 2 ^ 63) :
    ∃ rows, Yields t env filt db ob q.index q.sel q.reverse rows ∧ (∃ r, Returns t env srt filt db ob q r ∧
      (rows.length ≤ q.limit.toNat → Returns t env srt filt db ob { q with limit := 0 } r)) := by
  obtain ⟨parts, _, h2, _⟩ := S.parts hi hs
  refine ⟨_, h2 q.reverse, _, query_plain S srt hint hi hs haft ho hL (h2 q.reverse), ?_⟩
  intro hlen
  have := query_plain S srt (q := { q with limit := 0 }) hint hi hs haft ho (show (0 : UInt64).toNat < 2 ^ 63 by decide) (h2 q.reverse)
  generalize dir q.reverse parts.flatten = rows at hlen this ⊢
  have hol : (ordered srt q rows).length ≤ q.limit.toNat := by
    unfold ordered
    have hf : (rows.filter (accepts q)).length ≤ rows.length := List.length_filter_le _ _
    split
    · rw [(hsrt _ _).length_eq]; omega
    · omega
  have e : ordered srt { q with limit := 0 } rows = ordered srt q rows := rfl
  rw [e] at this
  have e2 : page q.offset.toNat q.limit.toNat (ordered srt q rows) = page q.offset.toNat 0 (ordered srt q rows) := by
    unfold page
    rw [if_pos rfl]
    split
    · rfl
    · rw [List.take_of_length_le]; rw [List.length_drop]; omega
  rw [e2]
  exact this

example : (exTable.query).offset.toNat < 2 ^ 63 ∧ ({ exTable.query with limit := 0x7FFFFFFFFFFFFFFF }).limit.toNat < 2 ^ 63 ∧
    ({ exTable.query with limit := 0x7FFFFFFFFFFFFFFF }).execute exTable (stdEnv exTable) insSort () exDB3 none 9 =
      some (.ok [(1, 5), (2, 6), (3, 7)]) := by
  refine ⟨by decide, by decide, by decide⟩

/-! ## C54 TableAnyScanner -/

/-- C54, Scan and ScanIndex: the adapter returns exactly the rows that the table's scan returns, also with a batch. -/
theorem C54_scan {t : Table T F} {env : Env T} {filt : F} {db : KV} {ob : Option Batch} {m : Rows T}
    (S : Setting t env filt db ob m) {idx : Index T} (hi : IsIndex t idx) {sel : Selector T} (hs : sel.OK idx) (reverse : Bool) :
    ∃ rows, Yields t env filt db ob idx sel reverse rows ∧
      ∃ N, ∀ fuel, N ≤ fuel → ∀ tr, t.anyScanIndex env filt db ob idx sel reverse fuel tr = some ⟨tr ++ rows, none⟩ := by
  obtain ⟨parts, _, h2, _⟩ := S.parts hi hs
  obtain ⟨N, hN⟩ := h2 reverse
  refine ⟨_, h2 reverse, N, fun fuel hf tr => ?_⟩
  unfold Table.anyScanIndex
  rw [hN fuel hf []]; rfl

/-- the theorem at the range over all groups -/
example := C54_scan exSetting exIndex_is exRange_ok true

/-- C54, Scan and ScanIndex: if the table's scan fails, the adapter's fails with the same error, and the caller's slice is as
before. -/
theorem C54_error (t : Table T F) (env : Env T) (filt : F) (db : KV) (ob : Option Batch) (idx : Index T) (sel : Selector T)
    (reverse : Bool) (fuel : Nat) (tr got : List T) (e : Err)
    (h : t.scanIndex env filt db ob idx sel reverse fuel [] = some ⟨got, some e⟩) :
    t.anyScanIndex env filt db ob idx sel reverse fuel tr = some ⟨tr, some e⟩ := by
  unfold Table.anyScanIndex
  rw [h]; rfl

/-- a scan that fails after one row -/
example : exTable.scanIndex { stdEnv exTable with done := fun n => n == 1 } () exDB none exTable.primaryIndex
      (.range (0, 0) (9, 9)) false 9 [] = some ⟨[(1, 5)], some .ctxDone⟩ ∧
    exTable.anyScanIndex { stdEnv exTable with done := fun n => n == 1 } () exDB none exTable.primaryIndex
      (.range (0, 0) (9, 9)) false 9 [(8, 8)] = some ⟨[(8, 8)], some .ctxDone⟩ := by decide

/-- C54 is false for selectors made for `any`: the type of the adapter's interface asks for them, yet the scan panics on
every table and content. -/
theorem C54_selector_refuted (t : Table T F) (env : Env T) (filt : F) (db : KV) (ob : Option Batch) (idx : Index T)
    (sel : Selector T) (reverse : Bool) (fuel : Nat) (tr : List T) :
    t.anyScanIndexSel env filt db ob idx (.untyped sel) reverse fuel tr = some ⟨tr, some .panic⟩ ∧
    t.anyScanIndexSel env filt db ob idx (.typed sel) reverse fuel tr = t.anyScanIndex env filt db ob idx sel reverse fuel tr :=
  ⟨rfl, rfl⟩

theorem C54_scanAll (t : Table T F) (env : Env T) (filt : F) (db : KV) (ob : Option Batch) (reverse : Bool) (fuel : Nat) (tr : List T) :
    t.anyScan env filt db ob reverse fuel tr = t.anyScanIndex env filt db ob t.primaryIndex (.point t.empty) reverse fuel tr := rfl

/-- C54, ScanForEach and ScanIndexForEach: without a batch the adapter calls the callback for exactly the rows of the table's scan.
Missing for the full C54: calls with a batch, see `C54_refuted`. -/
theorem C54_forEach_partial {t : Table T F} {env : Env T} {filt : F} {db : KV} {m : Rows T}
    (S : Setting t env filt db none m) {idx : Index T} (hi : IsIndex t idx) {sel : Selector T} (hs : sel.OK idx) (reverse : Bool)
    (f : σ → Bytes → Cb σ T) {fetched : σ → Prop} (hf : idx.id = primaryIndexID ∨ FetchesAll f fetched) :
    ∃ rows, Yields t env filt db none idx sel reverse rows ∧ ∃ N, ∀ fuel, N ≤ fuel → ∀ s,
      t.anyScanIndexForEach env filt (fun _ => (db, none)) idx sel f reverse fuel s = some (runRows f (seen t idx rows) s) := by
  obtain ⟨parts, _, h2, h3⟩ := S.parts hi hs
  obtain ⟨N, hN⟩ := h3 reverse f fetched hf
  exact ⟨_, h2 reverse, N, hN⟩

/-- the theorem at the range over all groups with the callback of ScanIndex -/
example := C54_forEach_partial exSetting exIndex_is exRange_ok true scanIndexCb (.inr scanIndexCb_fetches)

/-- C54, ScanForEach: without a batch the adapter calls the callback for exactly the rows of the table's `Scan`, in the same direction.
Missing for the full C54: calls with a batch, see `C54_refuted`. -/
theorem C54_scanForEach_partial {t : Table T F} {env : Env T} {filt : F} {db : KV} {m : Rows T}
    (S : Setting t env filt db none m) (reverse : Bool) (f : σ → Bytes → Cb σ T) :
    ∃ rows, (∃ N, ∀ fuel, N ≤ fuel → ∀ tr, t.scan env filt db none reverse fuel tr = some ⟨tr ++ rows, none⟩) ∧
      ∃ N, ∀ fuel, N ≤ fuel → ∀ s,
        t.anyScanForEach env filt (fun _ => (db, none)) f reverse fuel s = some (runRows f (seen t t.primaryIndex rows) s) := by
  obtain ⟨parts, _, h2, h3⟩ := S.parts (Or.inr rfl) (sel := .point t.empty) (idx := t.primaryIndex)
    ⟨by simp [Selector.elems], by simp [Selector.elems, Table.primaryIndex]⟩
  obtain ⟨N, hN⟩ := h3 reverse f (fun _ => True) (Or.inl rfl)
  exact ⟨_, h2 reverse, N, hN⟩

/-- callback that collects all rows -/
example : exTable.anyScanForEach (stdEnv exTable) () (fun _ => (exDB, none)) scanIndexCb true 9 [] = some ⟨[(2, 6), (1, 5)], none⟩ := by
  decide

/-- callback that collects all rows -/
example : exTable.anyScanIndexForEach (stdEnv exTable) () (fun _ => (exDB, none)) exIndex (.range (0, 0) (9, 9)) scanIndexCb true 9 [] =
    some ⟨[(2, 6), (1, 5)], none⟩ := by decide

/-- C54 is false with a batch: the adapter's ForEach scans do not see the batch. -/
theorem C54_refuted :
    let b := (exTable.insert (stdEnv exTable) exDB () (some ⟨true, []⟩) [(3, 7)]).batch
    exTable.scanForEach (stdEnv exTable) () (fun _ => (exDB, b)) scanIndexCb false 9 [] = some ⟨[(1, 5), (2, 6), (3, 7)], none⟩ ∧
    exTable.anyScanForEach (stdEnv exTable) () (fun _ => (exDB, b)) scanIndexCb false 9 [] = some ⟨[(1, 5), (2, 6)], none⟩ ∧
    exTable.anyScanIndexForEach (stdEnv exTable) () (fun _ => (exDB, b)) exIndex (.range (0, 0) (9, 9)) scanIndexCb false 9 [] =
      some ⟨[(1, 5), (2, 6)], none⟩ := by
  decide

end Bond
