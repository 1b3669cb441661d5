import Verif.Props.Queries
import Verif.Props.ExactMore
/-!
C120: reading a query with Intersects page by page.
-/

namespace Bond

open Spec

variable {T F : Type}

theorem eq_nil_or_snoc {α : Type} (l : List α) : l = [] ∨ ∃ p x, l = p ++ [x] := by
  rcases List.eq_nil_or_concat l with h | ⟨p, x, h⟩
  · exact .inl h
  · exact .inr ⟨p, x, by rw [h, List.concat_eq_append]⟩

/-- the rows of an intersect query in its order, its first page, and its page after each row -/
theorem intersect_pages {t : Table T F} {env : Env T} {filt : F} {db : KV} {m : Rows T} (S : Setting t env filt db none m)
    {srt : (T → T → Bool) → List T → List T} (hsrt : ∀ less l, (srt less l).Perm l) (q : Query T) (hne : q.intersects ≠ [])
    (hchk : q.checkIntersect = true) (hi : IsIndex t q.index) (hs : q.sel.OK q.index)
    (hqs : ∀ q' ∈ q.intersects, IsIndex t q'.index ∧ q'.sel.OK q'.index) (hoff : q.offset = 0) (hn : 0 < q.limit.toNat) (hL : q.limit.toNat < 2 ^ 63) :
    ∃ rows, IsRows t t.primaryIndex m (InAll t env filt db none (q :: q.intersects)) rows ∧
      Returns t env srt filt db none { q with after := none, limit := 0 } (ordered srt q rows) ∧
      PageOf t env srt filt db none q none ((ordered srt q rows).take q.limit.toNat) ∧
      (q.filter ≠ none ∨ q.less ≠ none → ∀ pre a suf, ordered srt q rows = pre ++ a :: suf →
        PageOf t env srt filt db none q (some a) (suf.take q.limit.toNat)) ∧
      (q.filter = none → q.less = none → ∀ pre a suf, ordered srt q rows = pre ++ a :: suf → PageOf t env srt filt db none q (some a) suf) := by
  have hpage : ∀ l : List T, page q.offset.toNat q.limit.toNat l = l.take q.limit.toNat := by
    intro l; unfold page; rw [if_neg (by omega), hoff]; rfl
  obtain ⟨rows, h1, h2⟩ := C33_partial S srt { q with after := none } hne hchk hi hs hqs rfl (by rw [hoff]; decide) hL
  have hall : ∀ (q' : Query T) {rows'}, q'.index = q.index → q'.sel = q.sel → q'.intersects = q.intersects →
      IsRows t t.primaryIndex m (InAll t env filt db none (q' :: q'.intersects)) rows' → rows' = rows := by
    intro q' rows' e1 e2 e3 h
    refine (h.congr (fun x _ => ?_)).unique S.wf (Or.inr rfl) h1
    rw [e3]
    unfold InAll
    simp [e1, e2]
  refine ⟨rows, h1.congr (fun x _ => by unfold InAll; simp), ?_, ?_, ?_, ?_⟩
  · obtain ⟨rows', h1', h2'⟩ := C33_partial S srt { q with after := none, limit := 0 } hne hchk hi hs hqs rfl (by rw [hoff]; decide)
      (show (0 : UInt64).toNat < 2 ^ 63 by decide)
    rw [hall { q with after := none, limit := 0 } rfl rfl rfl h1'] at h2'
    have e : ordered srt { q with after := none, limit := 0 } rows = ordered srt q rows := rfl
    rw [e] at h2'
    simpa [page, hoff] using h2'
  · have e : ordered srt { q with after := none } rows = ordered srt q rows := rfl
    rw [e] at h2
    have := hpage (ordered srt q rows)
    rw [this] at h2
    exact h2
  · intro hfl pre a suf hsplit
    obtain ⟨rows', h1', h2'⟩ := C33_after S hsrt { q with after := some a } hne hchk hi hs hqs rfl hfl (by rw [hoff]; decide) hL
    rw [hall { q with after := some a } rfl rfl rfl h1'] at h2'
    have h3 := h2' pre suf hsplit
    have := hpage suf
    rw [this] at h3
    exact h3
  · intro hf hl pre a suf hsplit
    obtain ⟨rows', h1', h2', _⟩ := C33_after_exact S srt { q with after := some a } hne hchk hi hs hqs rfl hf hl (by rw [hoff]; decide) hL
    rw [hall { q with after := some a } rfl rfl rfl h1'] at h2'
    have e : ordered srt q rows = rows := by
      unfold ordered; rw [hl]; simp only
      exact List.filter_eq_self.2 (fun x _ => by unfold accepts; rw [hf])
    exact h2' pre suf (e ▸ hsplit)

/-- C120 for queries with a Filter or an Order: the pages are the rows of the query without Limit, in order, and none is longer than Limit.
Missing for the full C120: queries with neither (`C120_refuted_limit`; their rows are right, `C120_rows`). -/
theorem C120_partial {t : Table T F} {env : Env T} {filt : F} {db : KV} {m : Rows T} (S : Setting t env filt db none m)
    {srt : (T → T → Bool) → List T → List T} (hsrt : ∀ less l, (srt less l).Perm l) (q : Query T) (hne : q.intersects ≠ [])
    (hchk : q.checkIntersect = true) (hi : IsIndex t q.index) (hs : q.sel.OK q.index)
    (hqs : ∀ q' ∈ q.intersects, IsIndex t q'.index ∧ q'.sel.OK q'.index) (hfl : q.filter ≠ none ∨ q.less ≠ none)
    (hoff : q.offset = 0) (hn : 0 < q.limit.toNat) (hL : q.limit.toNat < 2 ^ 63) :
    ∃ rows, IsRows t t.primaryIndex m (InAll t env filt db none (q :: q.intersects)) rows ∧
      Returns t env srt filt db none { q with after := none, limit := 0 } (ordered srt q rows) ∧
      (∃ pages, Pages (PageOf t env srt filt db none q) none pages) ∧
      ∀ pages, Pages (PageOf t env srt filt db none q) none pages → pages.flatten = ordered srt q rows ∧ ∀ p ∈ pages, p.length ≤ q.limit.toNat := by
  obtain ⟨rows, h1, h2, h3, h4, _⟩ := intersect_pages S hsrt q hne hchk hi hs hqs hoff hn hL
  exact ⟨rows, h1, h2, pages_exist hn h3 (h4 hfl), fun pages hp =>
    pages_eq (exec := PageOf t env srt filt db none q) (fun a p p' h h' => Returns.unique h h') hn h3 (h4 hfl) hp⟩

/-- the theorem at an intersection of all groups with itself, with a filter, in pages of one row -/
example := C120_partial exSetting (srt := insSort) insSort_perm { exQuery with intersects := [exQuery], filter := some (fun x => x.1 < 9), limit := 1 }
  (by simp) (by decide) exIndex_is exRange_ok
  (by intro q' hq'; simp only [List.mem_singleton] at hq'; subst hq'; exact ⟨exIndex_is, exRange_ok⟩) (.inl (by simp)) rfl (by decide) (by decide)

/-- C120 without Filter and Order, as far as it holds: no row is lost or repeated. There are at most two pages that are not empty: the first keeps to
Limit, the second is all the rest. -/
theorem C120_rows {t : Table T F} {env : Env T} {filt : F} {db : KV} {m : Rows T} (S : Setting t env filt db none m)
    {srt : (T → T → Bool) → List T → List T} (hsrt : ∀ less l, (srt less l).Perm l) (q : Query T) (hne : q.intersects ≠ [])
    (hchk : q.checkIntersect = true) (hi : IsIndex t q.index) (hs : q.sel.OK q.index)
    (hqs : ∀ q' ∈ q.intersects, IsIndex t q'.index ∧ q'.sel.OK q'.index) (hf : q.filter = none) (hl : q.less = none)
    (hoff : q.offset = 0) (hn : 0 < q.limit.toNat) (hL : q.limit.toNat < 2 ^ 63) :
    ∃ rows, IsRows t t.primaryIndex m (InAll t env filt db none (q :: q.intersects)) rows ∧
      Returns t env srt filt db none { q with after := none, limit := 0 } rows ∧
      ∀ pages, Pages (PageOf t env srt filt db none q) none pages ↔
        pages = [rows.take q.limit.toNat, rows.drop q.limit.toNat].filter (fun p => !p.isEmpty) := by
  obtain ⟨rows, h1, h2, h3, _, h5⟩ := intersect_pages S hsrt q hne hchk hi hs hqs hoff hn hL
  have e : ordered srt q rows = rows := by
    unfold ordered; rw [hl]; simp only
    exact List.filter_eq_self.2 (fun x _ => by unfold accepts; rw [hf])
  rw [e] at h2 h3 h5
  have h5 := h5 hf hl
  refine ⟨rows, h1, h2, fun pages => ?_⟩
  have hcut := List.take_append_drop q.limit.toNat rows
  generalize htk : rows.take q.limit.toNat = A at hcut h3
  generalize hdr : rows.drop q.limit.toNat = B at hcut
  have hAB : A = [] → B = [] := by
    intro hA
    rw [hA] at htk
    rcases List.take_eq_nil_iff.1 htk with h | h
    · omega
    · rw [← hdr, h, List.drop_nil]
  -- the pages behind a last row of `A`, and of `B`
  have hnil : ∀ {X : List T} {x : T} {pg : List (List T)}, rows = X ++ [x] → (Pages (PageOf t env srt filt db none q) (some x) pg ↔ pg = []) := by
    intro X x pg hX
    have hp := h5 X x [] hX
    constructor
    · intro h
      cases h with
      | stop => rfl
      | more h _ => exact absurd (Returns.unique h hp) (by simp)
    · rintro rfl; exact .stop hp
  have hB : ∀ {X : List T} {x : T} {pg : List (List T)}, A = X ++ [x] →
      (Pages (PageOf t env srt filt db none q) (some x) pg ↔ pg = [B].filter (fun p => !p.isEmpty)) := by
    intro X x pg hX
    have hp := h5 X x B (by rw [← hcut, hX]; simp)
    rcases eq_nil_or_snoc B with hB | ⟨Y, y, hB⟩
    · rw [hB]
      exact hnil (X := X) (by rw [← hcut, hB, List.append_nil, hX])
    · rw [hB] at hp ⊢
      have hr : rows = (A ++ Y) ++ [y] := by rw [← hcut, hB]; simp
      constructor
      · intro h
        cases h with
        | stop h => exact absurd (Returns.unique h hp) (by simp)
        | more h h' =>
          have h6 := Returns.unique h hp
          obtain ⟨e1, e2⟩ := List.append_inj' h6 rfl
          simp only [List.cons.injEq, and_true] at e2
          subst e1 e2
          rw [(hnil hr).1 h']; simp
      · intro h
        rw [h]
        simpa using Pages.more hp ((hnil hr).2 rfl)
  rcases eq_nil_or_snoc A with hA | ⟨X, x, hA⟩
  · rw [hA, hAB hA]
    rw [hA] at h3
    constructor
    · intro h
      cases h with
      | stop => rfl
      | more h _ => exact absurd (Returns.unique h h3) (by simp)
    · intro h; rw [h]; exact .stop h3
  · have hB := hB (pg := pages.tail) hA
    rw [hA] at h3 ⊢
    constructor
    · intro h
      cases h with
      | stop h => exact absurd (Returns.unique h h3) (by simp)
      | more h h' =>
        have h6 := Returns.unique h h3
        obtain ⟨e1, e2⟩ := List.append_inj' h6 rfl
        simp only [List.cons.injEq, and_true] at e2
        subst e1 e2
        have := hB.1 h'
        simp only [List.tail_cons] at this
        rw [this]; simp [List.filter_cons]
    · intro h
      have h7 : pages = (X ++ [x]) :: [B].filter (fun p => !p.isEmpty) := by rw [h]; simp [List.filter_cons]
      rw [h7] at hB ⊢
      exact .more h3 (hB.2 rfl)

/-- the theorem at an intersection of all groups with itself, in pages of one row -/
example := C120_rows exSetting (srt := insSort) insSort_perm { exQuery with intersects := [exQuery], limit := 1 }
  (by simp) (by decide) exIndex_is exRange_ok
  (by intro q' hq'; simp only [List.mem_singleton] at hq'; subst hq'; exact ⟨exIndex_is, exRange_ok⟩) rfl rfl rfl (by decide) (by decide)

/-- C120 is false without Filter and Order: of the three rows (1,5), (2,6), (3,7) in pages of one row, the second page has two. -/
theorem C120_refuted_limit :
    let q : Query Rec := { exQuery with intersects := [exQuery], limit := 1 }
    q.execute exTable (stdEnv exTable) insSort () exDB3 none 9 = some (.ok [(1, 5)]) ∧
    ({ q with after := some (1, 5) }).execute exTable (stdEnv exTable) insSort () exDB3 none 9 = some (.ok [(2, 6), (3, 7)]) ∧
    ({ q with filter := some (fun _ => true), after := some (1, 5) }).execute exTable (stdEnv exTable) insSort () exDB3 none 9 =
      some (.ok [(2, 6)]) := by
  refine ⟨by decide, by decide, by decide⟩

/-- and if the After row is deleted between two requests, the query starts again from its first row, although nobody wrote that row: (1,5), (2,6) and
(3,7) in pages of one row, with a filter; (2,6) is deleted after it came -/
theorem C120_refuted_deleted :
    let q : Query Rec := { exQuery with intersects := [exQuery], limit := 1, filter := some (fun _ => true) }
    let db' := (exTable.delete (stdEnv exTable) exDB3 () none [(2, 6)]).db
    q.execute exTable (stdEnv exTable) insSort () exDB3 none 9 = some (.ok [(1, 5)]) ∧
    ({ q with after := some (1, 5) }).execute exTable (stdEnv exTable) insSort () exDB3 none 9 = some (.ok [(2, 6)]) ∧
    ({ q with after := some (2, 6) }).execute exTable (stdEnv exTable) insSort () db' none 9 = some (.ok [(1, 5)]) := by
  refine ⟨by decide, by decide, by decide⟩

end Bond
