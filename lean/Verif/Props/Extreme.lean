import Verif.Extreme
import Verif.Props.Queries

/-
C55 for all offsets and limits: exactly what a query does with them.
-/

namespace Bond
open Spec
variable {T F : Type}

/-- C55, exactly: what a query without After returns for every offset and limit. A sorted query panics from 2^63 on. A filtered
one panics for such an offset, for such a limit if there is no row to scan, and returns nothing if the sum of both does not fit into 64
bits. One without Filter and Order panics for such an offset if there is no row to scan and for such a limit if no row is behind
the offset, and returns a single row if the sum does not fit. All else is as C30 says. -/
theorem C55_exact {t : Table T F} {env : Env T} {filt : F} {db : KV} {ob : Option Batch} {m : Rows T}
    (S : Setting t env filt db ob m) {srt : (T → T → Bool) → List T → List T} (hsrt : ∀ less l, (srt less l).Perm l) (q : Query T)
    (hint : q.intersects = []) (hi : IsIndex t q.index) (hs : q.sel.OK q.index) (haft : q.after = none) :
    ∃ rows, Yields t env filt db ob q.index q.sel q.reverse rows ∧ (rows.length < 2 ^ 63 →
      ∃ N, ∀ fuel, N ≤ fuel → q.execute t env srt filt db ob fuel = some (asResult (anyPage srt q rows))) := by
  obtain ⟨parts, _, h2, _⟩ := S.parts hi hs
  exact ⟨_, h2 q.reverse, fun hlen => query_any S srt (fun less l => (hsrt less l).length_eq) hint hi hs haft (h2 q.reverse) hlen⟩

/-- C55 with After and without Order, exactly: the same for the rows that are left. -/
theorem C55_exact_after {t : Table T F} {env : Env T} {filt : F} {db : KV} {ob : Option Batch} {m : Rows T}
    (S : Setting t env filt db ob m) {srt : (T → T → Bool) → List T → List T} (hsrt : ∀ less l, (srt less l).Perm l) (q : Query T)
    (hint : q.intersects = []) (hi : IsIndex t q.index) {a : T} (haft : q.after = some a) (hless : q.less = none) {sel : Selector T}
    (hsel : q.selectorWithAfter t a = some sel) (hs : sel.OK q.index) :
    ∃ rows, Yields t env filt db ob q.index sel q.reverse rows ∧ (rows.length < 2 ^ 63 →
      ∃ N, ∀ fuel, N ≤ fuel → q.execute t env srt filt db ob fuel = some (asResult (anyPage srt q (skipHead t q.index a rows)))) := by
  obtain ⟨parts, _, h2, _⟩ := S.parts hi hs
  exact ⟨_, h2 q.reverse,
    fun hlen => query_any_after S srt (fun less l => (hsrt less l).length_eq) hint hi haft hless hsel hs (h2 q.reverse) hlen⟩

/-- when such a query (query.go:155-280) panics -/
def Spec.TooLarge (q : Query T) (rows : List T) : Prop :=
  if q.less.isSome then 2 ^ 63 ≤ q.offset.toNat ∨ 2 ^ 63 ≤ q.limit.toNat
  else if q.filter.isSome then 2 ^ 63 ≤ q.offset.toNat ∨ (2 ^ 63 ≤ q.limit.toNat ∧ rows = [])
  else (2 ^ 63 ≤ q.offset.toNat ∧ rows = []) ∨ (2 ^ 63 ≤ q.limit.toNat ∧ rows.length ≤ q.offset.toNat)

/-- C55, when a query panics: exactly in the cases of `TooLarge`, and it never fails otherwise. -/
theorem C55_panics_iff {t : Table T F} {env : Env T} {filt : F} {db : KV} {ob : Option Batch} {m : Rows T}
    (S : Setting t env filt db ob m) {srt : (T → T → Bool) → List T → List T} (hsrt : ∀ less l, (srt less l).Perm l) (q : Query T)
    (hint : q.intersects = []) (hi : IsIndex t q.index) (hs : q.sel.OK q.index) (haft : q.after = none) :
    ∃ rows, Yields t env filt db ob q.index q.sel q.reverse rows ∧ (rows.length < 2 ^ 63 →
      ∃ N, ∀ fuel, N ≤ fuel →
        (TooLarge q rows → q.execute t env srt filt db ob fuel = some (.error .panic)) ∧
        (¬ TooLarge q rows → ∃ r, q.execute t env srt filt db ob fuel = some (.ok r))) := by
  obtain ⟨rows, h1, h2⟩ := C55_exact S hsrt q hint hi hs haft
  refine ⟨rows, h1, fun hlen => ?_⟩
  obtain ⟨N, hN⟩ := h2 hlen
  refine ⟨N, fun fuel hf => ?_⟩
  rw [hN fuel hf]
  unfold TooLarge anyPage
  simp only
  split
  · split
    · exact ⟨fun _ => rfl, fun h => (h (by assumption)).elim⟩
    · exact ⟨fun h => absurd h (by assumption), fun _ => ⟨_, rfl⟩⟩
  · split
    · split
      · exact ⟨fun _ => rfl, fun h => (h (by assumption)).elim⟩
      · refine ⟨fun h => absurd h (by assumption), fun _ => ?_⟩
        split <;> exact ⟨_, rfl⟩
    · split
      · exact ⟨fun _ => rfl, fun h => (h (by assumption)).elim⟩
      · exact ⟨fun h => absurd h (by assumption), fun _ => ⟨_, rfl⟩⟩

/-- the same for a query with Intersects (query.go:282-391), whose offset and limit are applied to the keys if there is neither Filter nor Order -/
def Spec.anyPageOfKeys (srt : (T → T → Bool) → List T → List T) (q : Query T) (rows : List T) : Option (List T) :=
  let o := q.offset.toNat
  let n := q.limit.toNat
  if q.less.isSome ∨ q.filter.isSome then
    if 2 ^ 63 ≤ o ∨ 2 ^ 63 ≤ n then none else some (page o n (ordered srt q rows))
  else if 2 ^ 63 ≤ o then none
  else if 0 < o ∧ rows.length ≤ o then some []
  else if 2 ^ 63 ≤ n then none else some (page o n rows)

/-- C55 for queries with Intersects, exactly: an offset of 2^63 or more panics, and so does such a limit, unless the query has neither
Filter nor Order and no row is behind the offset. -/
theorem C55_exact_intersect {t : Table T F} {env : Env T} {filt : F} {db : KV} {m : Rows T} (S : Setting t env filt db none m)
    {srt : (T → T → Bool) → List T → List T} (hsrt : ∀ less l, (srt less l).Perm l) (q : Query T) (hne : q.intersects ≠ [])
    (hchk : q.checkIntersect = true)
    (hi : IsIndex t q.index) (hs : q.sel.OK q.index) (hqs : ∀ q' ∈ q.intersects, IsIndex t q'.index ∧ q'.sel.OK q'.index)
    (haft : q.after = none) :
    ∃ rows, IsRows t t.primaryIndex m (InAll t env filt db none (q :: q.intersects)) rows ∧ (rows.length < 2 ^ 63 →
      ∀ fuel, q.execute t env srt filt db none fuel = some (asResult (anyPageOfKeys srt q rows))) := by
  obtain ⟨prts, _, h2, _⟩ := S.parts hi hs
  have hy := h2 false
  obtain ⟨rows, h1, h3⟩ := intersect_eq S hi hs q.intersects hqs hy
  have h3' := h3.congr (fun x _ => inAll_cons hy x)
  obtain ⟨V, hV, hH⟩ := S.content
  have hVdb : V = db := by simpa [readable] using hV.symm
  subst hVdb
  refine ⟨rows, h3', fun hlen fuel => ?_⟩
  have hrows : ∀ x ∈ rows, m (t.pk x) = some x := fun x hx => ((h3.2 x).1 hx).1.1
  unfold Query.execute
  rw [if_neg (by simpa using hne)]
  congr 1
  by_cases hsmall : q.offset.toNat < 2 ^ 63 ∧ q.limit.toNat < 2 ^ 63
  · rw [executeIntersect_eq (db := V) (ob := none) S.rt S.ok srt hH S.covers hchk h1 hrows hsmall.1 hsmall.2,
      if_neg (by rw [haft]; simp)]
    have hsk : ∀ l, q.skipAfter t false l = l := by intro l; simp [Query.skipAfter, haft]
    rw [hsk]
    unfold anyPageOfKeys
    simp only
    split
    · rw [if_neg (by omega)]; rfl
    · rename_i hnf
      have hl : q.less = none := by cases hq : q.less <;> simp_all
      have hf : q.filter = none := by cases hq : q.filter <;> simp_all
      have hall : ordered srt q rows = rows := by
        unfold ordered; rw [hl]; simp only; rw [List.filter_eq_self]; intro x _; simp [accepts, hf]
      rw [hall, if_neg (by omega)]
      split
      · rename_i h
        unfold page
        rw [List.drop_eq_nil_of_le h.2]; simp [asResult]
      · rw [if_neg (by omega)]; rfl
  · unfold Query.executeIntersect
    rw [if_neg (by rw [hchk]; simp), h1]
    simp only
    by_cases hnf : q.less.isSome ∨ q.filter.isSome
    · have hk : q.sliceKeys (rows.map t.key) = .ok (rows.map t.key) := by
        unfold Query.sliceKeys
        rw [if_neg]
        rintro ⟨a, b, _⟩
        rcases hnf with h | h
        · cases hq : q.less <;> simp_all
        · cases hq : q.filter <;> simp_all
      rw [hk]
      obtain ⟨values, g1, g2⟩ := fetchRows S.rt S.ok hH S.covers q rows hrows
      simp only [g1, g2]
      unfold anyPageOfKeys Query.finishIntersect
      rw [if_pos hnf.symm]
      simp only
      rw [if_pos hnf]
      have hl : (q.skipAfter t false (q.sortRecords srt (rows.filter (accepts q)))).length < 2 ^ 63 := by
        have hle := List.length_filter_le (accepts q) rows
        unfold Query.skipAfter Query.sortRecords
        rw [haft]
        simp only
        split
        · rw [(hsrt _ _).length_eq]; omega
        · omega
      by_cases hbo : 2 ^ 63 ≤ q.offset.toNat
      · rw [if_pos (Or.inl hbo), slice_panicO hl _ hbo]; rfl
      · have hbl : 2 ^ 63 ≤ q.limit.toNat := by omega
        rw [if_pos (Or.inr hbl), slice_panicL hl (Or.inr (by omega)) hbl]; rfl
    · have hl : q.less = none := by cases hq : q.less <;> simp_all
      have hf : q.filter = none := by cases hq : q.filter <;> simp_all
      have hkl : (rows.map t.key).length < 2 ^ 63 := by rw [List.length_map]; exact hlen
      unfold anyPageOfKeys
      simp only
      rw [if_neg hnf]
      have hcond : q.filter.isNone ∧ q.less.isNone ∧ q.after.isNone := by rw [hl, hf, haft]; simp
      by_cases hbo : 2 ^ 63 ≤ q.offset.toNat
      · rw [if_pos hbo]
        have : q.sliceKeys (rows.map t.key) = .error .panic := by
          unfold Query.sliceKeys
          have := goInt_big hbo
          rw [if_pos hcond, if_neg (by rintro ⟨_, h⟩; omega), slice_panicO hkl _ hbo]
        rw [this]; rfl
      · rw [if_neg hbo]
        have hbl : 2 ^ 63 ≤ q.limit.toNat := by omega
        by_cases hemp : 0 < q.offset.toNat ∧ rows.length ≤ q.offset.toNat
        · rw [if_pos hemp]
          have : q.sliceKeys (rows.map t.key) = .ok [] := by
            unfold Query.sliceKeys
            rw [if_pos hcond, if_pos]
            refine ⟨pos_toNat.2 hemp.1, ?_⟩
            rw [goInt_small (by omega), List.length_map]
            have := hemp.2
            omega
          rw [this]
          obtain ⟨values, g1, g2⟩ := fetchRows S.rt S.ok hH S.covers q [] (by simp)
          simp only [List.map_nil] at g1
          simp only [g1, g2]
          simp [Query.finishIntersect, hf, hl, Query.skipAfter, haft, Query.sortRecords, asResult]
        · rw [if_neg hemp, if_pos hbl]
          have : q.sliceKeys (rows.map t.key) = .error .panic := by
            unfold Query.sliceKeys
            rw [if_pos hcond, if_neg, slice_panicL hkl (Or.inr (by omega)) hbl]
            rintro ⟨h, h'⟩
            rw [pos_toNat] at h
            rw [goInt_small (by omega), List.length_map] at h'
            exact hemp ⟨h, by omega⟩
          rw [this]; rfl

/-- `C55_exact` at the largest limit behind an offset, where the sum wraps around: of the two rows behind the offset only one is returned -/
example : (∃ rows, Yields exTable (stdEnv exTable) () exDB none exIndex (.range (0, 0) (9, 9)) false rows ∧ (rows.length < 2 ^ 63 →
    ∃ N, ∀ fuel, N ≤ fuel → ({ exQuery with offset := 1, limit := 0xFFFFFFFFFFFFFFFF }).execute exTable (stdEnv exTable) insSort () exDB none fuel =
      some (asResult (anyPage insSort { exQuery with offset := 1, limit := 0xFFFFFFFFFFFFFFFF } rows)))) ∧
    anyPage insSort { exQuery with offset := 1, limit := 0xFFFFFFFFFFFFFFFF } [(1, 5), (2, 6), (3, 7)] = some [(2, 6)] ∧
    anyPage insSort { exQuery with offset := 1 } [(1, 5), (2, 6), (3, 7)] = some [(2, 6), (3, 7)] :=
  ⟨C55_exact exSetting insSort_perm { exQuery with offset := 1, limit := 0xFFFFFFFFFFFFFFFF } rfl exIndex_is exRange_ok rfl,
    by decide, by decide⟩

/-- `C55_exact_after` and `C55_panics_iff` at a limit of 2^63 -/
example := C55_exact_after exSetting insSort_perm { exQuery with after := some (1, 5), limit := 0x8000000000000000 } rfl exIndex_is (a := (1, 5))
  (sel := .range (1, 5) (9, 9)) rfl rfl rfl ⟨by simp [Selector.elems], by intro p _; simp [exQuery, exIndex]⟩

example := C55_panics_iff exSetting insSort_perm { exQuery with limit := 0x8000000000000000 } rfl exIndex_is exRange_ok rfl

example : TooLarge { exQuery with limit := 0x8000000000000000 } ([] : List Rec) ∧
    ¬ TooLarge { exQuery with limit := 0x8000000000000000 } [((1, 5) : Rec)] := by
  unfold TooLarge
  simp only [exQuery, Option.isSome_none, Bool.false_eq_true, if_false]
  decide

/-- `C55_exact_intersect` at an intersection of all groups with one group -/
example := C55_exact_intersect exSetting (srt := insSort) insSort_perm
  { exQuery with intersects := [{ exQuery with sel := .point (0, 6) }], limit := 0x8000000000000000 } (by simp) (by decide)
  exIndex_is exRange_ok (by intro q' hq'; simp only [List.mem_singleton] at hq'; subst hq'; exact ⟨exIndex_is, by simp [Selector.elems], by
    intro p _; simp [exQuery, exIndex]⟩) rfl

end Bond
