import Verif.Props.Extreme
import Verif.Props.ExactMore
/-!
C55 for the remaining kinds of queries: After together with Order, and After together with Intersects.
-/

namespace Bond

open Spec

variable {T F : Type}

/-- the rows behind the first with the primary key of `a`; all rows if there is none -/
def Spec.behind (pk : T → Bytes) (a : T) (l : List T) : List T :=
  let s := l.dropWhile (fun x => decide (pk x ≠ pk a))
  if s.isEmpty then l else s.tail

theorem dropAfter_behind (pk : T → Bytes) (a : T) (l : List T) : (dropAfter pk a l).getD l = behind pk a l := by
  have h : ∀ l, dropAfter pk a l = (let s := l.dropWhile (fun x => decide (pk x ≠ pk a)); if s.isEmpty then none else some s.tail) := by
    intro l
    induction l with
    | nil => rfl
    | cons x xs ih =>
      rw [dropAfter]
      by_cases hx : pk a = pk x
      · rw [if_pos hx]; simp [List.dropWhile, hx]
      · rw [if_neg hx, ih]; simp [List.dropWhile, Ne.symm hx]
  rw [h]
  unfold behind
  simp only
  split <;> rfl

theorem behind_le (pk : T → Bytes) (a : T) (l : List T) : (behind pk a l).length ≤ l.length := by
  have h : ∀ l : List T, (l.dropWhile (fun x => decide (pk x ≠ pk a))).length ≤ l.length := by
    intro l
    induction l with
    | nil => simp
    | cons x xs ih =>
      rw [List.dropWhile]
      split
      · simp only [List.length_cons]; omega
      · simp
  unfold behind
  simp only
  split
  · exact Nat.le_refl _
  · rw [List.length_tail]; have := h l; omega

theorem ordered_le {srt : (T → T → Bool) → List T → List T} (hsrt : ∀ less l, (srt less l).Perm l) (q : Query T) (rows : List T) :
    (ordered srt q rows).length ≤ rows.length := by
  have hle := List.length_filter_le (accepts q) rows
  unfold ordered
  split
  · rw [(hsrt _ _).length_eq]; exact hle
  · exact hle

/-- offset and limit applied at the end, for all values -/
theorem slice_any {q : Query T} {l : List T} (hl : l.length < 2 ^ 63) :
    q.slice false false l =
      if 2 ^ 63 ≤ q.offset.toNat ∨ 2 ^ 63 ≤ q.limit.toNat then .error .panic else .ok (page q.offset.toNat q.limit.toNat l) := by
  by_cases hbo : 2 ^ 63 ≤ q.offset.toNat
  · rw [if_pos (Or.inl hbo), slice_panicO hl _ hbo]
  · by_cases hbl : 2 ^ 63 ≤ q.limit.toNat
    · rw [if_pos (Or.inr hbl), slice_panicL hl (Or.inr (by omega)) hbl]
    · rw [if_neg (by omega), slice_off (by omega) (by omega) _ _ (by simp)]

/-- C55 with After and Order, exactly: an offset or limit of 2^63 or more panics, all others are applied to the sorted rows behind the After row. -/
theorem C55_exact_after_ordered {t : Table T F} {env : Env T} {filt : F} {db : KV} {ob : Option Batch} {m : Rows T}
    (S : Setting t env filt db ob m) {srt : (T → T → Bool) → List T → List T} (hsrt : ∀ less l, (srt less l).Perm l) (q : Query T)
    (hint : q.intersects = []) (hi : IsIndex t q.index) (hs : q.sel.OK q.index) {a : T} (haft : q.after = some a) (hl : q.less ≠ none) :
    ∃ rows, Yields t env filt db ob q.index q.sel q.reverse rows ∧ (rows.length < 2 ^ 63 →
      ∃ N, ∀ fuel, N ≤ fuel → q.execute t env srt filt db ob fuel = some
        (if 2 ^ 63 ≤ q.offset.toNat ∨ 2 ^ 63 ≤ q.limit.toNat then .error .panic
         else .ok (page q.offset.toNat q.limit.toNat (behind t.pk a (ordered srt q rows))))) := by
  obtain ⟨parts, _, h2, h3⟩ := S.parts hi hs
  refine ⟨_, h2 q.reverse, fun hlen => ?_⟩
  generalize hrows : dir q.reverse parts.flatten = rows at hlen
  obtain ⟨N, hN⟩ := h3 q.reverse (q.callback t) q.fetching (Or.inr (callback_fetches q))
  refine ⟨N, fun fuel hf => ?_⟩
  unfold Query.execute Query.executeQuery
  have hln : q.less.isNone = false := by cases hq : q.less <;> simp_all
  have hls : q.less.isSome = true := by cases hq : q.less <;> simp_all
  rw [hint, if_pos (by rfl), haft]
  simp only [hln, Bool.false_eq_true, if_false]
  rw [hN fuel hf {}, hrows, runCallback_body _ _ (Or.inr (Or.inl hls))]
  obtain ⟨s', h1, h2, h3, h4, h5⟩ := runBody_order hl (seen t q.index rows) {}
  rw [h1]
  simp only
  unfold Query.finish
  have h3 : s'.offsetApplied = false := h3
  have h4 : s'.afterApplied = false := h4
  have h5 : s'.limitApplied = false := h5
  have hso : q.skipAfter t false (q.sortRecords srt s'.records) = behind t.pk a (ordered srt q rows) := by
    obtain ⟨less, hless⟩ : ∃ less, q.less = some less := by
      cases hq : q.less with
      | none => exact absurd hq hl
      | some less => exact ⟨less, rfl⟩
    rw [h2, seen_snd, ← dropAfter_behind]
    simp [Query.skipAfter, haft, Query.sortRecords, ordered, hless]
  rw [h3, h4, h5, hso, slice_any]
  have := behind_le t.pk a (ordered srt q rows)
  have := ordered_le hsrt q rows
  omega

/-- C55 with After and Intersects, exactly: with Filter or Order an offset or limit of 2^63 or more panics, all others are applied to the rows behind the
After row; with neither both are ignored, whatever their size. -/
theorem C55_exact_after_intersect {t : Table T F} {env : Env T} {filt : F} {db : KV} {m : Rows T} (S : Setting t env filt db none m)
    {srt : (T → T → Bool) → List T → List T} (hsrt : ∀ less l, (srt less l).Perm l) (q : Query T) (hne : q.intersects ≠ [])
    (hchk : q.checkIntersect = true)
    (hi : IsIndex t q.index) (hs : q.sel.OK q.index) (hqs : ∀ q' ∈ q.intersects, IsIndex t q'.index ∧ q'.sel.OK q'.index)
    {a : T} (haft : q.after = some a) :
    ∃ rows, IsRows t t.primaryIndex m (InAll t env filt db none (q :: q.intersects)) rows ∧ (rows.length < 2 ^ 63 →
      ∀ fuel, q.execute t env srt filt db none fuel = some
        (if q.filter.isNone ∧ q.less.isNone then .ok (behind t.pk a rows)
         else if 2 ^ 63 ≤ q.offset.toNat ∨ 2 ^ 63 ≤ q.limit.toNat then .error .panic
         else .ok (page q.offset.toNat q.limit.toNat (behind t.pk a (ordered srt q rows))))) := by
  obtain ⟨rows, h1, h3⟩ := inAll_keys S q hi hs hqs
  obtain ⟨V, hV, hH⟩ := S.content
  have hVdb : V = db := by simpa [readable] using hV.symm
  subst hVdb
  refine ⟨rows, h3, fun hlen fuel => ?_⟩
  have hrows : ∀ x ∈ rows, m (t.pk x) = some x := fun x hx => ((h3.2 x).1 hx).1.1
  unfold Query.execute
  rw [if_neg (by simpa using hne)]
  congr 1
  unfold Query.executeIntersect
  rw [if_neg (by rw [hchk]; simp), h1]
  have hk : q.sliceKeys (rows.map t.key) = .ok (rows.map t.key) := by
    unfold Query.sliceKeys
    rw [if_neg]
    rintro ⟨_, _, h⟩
    rw [haft] at h; simp at h
  simp only [hk]
  obtain ⟨values, g1, g2⟩ := fetchRows S.rt S.ok hH S.covers q rows hrows
  simp only [g1, g2]
  have hso : q.sortRecords srt (rows.filter (accepts q)) = ordered srt q rows := by
    unfold Query.sortRecords ordered; cases q.less <;> rfl
  have hsk : q.skipAfter t false (ordered srt q rows) = behind t.pk a (ordered srt q rows) := by
    rw [← dropAfter_behind]; simp [Query.skipAfter, haft]
  rw [hso, hsk]
  unfold Query.finishIntersect
  by_cases hnf : q.filter.isNone ∧ q.less.isNone
  · have hf : q.filter = none := by have := hnf.1; cases hq : q.filter <;> simp_all
    have hl : q.less = none := by have := hnf.2; cases hq : q.less <;> simp_all
    have hall : ordered srt q rows = rows := by
      unfold ordered; rw [hl]; simp only; rw [List.filter_eq_self]; intro x _; simp [accepts, hf]
    rw [if_pos hnf, if_neg (by simp [hf, hl]), hall]
  · rw [if_neg hnf, if_pos, slice_any]
    · have := behind_le t.pk a (ordered srt q rows)
      have := ordered_le hsrt q rows
      omega
    · cases hq : q.filter <;> cases hq' : q.less <;> simp_all

/-- `C55_exact_after_ordered` with the second row first and After that row, at a limit of 2^63 and at a limit of 1 -/
example := C55_exact_after_ordered exSetting insSort_perm { exQuery with less := some (fun a b => decide (b.1 < a.1)), after := some (2, 6), limit := 0x8000000000000000 }
  rfl exIndex_is exRange_ok rfl (by simp)

example : ({ exQuery with less := some (fun a b => decide (b.1 < a.1)), after := some (2, 6), limit := 1 }).execute exTable (stdEnv exTable) insSort () exDB none 9 = some (.ok [(1, 5)]) ∧
    ({ exQuery with less := some (fun a b => decide (b.1 < a.1)), after := some (2, 6), limit := 0x8000000000000000 }).execute exTable (stdEnv exTable) insSort () exDB none 9 =
      some (.error .panic) ∧
    behind exTable.pk (2, 6) [(2, 6), (1, 5)] = [(1, 5)] ∧ behind exTable.pk (7, 7) [(2, 6), (1, 5)] = [(2, 6), (1, 5)] := by decide

/-- `C55_exact_after_intersect` at an intersection of all groups with one group -/
example := C55_exact_after_intersect exSetting (srt := insSort) insSort_perm
  { exQuery with intersects := [{ exQuery with sel := .point (0, 6) }], after := some (1, 5), limit := 0x8000000000000000 } (by simp) (by decide)
  exIndex_is exRange_ok (by intro q' hq'; simp only [List.mem_singleton] at hq'; subst hq'; exact ⟨exIndex_is, by simp [Selector.elems], by
    intro p _; simp [exQuery, exIndex]⟩) rfl

end Bond
