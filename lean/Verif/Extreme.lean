import Verif.QueryLemmas

/-!
Queries with offsets and limits that do not fit into an `int`, or whose sum does not fit into an `uint64`: what the
callback of `executeQuery` collects (query.go:183-233) and what the slices at the end do with it (query.go:261-277).
-/

namespace Bond

open Spec

variable {T F : Type}

theorem goInt_big {u : UInt64} (h : 2 ^ 63 ≤ u.toNat) : goInt u < 0 := by
  unfold goInt
  have e : u.toBitVec.toNat = u.toNat := rfl
  rw [BitVec.toInt_eq_toNat_cond, e, if_neg (by omega)]
  have := u.toNat_lt
  omega

theorem applyOffset_big {α : Type} {u : UInt64} (h : 2 ^ 63 ≤ u.toNat) {l : List α} (hl : l.length < 2 ^ 63) : applyOffset u l = none := by
  unfold applyOffset
  have := goInt_big h
  rw [if_neg (by omega), if_neg (by omega)]

theorem applyLimit_big {α : Type} {u : UInt64} (h : 2 ^ 63 ≤ u.toNat) {l : List α} (hl : l.length < 2 ^ 63) : applyLimit u l = none := by
  unfold applyLimit
  have := goInt_big h
  rw [if_neg (by omega), if_neg (by omega)]

/-- rows skipped for the offset, without filter and order -/
theorem runBody_skips {q : Query T} (hf : q.filter = none) (hl : q.less = none) (rows rest : List (Bytes × T)) (s : QSt T)
    (hc : s.count + rows.length ≤ q.offset.toNat) :
    ∃ s', runRows (fun s _ => q.body s) (rows ++ rest) s = runRows (fun s _ => q.body s) rest s' ∧ s'.records = s.records ∧
      s'.count = s.count + rows.length ∧
      s'.offsetApplied = (s.offsetApplied || !rows.isEmpty) ∧ s'.limitApplied = s.limitApplied ∧ s'.afterApplied = s.afterApplied := by
  induction rows generalizing s with
  | nil => exact ⟨s, rfl, rfl, rfl, by simp, rfl, rfl⟩
  | cons r rows ih =>
    obtain ⟨k, x⟩ := r
    rw [List.length_cons] at hc
    have hcond : q.filter.isNone ∧ q.less.isNone ∧ s.count < q.offset.toNat := ⟨by rw [hf]; rfl, by rw [hl]; rfl, by omega⟩
    have hrun := body_run_skip hcond (.ok x)
    obtain ⟨s', h1, h2, h3, h4, h5, h6⟩ := ih { s with offsetApplied := true, count := s.count + 1 } (by simp only; omega)
    exact ⟨s', by rw [List.cons_append, runRows_cons_go hrun (by simp)]; exact h1, h2, by rw [h3]; simp only [List.length_cons]; omega,
      by rw [h4]; simp, h5, h6⟩

/-- the rows after those, the first of which is collected whatever the sum of offset and limit is -/
theorem runBody_takes {q : Query T} (hf : q.filter = none) (hl : q.less = none) (hL : 0 < q.limit.toNat) (rows : List (Bytes × T))
    (hr : rows ≠ []) (s : QSt T) (hc : q.offset.toNat ≤ s.count) :
    ∃ s', runRows (fun s _ => q.body s) rows s = ⟨s', none⟩ ∧
      s'.records = s.records ++ (rows.map Prod.snd).take (max 1 ((q.offset + q.limit).toNat - s.count)) ∧
      s'.offsetApplied = s.offsetApplied ∧ s'.limitApplied = true ∧ s'.afterApplied = s.afterApplied := by
  induction rows generalizing s with
  | nil => exact (hr rfl).elim
  | cons r rows ih =>
    obtain ⟨k, x⟩ := r
    have hcond : ¬ (q.filter.isNone ∧ q.less.isNone ∧ s.count < q.offset.toNat) := fun h => by have := h.2.2; omega
    have hrun := body_run_get hcond x
    have hx : accepts q x = true := by simp [accepts, hf]
    simp only [hl, Option.isNone_none, true_and, hx, if_true, if_pos (pos_toNat.2 hL)] at hrun
    by_cases hcont : s.count + 1 < (q.offset + q.limit).toNat
    · simp only [hcont, decide_true] at hrun
      have hm : max 1 ((q.offset + q.limit).toNat - s.count) = max 1 ((q.offset + q.limit).toNat - (s.count + 1)) + 1 := by omega
      by_cases hr' : rows = []
      · subst hr'
        refine ⟨{ s with records := s.records ++ [x], count := s.count + 1, limitApplied := true },
          by rw [runRows_cons_go hrun (by simp)]; rfl, ?_, rfl, rfl, rfl⟩
        rw [hm, List.map_cons, List.take_succ_cons]; simp
      · obtain ⟨s', h1, h2, h3, h4, h5⟩ := ih hr' { s with records := s.records ++ [x], count := s.count + 1, limitApplied := true }
          (by simp only; omega)
        refine ⟨s', by rw [runRows_cons_go hrun (by simp)]; exact h1, ?_, h3, h4, h5⟩
        rw [h2, hm, List.map_cons, List.take_succ_cons]; simp
    · simp only [hcont, decide_false] at hrun
      refine ⟨_, runRows_cons_stop hrun (by simp), ?_, rfl, rfl, rfl⟩
      rw [show max 1 ((q.offset + q.limit).toNat - s.count) = 1 by omega]; simp

/-- without limit all rows are collected -/
theorem runBody_takesAll {q : Query T} (hf : q.filter = none) (hl : q.less = none) (hL : q.limit.toNat = 0) (rows : List (Bytes × T))
    (s : QSt T) (hc : q.offset.toNat ≤ s.count) :
    ∃ s', runRows (fun s _ => q.body s) rows s = ⟨s', none⟩ ∧ s'.records = s.records ++ rows.map Prod.snd ∧
      s'.offsetApplied = s.offsetApplied ∧ s'.afterApplied = s.afterApplied := by
  induction rows generalizing s with
  | nil => exact ⟨s, rfl, by simp, rfl, rfl⟩
  | cons r rows ih =>
    obtain ⟨k, x⟩ := r
    have hcond : ¬ (q.filter.isNone ∧ q.less.isNone ∧ s.count < q.offset.toNat) := fun h => by have := h.2.2; omega
    have hrun := body_run_get hcond x
    have hx : accepts q x = true := by simp [accepts, hf]
    have hL' : ¬ q.limit > 0 := by rw [pos_toNat]; omega
    simp only [hl, Option.isNone_none, true_and, hx, if_true, if_neg hL'] at hrun
    obtain ⟨s', h1, h2, h3, h4⟩ := ih { s with records := s.records ++ [x], count := s.count + 1 } (by simp only; omega)
    exact ⟨s', by rw [runRows_cons_go hrun (by simp)]; exact h1, by rw [h2]; simp, h3, h4⟩

/-- with filter: how many rows are collected at most -/
theorem runBody_few {q : Query T} (hf : q.filter ≠ none) (hl : q.less = none) (rows : List (Bytes × T)) (s : QSt T) :
    ∃ s' extra, runRows (fun s _ => q.body s) rows s = ⟨s', none⟩ ∧ s'.records = s.records ++ extra ∧ extra.length ≤ rows.length ∧
      (0 < q.limit.toNat → extra.length ≤ max 1 ((q.offset + q.limit).toNat - s.count)) ∧
      (0 < q.limit.toNat → rows ≠ [] → s'.limitApplied = true) ∧ (rows = [] → s' = s) ∧
      s'.offsetApplied = s.offsetApplied ∧ s'.afterApplied = s.afterApplied := by
  induction rows generalizing s with
  | nil => exact ⟨s, [], rfl, by simp, by simp, by simp, by simp, fun _ => rfl, rfl, rfl⟩
  | cons r rows ih =>
    obtain ⟨k, x⟩ := r
    have hcond : ¬ (q.filter.isNone ∧ q.less.isNone ∧ s.count < q.offset.toNat) := fun h => by
      have := h.1; cases hq : q.filter <;> simp_all
    have hrun := body_run_get hcond x
    simp only [hl, Option.isNone_none, true_and] at hrun
    by_cases hL : q.limit > 0
    · have hL' := pos_toNat.1 hL
      rw [if_pos hL] at hrun
      by_cases hx : accepts q x = true
      · simp only [hx, if_true] at hrun
        by_cases hcont : s.count + 1 < (q.offset + q.limit).toNat
        · simp only [hcont, decide_true] at hrun
          obtain ⟨s', ex, h1, h2, h3, h4, h5, h6, h7, h8⟩ := ih { s with records := s.records ++ [x], count := s.count + 1, limitApplied := true }
          refine ⟨s', x :: ex, by rw [runRows_cons_go hrun (by simp)]; exact h1, by rw [h2]; simp, by simp; exact h3, ?_, ?_, by simp, h7, h8⟩
          · intro h0
            have := h4 h0
            simp only [List.length_cons] at this ⊢
            omega
          · intro _ _
            by_cases hr' : rows = []
            · rw [h6 hr']
            · exact h5 hL' hr'
        · simp only [hcont, decide_false] at hrun
          exact ⟨_, [x], runRows_cons_stop hrun (by simp), rfl, by simp, fun _ => by simp only [List.length_cons, List.length_nil]; omega,
            fun _ _ => rfl, by simp, rfl, rfl⟩
      · simp only [hx, Bool.false_eq_true, if_false] at hrun
        by_cases hcont : s.count < (q.offset + q.limit).toNat
        · simp only [hcont, decide_true] at hrun
          obtain ⟨s', ex, h1, h2, h3, h4, h5, h6, h7, h8⟩ := ih { s with limitApplied := true }
          refine ⟨s', ex, by rw [runRows_cons_go hrun (by simp)]; exact h1, h2, by simp; omega, h4, ?_, by simp, h7, h8⟩
          intro _ _
          by_cases hr' : rows = []
          · rw [h6 hr']
          · exact h5 hL' hr'
        · simp only [hcont, decide_false] at hrun
          exact ⟨_, [], runRows_cons_stop hrun (by simp), by simp, by simp, fun _ => by simp, fun _ _ => rfl, by simp, rfl, rfl⟩
    · have hL0 : ¬ 0 < q.limit.toNat := fun h => hL (pos_toNat.2 h)
      rw [if_neg hL] at hrun
      by_cases hx : accepts q x = true
      · simp only [hx, if_true] at hrun
        obtain ⟨s', ex, h1, h2, h3, h4, h5, h6, h7, h8⟩ := ih { s with records := s.records ++ [x], count := s.count + 1 }
        exact ⟨s', x :: ex, by rw [runRows_cons_go hrun (by simp)]; exact h1, by rw [h2]; simp, by simp; exact h3, fun h => (hL0 h).elim,
          fun h => (hL0 h).elim, by simp, h7, h8⟩
      · simp only [hx, Bool.false_eq_true, if_false] at hrun
        obtain ⟨s', ex, h1, h2, h3, h4, h5, h6, h7, h8⟩ := ih s
        exact ⟨s', ex, by rw [runRows_cons_go hrun (by simp)]; exact h1, h2, by simp; omega, fun h => (hL0 h).elim,
          fun h => (hL0 h).elim, by simp, h7, h8⟩

/-- what a query (query.go:155-280) returns for offsets and limits of any size, given the rows that it scans; `none` is a panic -/
def Spec.anyPage (srt : (T → T → Bool) → List T → List T) (q : Query T) (rows : List T) : Option (List T) :=
  let o := q.offset.toNat
  let n := q.limit.toNat
  if q.less.isSome then
    if 2 ^ 63 ≤ o ∨ 2 ^ 63 ≤ n then none else some (page o n (ordered srt q rows))
  else if q.filter.isSome then
    if 2 ^ 63 ≤ o ∨ (2 ^ 63 ≤ n ∧ rows = []) then none
    else if 2 ^ 64 ≤ o + n then some [] else some (page o n (rows.filter (accepts q)))
  else
    if (2 ^ 63 ≤ o ∧ rows = []) ∨ (2 ^ 63 ≤ n ∧ rows.length ≤ o) then none
    else some (page o (if 2 ^ 64 ≤ o + n then 1 else n) rows)

/-- a panic or the rows as `Execute` returns them (query.go:131-148) -/
def Spec.asResult {α : Type} : Option α → Except Err α
  | none => .error .panic
  | some r => .ok r

theorem slice_panicO {α : Type} {q : Query T} {l : List α} (hl : l.length < 2 ^ 63) (la : Bool) (h : 2 ^ 63 ≤ q.offset.toNat) :
    q.slice false la l = .error .panic := by
  unfold Query.slice
  rw [if_pos (show q.offset > 0 ∧ false = false from ⟨pos_toNat.2 (by omega), rfl⟩), applyOffset_big h hl]

/-- the offset part of `slice` -/
theorem slice_drop {α : Type} {q : Query T} {l : List α} {oa : Bool} (h : oa = true ∨ q.offset.toNat < 2 ^ 63) :
    (if q.offset > 0 ∧ oa = false then applyOffset q.offset l else some l) = some (if oa then l else l.drop q.offset.toNat) := by
  cases oa with
  | true => simp
  | false =>
    have h' : q.offset.toNat < 2 ^ 63 := by rcases h with h | h; · simp at h
                                            · exact h
    by_cases hz : q.offset > 0
    · rw [if_pos ⟨hz, rfl⟩, applyOffset_eq h']; rfl
    · rw [if_neg (fun h => hz h.1)]
      rw [pos_toNat] at hz
      rw [show q.offset.toNat = 0 by omega]; simp

theorem slice_panicL {α : Type} {q : Query T} {l : List α} (hl : l.length < 2 ^ 63) {oa : Bool} (h : oa = true ∨ q.offset.toNat < 2 ^ 63)
    (h2 : 2 ^ 63 ≤ q.limit.toNat) : q.slice oa false l = .error .panic := by
  unfold Query.slice
  rw [slice_drop h]
  simp only
  rw [if_pos (show q.limit > 0 ∧ True from ⟨pos_toNat.2 (by omega), trivial⟩), applyLimit_big h2]
  cases oa with
  | true => exact hl
  | false => simp only [Bool.false_eq_true, if_false, List.length_drop]; omega

theorem slice_fine {α : Type} {q : Query T} {l : List α} {oa la : Bool} (h : oa = true ∨ q.offset.toNat < 2 ^ 63)
    (h2 : la = true ∨ q.limit.toNat < 2 ^ 63) :
    q.slice oa la l = .ok (if q.limit.toNat = 0 ∨ la = true then (if oa then l else l.drop q.offset.toNat)
      else (if oa then l else l.drop q.offset.toNat).take q.limit.toNat) := by
  unfold Query.slice
  rw [slice_drop h]
  simp only
  generalize (if oa = true then l else l.drop q.offset.toNat) = l'
  cases la with
  | true => simp
  | false =>
    have h' : q.limit.toNat < 2 ^ 63 := by rcases h2 with h | h; · simp at h
                                           · exact h
    by_cases hz : q.limit > 0
    · rw [if_pos ⟨hz, rfl⟩, applyLimit_eq h']
      rw [pos_toNat] at hz
      rw [if_neg (show ¬ (q.limit.toNat = 0 ∨ false = true) by simp; omega)]
    · rw [if_neg (fun h => hz h.1)]
      rw [pos_toNat] at hz
      rw [if_pos (show q.limit.toNat = 0 ∨ false = true from Or.inl (by omega))]

/-- a query over rows that need no After handling, for offsets and limits of any size -/
theorem finish_any {t : Table T F} (srt : (T → T → Bool) → List T → List T) {q : Query T}
    (hsrt : ∀ less l, (srt less l).length = l.length) (sk aa : Bool) (haft : q.after = none ∨ aa = true) (rows : List (Bytes × T)) (hlen : rows.length < 2 ^ 63) :
    ∃ s', runRows (fun s _ => q.body s) rows { skippedFirstRow := sk, afterApplied := aa } = ⟨s', none⟩ ∧
      q.finish t srt s' = asResult (anyPage srt q (rows.map Prod.snd)) := by
  have hskip : ∀ (l : List T), q.skipAfter t aa l = l := by
    intro l
    unfold Query.skipAfter
    rcases haft with h | h
    · rw [h]
    · split
      · rw [h]; rfl
      · rfl
  cases hl : q.less with
  | some less =>
    obtain ⟨s', h1, h2, h3, h8, h5⟩ := runBody_order (q := q) (by rw [hl]; simp) rows { skippedFirstRow := sk, afterApplied := aa }
    refine ⟨s', h1, ?_⟩
    unfold Query.finish
    rw [show s'.afterApplied = aa from h8, hskip, h3, h5, h2]
    have hso : q.sortRecords srt ((({ skippedFirstRow := sk, afterApplied := aa } : QSt T).records) ++ (rows.map Prod.snd).filter (accepts q)) = ordered srt q (rows.map Prod.snd) := by
      simp [Query.sortRecords, ordered, hl]
    have hll : (ordered srt q (rows.map Prod.snd)).length < 2 ^ 63 := by
      simp only [ordered, hl]
      rw [hsrt]
      have := List.length_filter_le (accepts q) (rows.map Prod.snd)
      rw [List.length_map] at this
      omega
    rw [hso]
    unfold anyPage
    simp only [hl, Option.isSome_some, if_true]
    show q.slice false false _ = _
    generalize ordered srt q (rows.map Prod.snd) = l at hll
    by_cases hbo : 2 ^ 63 ≤ q.offset.toNat
    · rw [slice_panicO hll _ hbo]
      rw [if_pos (Or.inl hbo)]; rfl
    · by_cases hbl : 2 ^ 63 ≤ q.limit.toNat
      · rw [slice_panicL hll (Or.inr (Nat.lt_of_not_le hbo)) hbl]
        rw [if_pos (Or.inr hbl)]; rfl
      · rw [slice_fine (Or.inr (Nat.lt_of_not_le hbo)) (Or.inr (Nat.lt_of_not_le hbl))]
        rw [if_neg (show ¬ (2 ^ 63 ≤ q.offset.toNat ∨ 2 ^ 63 ≤ q.limit.toNat) from fun h => h.elim hbo hbl)]
        simp [asResult, page]
  | none =>
    have hsort : ∀ l, q.sortRecords srt l = l := by intro l; simp [Query.sortRecords, hl]
    cases hf : q.filter with
    | some f =>
      obtain ⟨s', ex, h1, h2, h3, h4, h5, h6, h7, h8⟩ := runBody_few (q := q) (by rw [hf]; simp) hl rows { skippedFirstRow := sk, afterApplied := aa }
      refine ⟨s', h1, ?_⟩
      unfold Query.finish
      have h2' : s'.records = ex := h2
      have h7' : s'.offsetApplied = false := h7
      have hex : ex.length < 2 ^ 63 := by omega
      rw [show s'.afterApplied = aa from h8, hskip, hsort, h2', h7']
      unfold anyPage
      simp only [hl, hf, Option.isSome_none, Option.isSome_some, Bool.false_eq_true, if_false, if_true]
      by_cases hbo : 2 ^ 63 ≤ q.offset.toNat
      · rw [slice_panicO hex _ hbo, if_pos (Or.inl hbo)]; rfl
      · have hso := Nat.lt_of_not_le hbo
        by_cases hbl : 2 ^ 63 ≤ q.limit.toNat ∧ rows.map Prod.snd = []
        · have hr : rows = [] := List.map_eq_nil_iff.1 hbl.2
          rw [if_pos (Or.inr hbl), h6 hr]
          exact slice_panicL hex (Or.inr hso) hbl.1
        · rw [if_neg (show ¬ (2 ^ 63 ≤ q.offset.toNat ∨ (2 ^ 63 ≤ q.limit.toNat ∧ rows.map Prod.snd = [])) from fun h => h.elim hbo hbl)]
          have hla : s'.limitApplied = true ∨ q.limit.toNat < 2 ^ 63 := by
            by_cases h : 2 ^ 63 ≤ q.limit.toNat
            · exact Or.inl (h5 (by omega) (fun hr => hbl ⟨h, by rw [hr]; rfl⟩))
            · exact Or.inr (by omega)
          rw [slice_fine (Or.inr hso) hla]
          simp only [Bool.false_eq_true, if_false]
          by_cases hw : 2 ^ 64 ≤ q.offset.toNat + q.limit.toNat
          · rw [if_pos hw]
            have := h4 (by omega)
            have hlt := q.limit.toNat_lt
            have hsum : (q.offset + q.limit).toNat = q.offset.toNat + q.limit.toNat - 2 ^ 64 := by
              rw [UInt64.toNat_add]; omega
            have c0 : ({ skippedFirstRow := sk, afterApplied := aa } : QSt T).count = 0 := rfl
            rw [hsum, c0] at this
            rw [List.drop_eq_nil_of_le (by omega)]
            simp [asResult]
          · rw [if_neg hw]
            obtain ⟨s2, g1, g2, _, _⟩ := runBody_filter (q := q) (by rw [hf]; simp) hl (by omega) rows { skippedFirstRow := sk, afterApplied := aa } (fun h => by simp only; omega)
            have hss : s2 = s' := by rw [h1] at g1; simpa using g1.symm
            rw [hss, h2'] at g2
            have g2' : ex = if q.limit.toNat = 0 then (rows.map Prod.snd).filter (accepts q)
              else ((rows.map Prod.snd).filter (accepts q)).take (q.offset.toNat + q.limit.toNat) := by simpa using g2
            show Except.ok _ = Except.ok _
            congr 1
            unfold page
            rw [g2']
            by_cases hz : q.limit.toNat = 0
            · simp [hz]
            · simp only [hz, if_false, false_or]
              rw [List.drop_take, show q.offset.toNat + q.limit.toNat - q.offset.toNat = q.limit.toNat by omega, List.take_take]
              simp
    | none =>
      have ht : rows = rows.take q.offset.toNat ++ rows.drop q.offset.toNat := (List.take_append_drop _ _).symm
      obtain ⟨s1, k1, k2, k3, k4, k5, k6⟩ := runBody_skips (q := q) hf hl (rows.take q.offset.toNat) (rows.drop q.offset.toNat) { skippedFirstRow := sk, afterApplied := aa }
        (by rw [List.length_take]; simp only; omega)
      rw [← ht] at k1
      have k2' : s1.records = [] := k2
      have k5' : s1.limitApplied = false := k5
      have k3' : s1.count = min q.offset.toNat rows.length := by rw [k3, List.length_take]; simp
      have k4n : rows = [] → s1.offsetApplied = false := by
        intro h; rw [k4, h]; simp
      have k4' : rows ≠ [] → s1.offsetApplied = true ∨ q.offset.toNat = 0 := by
        intro hr
        rw [k4]
        by_cases h0 : q.offset.toNat = 0
        · exact Or.inr h0
        · left
          cases rows with
          | nil => exact (hr rfl).elim
          | cons r rs =>
            obtain ⟨n, hn⟩ := Nat.exists_eq_succ_of_ne_zero h0
            rw [hn]; simp
      have k6' : s1.afterApplied = aa := k6
      have hfin : ∀ s' : QSt T, s'.afterApplied = aa → q.finish t srt s' = q.slice s'.offsetApplied s'.limitApplied s'.records := by
        intro s' h; unfold Query.finish; rw [h, hskip, hsort]
      unfold anyPage
      simp only [hl, hf, Option.isSome_none, Bool.false_eq_true, if_false, List.length_map]
      by_cases hend : rows.length ≤ q.offset.toNat
      · rw [List.drop_eq_nil_of_le hend] at k1
        refine ⟨s1, k1, ?_⟩
        rw [hfin s1 k6', k2', k5']
        have hpage : ∀ n, page q.offset.toNat n (rows.map Prod.snd) = [] := by
          intro n; unfold page; rw [List.drop_eq_nil_of_le (by rw [List.length_map]; exact hend)]; simp
        rw [hpage]
        by_cases hbo : 2 ^ 63 ≤ q.offset.toNat ∧ rows = []
        · rw [if_pos (Or.inl ⟨hbo.1, by rw [hbo.2]; rfl⟩), k4n hbo.2]
          exact slice_panicO (by simp) _ hbo.1
        · have hoa : s1.offsetApplied = true ∨ q.offset.toNat < 2 ^ 63 := by
            by_cases hr : rows = []
            · exact Or.inr (Nat.lt_of_not_le fun h => hbo ⟨h, hr⟩)
            · rcases k4' hr with h | h
              · exact Or.inl h
              · exact Or.inr (by omega)
          by_cases hbl : 2 ^ 63 ≤ q.limit.toNat
          · rw [if_pos (Or.inr ⟨hbl, hend⟩)]
            exact slice_panicL (by simp) hoa hbl
          · rw [if_neg (show ¬ ((2 ^ 63 ≤ q.offset.toNat ∧ rows.map Prod.snd = []) ∨ (2 ^ 63 ≤ q.limit.toNat ∧ rows.length ≤ q.offset.toNat))
              from fun h => h.elim (fun h => hbo ⟨h.1, List.map_eq_nil_iff.1 h.2⟩) (fun h => hbl h.1))]
            rw [slice_fine hoa (Or.inr (Nat.lt_of_not_le hbl))]
            simp [asResult]
      · have hr : rows ≠ [] := by intro h; rw [h] at hend; simp at hend
        have hd : rows.drop q.offset.toNat ≠ [] := by
          intro h; rw [List.drop_eq_nil_iff] at h; exact hend h
        have hoz := k4' hr
        have hoa : s1.offsetApplied = true ∨ q.offset.toNat < 2 ^ 63 := Or.inr (by omega)
        rw [if_neg (show ¬ ((2 ^ 63 ≤ q.offset.toNat ∧ rows.map Prod.snd = []) ∨ (2 ^ 63 ≤ q.limit.toNat ∧ rows.length ≤ q.offset.toNat))
              from fun h => h.elim (fun h => hr (List.map_eq_nil_iff.1 h.2)) (fun h => hend h.2))]
        have hc : s1.count = q.offset.toNat := by rw [k3']; omega
        have hsame : ∀ l : List T, (if s1.offsetApplied then l else l.drop q.offset.toNat) = l := by
          intro l
          rcases hoz with h | h
          · rw [h]; rfl
          · rw [h]; simp
        by_cases hz : q.limit.toNat = 0
        · obtain ⟨s', g1, g2, g3, g5⟩ := runBody_takesAll (q := q) hf hl hz (rows.drop q.offset.toNat) s1 (by omega)
          have g2' : s'.records = (rows.map Prod.snd).drop q.offset.toNat := by rw [g2, k2']; simp
          refine ⟨s', k1.trans g1, ?_⟩
          rw [hfin s' (g5.trans k6'), g3, slice_fine hoa (Or.inr (by omega)), hsame]
          rw [if_pos (Or.inl hz), if_neg (show ¬ 2 ^ 64 ≤ q.offset.toNat + q.limit.toNat by have := q.offset.toNat_lt; omega), hz, g2']
          rfl
        · obtain ⟨s', g1, g2, g3, g4, g5⟩ := runBody_takes (q := q) hf hl (by omega) (rows.drop q.offset.toNat) hd s1 (by omega)
          have hn : max 1 ((q.offset + q.limit).toNat - s1.count) = if 2 ^ 64 ≤ q.offset.toNat + q.limit.toNat then 1 else q.limit.toNat := by
            have := q.limit.toNat_lt
            have := q.offset.toNat_lt
            rw [hc, UInt64.toNat_add]
            split <;> omega
          have g2' : s'.records = ((rows.map Prod.snd).drop q.offset.toNat).take
              (if 2 ^ 64 ≤ q.offset.toNat + q.limit.toNat then 1 else q.limit.toNat) := by rw [g2, k2', hn]; simp
          refine ⟨s', k1.trans g1, ?_⟩
          rw [hfin s' (g5.trans k6'), g3, g4, slice_fine hoa (Or.inl rfl), hsame]
          rw [if_pos (Or.inr rfl), g2']
          show Except.ok _ = Except.ok _
          congr 1
          have hnz : (if 2 ^ 64 ≤ q.offset.toNat + q.limit.toNat then 1 else q.limit.toNat) ≠ 0 := by split <;> omega
          generalize (if 2 ^ 64 ≤ q.offset.toNat + q.limit.toNat then 1 else q.limit.toNat) = n at hnz
          unfold page
          rw [if_neg hnz]

/-- `Execute` for offsets and limits of any size -/
theorem query_any {t : Table T F} {env : Env T} {filt : F} {db : KV} {ob : Option Batch} {m : Rows T}
    (S : Setting t env filt db ob m) (srt : (T → T → Bool) → List T → List T) (hsrt : ∀ less l, (srt less l).length = l.length)
    {q : Query T} (hint : q.intersects = [])
    (hi : IsIndex t q.index) (hs : q.sel.OK q.index) (haft : q.after = none) {rows : List T}
    (hy : Yields t env filt db ob q.index q.sel q.reverse rows) (hlen : rows.length < 2 ^ 63) :
    ∃ N, ∀ fuel, N ≤ fuel → q.execute t env srt filt db ob fuel = some (asResult (anyPage srt q rows)) := by
  obtain ⟨parts, _, h2, h3⟩ := S.parts hi hs
  have hrows : rows = dir q.reverse parts.flatten := hy.unique (h2 q.reverse)
  obtain ⟨N, hN⟩ := h3 q.reverse (q.callback t) q.fetching (Or.inr (callback_fetches q))
  refine ⟨N, fun fuel hf => ?_⟩
  unfold Query.execute Query.executeQuery
  rw [hint, if_pos (by rfl), haft]
  simp only
  rw [hN fuel hf {}, runCallback_body _ _ (Or.inl (by rw [haft]; rfl))]
  obtain ⟨s', g1, g2⟩ := finish_any (t := t) srt hsrt false false (Or.inl haft) (seen t q.index (dir q.reverse parts.flatten))
    (by rw [← hrows]; simpa [seen] using hlen)
  rw [g1]
  simp only
  rw [g2, seen_snd, hrows]

/-- `Execute` with After and without Order for offsets and limits of any size, in terms of the rows of the changed selector -/
theorem query_any_after {t : Table T F} {env : Env T} {filt : F} {db : KV} {ob : Option Batch} {m : Rows T}
    (S : Setting t env filt db ob m) (srt : (T → T → Bool) → List T → List T) (hsrt : ∀ less l, (srt less l).length = l.length)
    {q : Query T} (hint : q.intersects = [])
    (hi : IsIndex t q.index) {a : T} (haft : q.after = some a) (hl : q.less = none) {sel : Selector T}
    (hsel : q.selectorWithAfter t a = some sel) (hs : sel.OK q.index) {rows : List T}
    (hy : Yields t env filt db ob q.index sel q.reverse rows) (hlen : rows.length < 2 ^ 63) :
    ∃ N, ∀ fuel, N ≤ fuel → q.execute t env srt filt db ob fuel = some (asResult (anyPage srt q (skipHead t q.index a rows))) := by
  obtain ⟨parts, _, h2, h3⟩ := S.parts hi hs
  have hrows : rows = dir q.reverse parts.flatten := hy.unique (h2 q.reverse)
  obtain ⟨N, hN⟩ := h3 q.reverse (q.callback t) q.fetching (Or.inr (callback_fetches q))
  refine ⟨N, fun fuel hf => ?_⟩
  unfold Query.execute Query.executeQuery
  rw [hint, if_pos (by rfl), haft]
  simp only [hl, Option.isNone_none, if_true, hsel]
  rw [hN fuel hf {}, ← hrows]
  cases rows with
  | nil =>
    simp only [seen, List.map_nil, runRows, skipHead]
    have h0 : q.finish t srt {} = q.finish t srt { skippedFirstRow := true, afterApplied := true } := by
      unfold Query.finish
      congr 1
      simp [Query.skipAfter, haft, Query.sortRecords, hl, dropAfter]
    obtain ⟨s', g1, g2⟩ := finish_any (t := t) srt hsrt (q := q) true true (Or.inr rfl) [] (by simp)
    have : s' = { skippedFirstRow := true, afterApplied := true } := by
      simp only [runRows] at g1; simpa using g1.symm
    rw [this] at g2
    rw [h0, g2]; rfl
  | cons x xs =>
    have hfirst : ∀ c, c = q.callback t {} (t.indexKey q.index x) →
        (t.indexKey q.index x = t.indexKey q.index a → c = .ret { skippedFirstRow := true, afterApplied := true } true none) ∧
        (t.indexKey q.index x ≠ t.indexKey q.index a → c = q.body { skippedFirstRow := true, afterApplied := true }) := by
      rintro c rfl
      unfold Query.callback
      rw [haft]
      simp only [hl, Option.isNone_none, and_self, if_true, keyDecode_indexKey S.wf hi]
      constructor
      · intro hk
        have := encodeIndexKey_inj (hi.klen S.wf x) (hi.olen S.wf x) (hi.klen S.wf a) (hi.olen S.wf a) hk
        rw [if_pos ⟨this.2.2.1.symm, this.2.2.2.1.symm, this.2.2.2.2.symm⟩]
      · intro hk
        rw [if_neg]
        rintro ⟨h1, h2, h3⟩
        apply hk
        unfold Table.indexKey
        rw [h1, h2, h3]
    obtain ⟨f1, f2⟩ := hfirst _ rfl
    rw [List.length_cons] at hlen
    simp only [seen, List.map_cons, skipHead]
    by_cases hk : t.indexKey q.index x = t.indexKey q.index a
    · rw [if_pos hk, runRows_cons_go (f := q.callback t) (s' := { skippedFirstRow := true, afterApplied := true }) (cont := true) (err := none)
        (by rw [f1 hk]; rfl) (by simp), runCallback_body _ _ (Or.inr (Or.inr rfl))]
      obtain ⟨s', g1, g2⟩ := finish_any (t := t) srt hsrt (q := q) true true (Or.inr rfl) (seen t q.index xs)
        (by simp [seen]; omega)
      unfold seen at g1
      rw [g1]
      simp only
      rw [g2, seen_snd]
    · rw [if_neg hk]
      have he : runRows (q.callback t) ((t.indexKey q.index x, x) :: xs.map (fun x => (t.indexKey q.index x, x))) {} =
          runRows (q.callback t) ((t.indexKey q.index x, x) :: xs.map (fun x => (t.indexKey q.index x, x))) { skippedFirstRow := true, afterApplied := true } := by
        rw [runRows, runRows, f2 hk, callback_body (t := t) _ (Or.inr (Or.inr rfl))]
      rw [he, runCallback_body _ _ (Or.inr (Or.inr rfl))]
      obtain ⟨s', g1, g2⟩ := finish_any (t := t) srt hsrt (q := q) true true (Or.inr rfl) (seen t q.index (x :: xs))
        (by simp [seen]; omega)
      unfold seen at g1
      simp only [List.map_cons] at g1
      rw [g1]
      simp only
      rw [g2, seen_snd]

end Bond
