import Verif.PointExact
/-
C21: what the point reads return after any history.
-/
namespace Bond
open Spec
variable {T F : Type}

/-- the records after the calls `cs`, oldest first -/
def Spec.exactContent (pk : T → Bytes) (cs : List (WCall T)) : Rows T := cs.foldl (exactEffect pk) (fun _ => none)

/-- Histories of calls without batch on table `t` (table.go:316-947), as `PointHistory`, but with any Upsert. -/
inductive ExactHistory (t : Table T F) : List (WCall T) → KV → F → Prop
  | start {db : KV} (f : F) (h : ∀ pk, db.get (dataKey t.id pk) = none) : ExactHistory t [] db f
  | succeeded {cs : List (WCall T)} {db : KV} {f : F} (h : ExactHistory t cs db f) (env : Env T) (ok : env.OK t) (c : WCall T)
      (hg : ExactCall t env db c) (he : (t.run env db f none c).err = none) :
      ExactHistory t (cs ++ [c]) (t.run env db f none c).db (t.run env db f none c).filt
  | failed {cs : List (WCall T)} {db : KV} {f : F} (h : ExactHistory t cs db f) (env : Env T) (ok : env.OK t) (c : WCall T)
      (he : (t.run env db f none c).err ≠ none) :
      ExactHistory t cs (t.run env db f none c).db (t.run env db f none c).filt
  | others {cs : List (WCall T)} {db db' : KV} {f : F} (h : ExactHistory t cs db f)
      (hs : ∀ pk, db'.get (dataKey t.id pk) = db.get (dataKey t.id pk)) : ExactHistory t cs db' f

theorem exactHistory_holds {t : Table T F} (wf : t.WF) (rt : t.RoundTrip) (fs : t.FilterSound) {cs : List (WCall T)} {db : KV} {f : F}
    (h : ExactHistory t cs db f) : DataIs t db (exactContent t.pk cs) ∧ CovKV t f db := by
  induction h with
  | start f h =>
    exact ⟨⟨fun pk _ => h pk, by intro pk x hx; simp [exactContent] at hx⟩,
      fun fl _ pk hg => by rw [h pk] at hg; cases hg⟩
  | others h hs ih => exact ⟨ih.1.congr hs, fun fl hfl pk hg => ih.2 fl hfl pk (by rw [← hs pk]; exact hg)⟩
  | @failed cs db f h env ok c he ih =>
    have hdb : (t.run env db f none c).db = db := ((C13 t env db f c).1 he).1
    rw [hdb]
    exact ⟨ih.1, run_filt_keep ok db none c (P := fun f => CovKV t f db) (fun f k hc => hc.mono (filtLe_add fs f k)) ih.2⟩
  | @succeeded cs db f h env ok c hg he ih =>
    have := run_is wf rt fs ok ih.1 ih.2 hg he
    unfold exactContent at *
    rw [List.foldl_append]
    exact this

theorem getPoint_is {t : Table T F} (rt : t.RoundTripFresh) {f : F} {m : Rows T} {db V : KV} {ob : Option Batch}
    (hr : readable db ob = some V) (hH : DataIs t V m) (hF : FilterCovers t f m) (x : T) :
    t.getPoint f db ob x = (match m (t.pk x) with | some y => .ok y | none => .error .notFound) := by
  unfold Table.getPoint Table.getOne
  rw [hr]
  unfold Table.key
  cases hm : m (t.pk x) with
  | none =>
    simp only [hH.absent _ hm]
    cases t.mayContain f (dataKey t.id (t.pk x)) <;> rfl
  | some y =>
    obtain ⟨b, hb, hg⟩ := hH.present _ _ hm
    simp [mayContain_of_covers hF hm, hg, rt y b hb]

theorem exist_is {t : Table T F} {f : F} {m : Rows T} {db V : KV} {ob : Option Batch}
    (hr : readable db ob = some V) (hH : DataIs t V m) (hF : FilterCovers t f m) (x : T) :
    t.exist f db ob x = (m (t.pk x)).isSome := by
  unfold Table.exist
  rw [hr]
  unfold Table.key
  cases hm : m (t.pk x) with
  | none =>
    simp only [hH.absent _ hm]
    cases t.mayContain f (dataKey t.id (t.pk x)) <;> rfl
  | some y =>
    obtain ⟨b, hb, hg⟩ := hH.present _ _ hm
    simp [mayContain_of_covers hF hm, hg]

/-- C21, exactly: after any history of calls without batch (Upserts with any rows in any order and any conflict function, also one that
changes the primary key, included), with failed calls and changes by others anywhere, GetPoint and Exist answer as `exactContent` says:
the history as specified, with the rows that Upsert really folds. Only UnsafeUpdate of rows that are not stored is excluded, on tables with
a filter. -/
theorem C21_exact {t : Table T F} (wf : t.WF) (rt : t.RoundTrip) (fs : t.FilterSound) {cs : List (WCall T)} {db : KV} {f : F}
    (h : ExactHistory t cs db f) (x : T) :
    t.getPoint f db none x = (match exactContent t.pk cs (t.pk x) with | some y => .ok y | none => .error .notFound) ∧
    t.exist f db none x = (exactContent t.pk cs (t.pk x)).isSome := by
  obtain ⟨hD, hC⟩ := exactHistory_holds wf rt fs h
  have hF := hD.covers hC
  exact ⟨getPoint_is (fun x b hb => rt x b hb _) rfl hD hF x, exist_is rfl hD hF x⟩

/-- a history with an Upsert out of order that repeats a key, and one whose conflict function changes the primary key -/
example : ∃ cs db f, ExactHistory exTable cs db f ∧ cs.length = 3 ∧ exTable.getPoint f db none (1, 0) = .ok (1, 2) ∧
    exTable.getPoint f db none (2, 0) = .ok (9, 1) := by
  refine ⟨_, _, _, ExactHistory.succeeded (ExactHistory.succeeded (ExactHistory.succeeded
    (ExactHistory.start (db := KV.empty) () (fun _ => rfl))
    (stdEnv exTable) (stdEnv_ok _) (.upsert ocNew [(2, 1), (1, 2), (1, 3)]) (stdEnv_stable exTable) (by decide))
    (stdEnv exTable) (stdEnv_ok _) (.upsert (fun o _ => ((9, o.2), o)) [(2, 7)]) (stdEnv_stable exTable) (by decide))
    (stdEnv exTable) (stdEnv_ok _) (.unsafeInsert [(4, 4)]) trivial (by decide),
    rfl, by decide, by decide⟩

end Bond
