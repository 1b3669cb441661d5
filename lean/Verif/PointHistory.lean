import Verif.PointLemmas
import Verif.HistoryLemmas
/-
Histories in which the point reads of a table are exact, whatever happens to its indexes.
-/
namespace Bond
open Spec
variable {T F : Type}

/-- Histories of calls without batch on table `t` (table.go:316-947): the calls that succeeded (oldest first), the database and the
filter state now. Failing calls, and changes by others that leave the table's data entries alone, may happen at any time. -/
inductive PointHistory (t : Table T F) : List (WCall T) → KV → F → Prop
  | start {db : KV} (f : F) (h : ∀ pk, db.get (dataKey t.id pk) = none) : PointHistory t [] db f
  | succeeded {cs : List (WCall T)} {db : KV} {f : F} (h : PointHistory t cs db f) (env : Env T) (ok : env.OK t) (c : WCall T)
      (hg : PointCall t env db c) (he : (t.run env db f none c).err = none) :
      PointHistory t (cs ++ [c]) (t.run env db f none c).db (t.run env db f none c).filt
  | failed {cs : List (WCall T)} {db : KV} {f : F} (h : PointHistory t cs db f) (env : Env T) (ok : env.OK t) (c : WCall T)
      (he : (t.run env db f none c).err ≠ none) :
      PointHistory t cs (t.run env db f none c).db (t.run env db f none c).filt
  | others {cs : List (WCall T)} {db db' : KV} {f : F} (h : PointHistory t cs db f)
      (hs : ∀ pk, db'.get (dataKey t.id pk) = db.get (dataKey t.id pk)) : PointHistory t cs db' f

theorem pointHistory_holds {t : Table T F} (wf : t.WF) (rt : t.RoundTrip) (fs : t.FilterSound) {cs : List (WCall T)} {db : KV} {f : F}
    (h : PointHistory t cs db f) : DataHolds t db (content t.pk cs) ∧ CovKV t f db := by
  induction h with
  | start f h =>
    exact ⟨⟨by intro pk x hx; simp [content] at hx, fun pk _ => h pk, by intro pk x hx; simp [content] at hx⟩,
      fun fl _ pk hg => by rw [h pk] at hg; cases hg⟩
  | others h hs ih => exact ⟨ih.1.congr hs, fun fl hfl pk hg => ih.2 fl hfl pk (by rw [← hs pk]; exact hg)⟩
  | @failed cs db f h env ok c he ih =>
    have hdb : (t.run env db f none c).db = db := ((C13 t env db f c).1 he).1
    rw [hdb]
    exact ⟨ih.1, run_filt_keep ok db none c (P := fun f => CovKV t f db) (fun f k hc => hc.mono (filtLe_add fs f k)) ih.2⟩
  | @succeeded cs db f h env ok c hg he ih =>
    have := run_points wf rt fs ok ih.1 ih.2 hg he
    unfold content at *
    rw [List.foldl_append]
    exact this

theorem getPoint_points {t : Table T F} (rt : t.RoundTripFresh) {f : F} {m : Rows T} {db V : KV} {ob : Option Batch}
    (hr : readable db ob = some V) (hH : DataHolds t V m) (hF : FilterCovers t f m) (x : T) :
    t.getPoint f db ob x = (match m (t.pk x) with | some y => .ok y | none => .error .notFound) := by
  unfold Table.getPoint Table.getOne
  rw [hr]
  unfold Table.key
  cases hm : m (t.pk x) with
  | none =>
    simp only [hH.absent _ hm]
    cases t.mayContain f (dataKey t.id (t.pk x)) <;> rfl
  | some y =>
    obtain ⟨b, hb, hg⟩ := hH.present _ _ hm
    simp [mayContain_of_covers hF hm, hg, rt y b hb]

theorem exist_points {t : Table T F} {f : F} {m : Rows T} {db V : KV} {ob : Option Batch}
    (hr : readable db ob = some V) (hH : DataHolds t V m) (hF : FilterCovers t f m) (x : T) :
    t.exist f db ob x = (m (t.pk x)).isSome := by
  unfold Table.exist
  rw [hr]
  unfold Table.key
  cases hm : m (t.pk x) with
  | none =>
    simp only [hH.absent _ hm]
    cases t.mayContain f (dataKey t.id (t.pk x)) <;> rfl
  | some y =>
    obtain ⟨b, hb, hg⟩ := hH.present _ _ hm
    simp [mayContain_of_covers hF hm, hg]

end Bond
