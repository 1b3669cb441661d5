import Verif.Spec.History
import Verif.ReadLemmas
import Verif.Props.Writes
/-
Every successful good call, with or without a read-write batch, has its specified effect.
-/
namespace Bond
open Spec
variable {T F : Type}

/-- `GoodCall`, and the outcome of a call that repeats keys does not depend on the sort -/
def GoodRun (t : Table T F) (env : Env T) (V : KV) (c : WCall T) : Prop :=
  GoodCall t V c ∧ ∀ trs, c = .update trs → (trs.map t.pk).Nodup ∨ env.Stable

/-- no batch, or a read-write batch -/
def Readable (ob : Option Batch) : Prop := ∀ b, ob = some b → b.indexed = true

theorem readable_eq {db : KV} {ob : Option Batch} (h : Readable ob) : readable db ob = some (baseView db ob) := by
  cases ob with
  | none => rfl
  | some b => simp [readable, baseView, h b rfl]

theorem run_batch_indexed (t : Table T F) (env : Env T) (db : KV) (f : F) {ob : Option Batch} (c : WCall T) (h : Readable ob) :
    Readable (t.run env db f ob c).batch := by
  rw [Table.run_eq]
  split
  · exact h
  · unfold finish
    cases ob with
    | none =>
      intro b hb
      simp only at hb
      split at hb
      · simp at hb
      · split at hb
        · simp at hb
        · split at hb <;> simp at hb
    | some b =>
      intro b' hb'
      simp only [Option.some.injEq] at hb'
      subst hb'
      exact h b rfl

theorem callReads_of {t : Table T F} {db : KV} {ob : Option Batch} {bs : Nat} {trs : List T} (h : Readable ob)
    (hn : (trs.map t.pk).Nodup ∨ trs.length ≤ bs) : CallReads t db ob bs trs := by
  cases ob with
  | none => exact callReads_none hn
  | some b => exact Or.inl ⟨b, rfl, h b rfl⟩

theorem run_effect {t : Table T F} (wf : t.WF) (rt : t.RoundTrip) (fs : t.FilterSound) {env : Env T} (ok : env.OK t)
    {db : KV} {f : F} {ob : Option Batch} {m : Rows T} {c : WCall T} (hb : Readable ob)
    (hH : Holds t (baseView db ob) m) (hF : FilterCovers t f m) (hg : GoodRun t env (baseView db ob) c)
    (he : (t.run env db f ob c).err = none) :
    Holds t (t.run env db f ob c).view (effect t.pk m c) ∧
    SameOutside t (baseView db ob) (t.run env db f ob c).view ∧
    FilterCovers t (t.run env db f ob c).filt (effect t.pk m c) := by
  have rtf : t.RoundTripFresh := fun x b hb => rt x b hb _
  obtain ⟨hc, hst⟩ := hg
  cases c with
  | insert trs =>
    obtain ⟨a, b, c, _⟩ := insert_view wf ok fs (by decide : 0 < persistentBatchSize) hH hF (callReads_of hb hc) he
    exact ⟨a, b, c⟩
  | update trs =>
    obtain ⟨a, b, c, _⟩ := update_view wf ok rt (by decide : 0 < persistentBatchSize) hH hF (callReads_of hb hc) he
    have : m.putAll t.pk (visited t env (batched trs persistentBatchSize)) = m.putAll t.pk trs := by
      rcases hst trs rfl with h | h
      · exact putAll_visited_nodup ok (by decide) m h
      · exact putAll_visited_stable ok h (by decide) m trs
    rw [this] at a c
    exact ⟨a, b, c⟩
  | upsert oc trs =>
    exact upsert_view wf ok rt fs (by decide : 0 < persistentBatchSize) hc.2 hc.1 hH hF (callReads_of hb (Or.inl hc.1)) he
  | delete trs =>
    exact delete_view wf ok hH hF (trs := trs) (fun x hx old ho => hc x hx old (by rw [storedRow_eq rtf hH]; exact ho)) he
  | unsafeInsert trs =>
    exact unsafeInsert_view wf ok fs (by decide : 0 < persistentBatchSize) hH hF hc.1
      (fun x hx => by rw [← storedRow_eq rtf hH]; exact hc.2 x hx) he
  | unsafeUpdate trs olds =>
    have hlen : trs.length = olds.length := by
      apply Classical.byContradiction
      intro hne
      rw [Table.run_eq] at he
      simp [WCall.mismatch, hne] at he
    obtain ⟨h1, h2⟩ := hc hlen
    exact unsafeUpdate_view wf ok hH hF (truthful_of _ m
      (fun p hp => by rw [← storedRow_eq rtf hH]; exact h2 p hp) (by rw [List.map_fst_zip (by omega)]; exact h1)) he

theorem run_filt_covers {t : Table T F} (fs : t.FilterSound) {env : Env T} (ok : env.OK t) (db : KV) {f : F} (ob : Option Batch)
    {m : Rows T} (c : WCall T) (hF : FilterCovers t f m) : FilterCovers t (t.run env db f ob c).filt m := by
  rw [Table.run_eq]
  split
  · exact hF
  · rw [finish_filt]
    exact (Table.body_step ok db ob (t.start f) c).filt fs m hF

theorem run_filt_keep {t : Table T F} {env : Env T} (ok : env.OK t) (db : KV) {f : F} (ob : Option Batch) (c : WCall T)
    {P : F → Prop} (hP : ∀ f k, P f → P (t.filterAdd f k)) (hf : P f) : P (t.run env db f ob c).filt := by
  rw [Table.run_eq]
  split
  · exact hf
  · rw [finish_filt]
    exact (Table.body_step ok db ob (t.start f) c).keep P hP hf

/-- Histories of calls without batch on table `t`: the calls that succeeded (oldest first), the database and the filter
state now. Failing calls and changes by others outside the table may happen at any time. -/
inductive History (t : Table T F) : List (WCall T) → KV → F → Prop
  | start {db : KV} (f : F) (h : ∀ k, ¬ Outside t k → db.get k = none) : History t [] db f
  | succeeded {cs : List (WCall T)} {db : KV} {f : F} (h : History t cs db f) (env : Env T) (ok : env.OK t) (c : WCall T)
      (hg : GoodRun t env db c) (he : (t.run env db f none c).err = none) :
      History t (cs ++ [c]) (t.run env db f none c).db (t.run env db f none c).filt
  | failed {cs : List (WCall T)} {db : KV} {f : F} (h : History t cs db f) (env : Env T) (ok : env.OK t) (c : WCall T)
      (he : (t.run env db f none c).err ≠ none) :
      History t cs (t.run env db f none c).db (t.run env db f none c).filt
  | others {cs : List (WCall T)} {db db' : KV} {f : F} (h : History t cs db f) (hs : SameInside t db db') : History t cs db' f

theorem history_holds {t : Table T F} (wf : t.WF) (rt : t.RoundTrip) (fs : t.FilterSound) {cs : List (WCall T)} {db : KV} {f : F}
    (h : History t cs db f) : Holds t db (content t.pk cs) ∧ FilterCovers t f (content t.pk cs) := by
  induction h with
  | start f h => exact ⟨holds_none h, by intro fl _ pk x hx; simp [content] at hx⟩
  | others h hs ih => exact ⟨ih.1.congr hs, ih.2⟩
  | @failed cs db f h env ok c he ih =>
    have hdb : (t.run env db f none c).db = db := ((C13 t env db f c).1 he).1
    rw [hdb]
    exact ⟨ih.1, run_filt_covers fs ok db none c ih.2⟩
  | @succeeded cs db f h env ok c hg he ih =>
    obtain ⟨a, _, b⟩ := run_effect wf rt fs ok (ob := none) (by intro b hb; simp at hb) ih.1 ih.2 hg he
    rw [run_view_nobatch] at a
    unfold content at *
    rw [List.foldl_append]
    exact ⟨a, b⟩

end Bond
