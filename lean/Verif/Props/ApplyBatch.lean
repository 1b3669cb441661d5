import Verif.Props.Batches
import Verif.Props.Crash
/-
C113: a batch applied to another batch.
-/
namespace Bond
open Spec
variable {T F : Type}

theorem holds_rows_unique {t : Table T F} (rt : t.RoundTrip) {db : KV} {m m' : Rows T} (h : Holds t db m) (h' : Holds t db m') : m = m' := by
  funext pk
  cases h1 : m pk with
  | none =>
    cases h2 : m' pk with
    | none => rfl
    | some y => obtain ⟨b, _, hb⟩ := h'.present pk y h2; rw [h.absent pk h1] at hb; exact absurd hb (by simp)
  | some x =>
    obtain ⟨b, hs, hb⟩ := h.present pk x h1
    cases h2 : m' pk with
    | none => rw [h'.absent pk h2] at hb; exact absurd hb (by simp)
    | some y =>
      obtain ⟨b', hs', hb'⟩ := h'.present pk y h2
      rw [hb] at hb'; simp only [Option.some.injEq] at hb'; subst hb'
      have e1 := rt x b hs x
      have e2 := rt y b hs' x
      rw [e1] at e2; exact e2

theorem isolated_commit {t : Table T F} {rw : Nat → Bool} {Q : Env T → KV → WCall T → Prop} (j : Nat) (l : List (BatchStep T)) :
    ∀ {w : BatchWorld T F}, Isolated t rw Q w l → Isolated t rw Q w (l ++ [.commit j true]) := by
  induction l with
  | nil => intro w _; exact ⟨trivial, trivial⟩
  | cons x l ih => intro w h; exact ⟨h.1, ih h.2⟩

/-- C113 for a batch and a batch it is applied to that have changed different rows (any calls on them and others before, in any order, while
other batches are open and direct calls are made): reads through the outer batch then show the committed rows with the effect of its own
calls and then of those on the inner one, and every index agrees with them; the commit of the outer batch makes this the content of the
table; the inner batch is as before.
Missing for the full C113: batches that have changed the same row, see `C113_refuted`. -/
theorem C113_partial {t : Table T F} (wf : t.WF) (rt : t.RoundTrip) (fs : t.FilterSound) {rw : Nat → Bool} (hrw : ∀ j, rw j = true)
    {db : KV} {f : F} {m : Rows T} (hH : Holds t db m) (hF : FilterCovers t f m) (l : List (BatchStep T))
    (hi : Isolated t rw (fun env V c => GoodRun t env V c) (BatchWorld.start db f) l)
    (hr : ∀ j rs, .commit j rs none ∈ (t.batchRun rw (BatchWorld.start db f) l).log → ∀ e ∈ rs, e = none)
    (i j : Nat) (hij : i ≠ j) (hgi : ∀ e ∈ ((t.batchRun rw (BatchWorld.start db f) l).bats i).res, e = none)
    (hgj : ∀ e ∈ ((t.batchRun rw (BatchWorld.start db f) l).bats j).res, e = none) :
    let w := t.batchRun rw (BatchWorld.start db f) l
    let w' := w.applyBatch j i
    let outer := (callsOf (w.bats j).done).foldl (effect t.pk) (contentB t.pk l w.log (fun _ => []) m)
    let seen := (callsOf (w.bats i).done).foldl (effect t.pk) outer
    Holds t (w.db.apply (w'.bats j).ops) seen ∧
    (∀ x, t.getPoint w'.filt w'.db (some ⟨rw j, (w'.bats j).ops⟩) x = (match seen (t.pk x) with | some y => .ok y | none => .error .notFound) ∧
      t.exist w'.filt w'.db (some ⟨rw j, (w'.bats j).ops⟩) x = (seen (t.pk x)).isSome) ∧
    Holds t (t.batchStep rw w' (.commit j true)).db seen ∧ w'.bats i = w.bats i := by
  have hi' : Isolated t rw (fun env V c => GoodRun t env V c) (BatchWorld.start db f) (l ++ [.commit j true]) :=
    isolated_commit j l hi
  have hrun : t.batchRun rw (BatchWorld.start db f) (l ++ [.commit j true]) =
      t.batchStep rw (t.batchRun rw (BatchWorld.start db f) l) (.commit j true) := by simp [Table.batchRun]
  have hjr := (C86_reads wf rt fs hrw hH hF l hi hr j hgj).1
  intro w w' outer seen
  have hw1 : (t.batchStep rw w (.commit j true)).db = w.db.apply (w.bats j).ops := by
    simp only [Table.batchStep, Batch.commit]
    by_cases he : (w.bats j).ops = []
    · simp [he, KV.apply]
    · simp [he]
  have hok : (Batch.commit true w.db ⟨rw j, (w.bats j).ops⟩).2 = none := by
    simp only [Batch.commit]
    by_cases he : (w.bats j).ops = []
    · simp [he]
    · simp [he]
  have hr' : ∀ j' rs, .commit j' rs none ∈ (t.batchRun rw (BatchWorld.start db f) (l ++ [.commit j true])).log → ∀ e ∈ rs, e = none := by
    intro j' rs hm
    rw [hrun] at hm
    simp only [Table.batchStep, List.mem_append, List.mem_singleton, Outcome.commit.injEq] at hm
    rcases hm with hm | ⟨_, rfl, _⟩
    · exact hr j' rs hm
    · exact hgj
  have hbi : (t.batchStep rw w (.commit j true)).bats i = w.bats i := by simp [Table.batchStep, setBat, hij]
  have hgi' : ∀ e ∈ ((t.batchRun rw (BatchWorld.start db f) (l ++ [.commit j true])).bats i).res, e = none := by
    rw [hrun, hbi]; exact hgi
  have hC := C86_content wf rt fs hrw hH hF _ hi' hr'
  have hR := (C86_reads wf rt fs hrw hH hF _ hi' hr' i hgi').1
  have hinv := (BInv.start (rw := rw) (Q := fun env V c => GoodRun t env V c) (covKV_of_holds hH hF)).run wf fs (localCond_good t) _ hi'
  have hcov := covKV_apply _ hinv.covW (hinv.covB i)
  rw [hrun] at hR hC hcov
  rw [hw1] at hC hR hcov
  rw [hbi] at hR hcov
  have heq := holds_rows_unique rt hC hjr
  rw [heq] at hR
  have hops : (w'.bats j).ops = (w.bats j).ops ++ (w.bats i).ops := by simp [w', BatchWorld.applyBatch, setBat]
  have hap : w.db.apply (w'.bats j).ops = (w.db.apply (w.bats j).ops).apply (w.bats i).ops := by rw [hops]; simp [KV.apply, List.foldl_append]
  have hHs : Holds t (w.db.apply (w'.bats j).ops) seen := by rw [hap]; exact hR
  have hcs : CovKV t w.filt (w.db.apply (w'.bats j).ops) := by rw [hap]; exact hcov
  have rtf : t.RoundTripFresh := fun x b hb => rt x b hb _
  have hv : readable w.db (some ⟨rw j, (w'.bats j).ops⟩) = some (w.db.apply (w'.bats j).ops) := by rw [hrw j]; rfl
  refine ⟨hHs, fun x => ⟨getPoint_eq rtf hv hHs (filterCovers_of_covKV hHs hcs) x, exist_eq hv hHs (filterCovers_of_covKV hHs hcs) x⟩, ?_, ?_⟩
  · have : (t.batchStep rw w' (.commit j true)).db = w.db.apply (w'.bats j).ops := by
      simp only [Table.batchStep, Batch.commit]
      by_cases he : (w'.bats j).ops = []
      · simp [he, KV.apply]; rfl
      · simp [he]; rfl
    rw [this]; exact hHs
  · simp [w', BatchWorld.applyBatch, setBat, hij]

/-- `C113_partial` at two batches that have changed different rows: batch 1 is applied to batch 0 -/
example := C113_partial exTable_wf exTable_rt exTable_fs (rw := fun _ => true) (fun _ => rfl) exDB_holds (covers_nofilter rfl _ _) (exBatchSteps.take 7)
  (isolated_append (show Isolated exTable _ _ _ (exBatchSteps.take 7 ++ exBatchSteps.drop 7) from exBatchSteps_isolated))
  (by
    intro j rs hm
    have hl : (exTable.batchRun (fun _ => true) (BatchWorld.start exDB ()) (exBatchSteps.take 7)).log = [.direct none, .direct (some .alreadyExist)] := by decide
    rw [hl] at hm
    simp at hm) 1 0 (by decide) (by decide) (by decide)

example : let w := (exTable.batchRun (fun _ => true) (BatchWorld.start exDB ()) (exBatchSteps.take 7)).applyBatch 0 1
    exTable.getPoint () w.db (some ⟨true, (w.bats 0).ops⟩) (4, 0) = .ok (4, 4) ∧
    exTable.getPoint () w.db (some ⟨true, (w.bats 0).ops⟩) (1, 0) = .ok (1, 7) := by decide

/-- C113 is false if both batches have changed the same row: all calls, Apply and the commit succeed, the row has the value 8 given to the
inner batch, and the index has an entry for 7 and one for 8. -/
theorem C113_refuted :
    let w := (exTable.batchRun (fun _ => true) (BatchWorld.start exDB ())
      [.call 0 (stdEnv exTable) (.update [(1, 7)]), .call 1 (stdEnv exTable) (.update [(1, 8)])])
    let e := exTable.batchStep (fun _ => true) (w.applyBatch 0 1) (.commit 0 true)
    e.log = [.commit 0 [none, none] none] ∧ e.db.get (exTable.key (1, 0)) = some [1, 8] ∧
    e.db.get (exTable.indexKey exIndex (1, 7)) = some [] ∧ e.db.get (exTable.indexKey exIndex (1, 8)) = some [] := by
  decide

end Bond
