import Verif.Props.Bounded
import Verif.Props.Batches
/-
C38: the filter while batches overlap.
-/
namespace Bond
open Spec
variable {T F : Type}

/-- the steps are calls of goroutines that keep to the documented use of UnsafeUpdate (its records are stored, as the batch sees it, when it is called) and
writes of others outside the table; nothing else is asked of calls, batches and their order -/
def Spec.ActsFit (t : Table T F) (rw : Nat → Bool) : BatchWorld T F → List (BatchAct T) → Prop
  | _, [] => True
  | w, a :: l =>
    (match a with
      | .inl (.call j env c) => env.OK t ∧ StoredOld t (w.db.apply (w.bats j).ops) c
      | .inl (.direct env c) => env.OK t ∧ StoredOld t w.db c
      | .inl (.put _ ops) => ∀ o ∈ ops, ∀ k, o.touches k → Outside t k
      | .inl (.others ops) => ∀ o ∈ ops, ∀ k, o.touches k → Outside t k
      | _ => True) ∧ ActsFit t rw (t.batchAct rw w a) l

/-- the same world with and without the filter (proof notion) -/
structure SameWorld (t : Table T F) (w w0 : BatchWorld T F) : Prop where
  db : w.db = w0.db
  bats : w.bats = w0.bats
  log : w.log = w0.log
  cov : CovKV t w.filt w.db
  ops : ∀ j, CovOps t w.filt (w.bats j).ops

theorem SameWorld.act {t : Table T F} (wf : t.WF) (fs : t.FilterSound) {rw : Nat → Bool} {w w0 : BatchWorld T F} (h : SameWorld t w w0)
    {a : BatchAct T} {l : List (BatchAct T)} (ha : ActsFit t rw w (a :: l)) : SameWorld t (t.batchAct rw w a) (t.noFilter.batchAct rw w0 a) := by
  replace ha := ha.1
  have hset : ∀ {f : F} (j : Nat) {b : OpenBatch T}, FiltLe t w.filt f → CovOps t f b.ops → ∀ i, CovOps t f (setBat w.bats j b i).ops := by
    intro f j b hl hb i
    unfold setBat
    split
    · exact hb
    · exact (h.ops i).mono hl
  have hnew : CovOps t w.filt (OpenBatch.new : OpenBatch T).ops := covOps_nil t _
  rcases a with (_ | _ | _ | _ | _ | _) | ⟨j, i⟩
  · rename_i j env c
    obtain ⟨_, hb, h1, h2, h3⟩ := run_onBatch (rw := rw j) wf fs ha.1 h.cov (h.ops j) ha.2
    have h3 := h3 w0.filt
    simp only [Table.batchAct, Table.batchStep]
    rw [← h.db, ← h.bats]
    refine ⟨rfl, ?_, h.log, h.cov.mono h2, hset j h2 h1⟩
    simp only [WOut.batchOps] at *
    rw [h3.2.1, h3.2.2.1]
  · rename_i j ops
    simp only [Table.batchAct, Table.batchStep]
    rw [← h.bats]
    exact ⟨h.db, rfl, h.log, h.cov, hset j (filtLe_refl t _) ((h.ops j).append (covOps_outside ha))⟩
  · rename_i env c
    obtain ⟨h1, h2, h3⟩ : CovKV t (t.run env w.db w.filt none c).filt (t.run env w.db w.filt none c).db ∧
        FiltLe t w.filt (t.run env w.db w.filt none c).filt ∧ SameOut (t.run env w.db w.filt none c) (t.noFilter.run env w.db w0.filt none c) := by
      obtain ⟨h1, h2, _, h3⟩ := run_direct wf fs ha.1 h.cov ha.2
      exact ⟨h1, h2, h3 _⟩
    simp only [Table.batchAct, Table.batchStep]
    rw [← h.db, ← h.log]
    exact ⟨h3.1, h.bats, by rw [h3.2.2.1], h1, fun j => (h.ops j).mono h2⟩
  · rename_i ops
    simp only [Table.batchAct, Table.batchStep]
    rw [← h.db]
    exact ⟨rfl, h.bats, h.log, covKV_apply _ h.cov (covOps_outside ha), h.ops⟩
  · rename_i j ok
    simp only [Table.batchAct, Table.batchStep, Batch.commit]
    rw [← h.db, ← h.bats, ← h.log]
    refine ⟨rfl, rfl, rfl, ?_, hset j (filtLe_refl t _) hnew⟩
    simp only
    split
    · exact h.cov
    · split
      · exact covKV_apply _ h.cov (h.ops j)
      · exact h.cov
  · rename_i j
    simp only [Table.batchAct, Table.batchStep]
    rw [← h.bats]
    exact ⟨h.db, rfl, h.log, h.cov, hset j (filtLe_refl t _) hnew⟩
  · simp only [Table.batchAct, BatchWorld.applyBatch]
    rw [← h.bats]
    exact ⟨h.db, rfl, h.log, h.cov, hset j (filtLe_refl t _) ((h.ops j).append (h.ops i))⟩

theorem SameWorld.run {t : Table T F} (wf : t.WF) (fs : t.FilterSound) {rw : Nat → Bool} (l : List (BatchAct T)) :
    ∀ {w w0 : BatchWorld T F}, SameWorld t w w0 → ActsFit t rw w l → SameWorld t (l.foldl (t.batchAct rw) w) (l.foldl (t.noFilter.batchAct rw) w0) := by
  induction l with
  | nil => intro w w0 h _; exact h
  | cons a l ih => intro w w0 h ha; exact ih (h.act wf fs ha) ha.2

/-- C38 while batches overlap: any number of batches of either kind and direct calls, on the same rows or not, in any order, failing or not, with
commits, failed commits, drops and Apply. If the filter knows the stored rows at the start, then at any moment the database, every open batch and
the results of all calls and commits are those of the table without filter, and so are Exist, GetPoint and Get of points, without a batch and
through every open batch. -/
theorem C38_overlap {t : Table T F} (wf : t.WF) (fs : t.FilterSound) (rw : Nat → Bool) {db : KV} {m : Rows T} (hH : Holds t db m) {f : F} (hF : FilterCovers t f m)
    (f0 : F) (l : List (BatchAct T)) (hl : ActsFit t rw (BatchWorld.start db f) l) :
    let w := l.foldl (t.batchAct rw) (BatchWorld.start db f)
    let w0 := l.foldl (t.noFilter.batchAct rw) (BatchWorld.start db f0)
    w.db = w0.db ∧ w.bats = w0.bats ∧ w.log = w0.log ∧
    (∀ env x pts, env.OK t → t.exist w.filt w.db none x = t.noFilter.exist w0.filt w0.db none x ∧
      t.getPoint w.filt w.db none x = t.noFilter.getPoint w0.filt w0.db none x ∧ t.getMany env w.filt w.db none pts = t.noFilter.getMany env w0.filt w0.db none pts) ∧
    ∀ j, rw j = true → ∀ env x pts, env.OK t → t.exist w.filt w.db (some ⟨rw j, (w.bats j).ops⟩) x = t.noFilter.exist w0.filt w0.db (some ⟨rw j, (w.bats j).ops⟩) x ∧
      t.getPoint w.filt w.db (some ⟨rw j, (w.bats j).ops⟩) x = t.noFilter.getPoint w0.filt w0.db (some ⟨rw j, (w.bats j).ops⟩) x ∧
      t.getMany env w.filt w.db (some ⟨rw j, (w.bats j).ops⟩) pts = t.noFilter.getMany env w0.filt w0.db (some ⟨rw j, (w.bats j).ops⟩) pts := by
  have h : SameWorld t (l.foldl (t.batchAct rw) (BatchWorld.start db f)) (l.foldl (t.noFilter.batchAct rw) (BatchWorld.start db f0)) :=
    SameWorld.run wf fs l ⟨rfl, rfl, rfl, covKV_of_holds hH hF, fun _ => covOps_nil t _⟩ hl
  refine ⟨h.db, h.bats, h.log, fun env x pts ok => ?_, fun j hj env x pts ok => ?_⟩
  · rw [← h.db]; exact reads_same ok _ rfl h.cov x pts
  · rw [← h.db]; exact reads_same ok _ (by simp [readable, hj]) (covKV_apply _ h.cov (h.ops j)) x pts

/-- two batches and a direct call on one row: batch 0 inserts row 1, batch 1 inserts row 1 too, row 1 is stored directly, batch 1 is added to batch 0,
batch 0 replaces the row, batch 1 is dropped, batch 0 commits, and row 1 cannot be inserted then -/
def exOverlapActs : List (BatchAct (UInt8 × UInt8)) :=
  let e := stdEnv exFilterTable
  [.inl (.call 0 e (.insert [(1, 5)])), .inl (.call 1 e (.insert [(1, 6)])), .inl (.direct e (.upsert (fun o n => (o, n)) [(1, 7)])), .inr (0, 1),
   .inl (.call 0 e (.unsafeUpdate [(1, 9)] [(1, 6)])), .inl (.drop 1), .inl (.commit 0 true), .inl (.direct e (.insert [(1, 1)]))]

theorem exOverlap_fit : ActsFit exFilterTable (fun _ => true) (BatchWorld.start KV.empty []) exOverlapActs := by
  have ok := stdEnv_ok exFilterTable
  refine ⟨⟨ok, fun _ _ e => by cases e⟩, ⟨ok, fun _ _ e => by cases e⟩, ⟨ok, fun _ _ e => by cases e⟩, trivial, ⟨ok, ?_⟩, trivial, trivial, ⟨ok, fun _ _ e => by cases e⟩, trivial⟩
  intro trs olds e _ x hx
  injection e with e1 e2
  rw [← e1] at hx
  rw [List.mem_singleton.1 hx]
  decide +kernel

/-- the hypotheses hold of this run, the row of batch 0 is stored, and the last Insert is refused -/
example : (let w := exOverlapActs.foldl (exFilterTable.noFilter.batchAct (fun _ => true)) (BatchWorld.start KV.empty [])
    w.db = (exOverlapActs.foldl (exFilterTable.batchAct (fun _ => true)) (BatchWorld.start KV.empty [])).db) ∧
    (let w := exOverlapActs.foldl (exFilterTable.batchAct (fun _ => true)) (BatchWorld.start KV.empty [])
     w.db.get (exFilterTable.key (1, 0)) = some [1, 9] ∧ w.filt ≠ [] ∧ w.log = [.direct none, .commit 0 [none, none, none] none, .direct (some .alreadyExist)]) :=
  ⟨(C38_overlap exFilterTable_wf exFilterTable_sound (fun _ => true) (holds_empty exFilterTable) (by intro fl _ pk h; simp at *) [] exOverlapActs exOverlap_fit).1.symm,
   by decide +kernel⟩

end Bond
