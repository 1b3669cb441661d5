import Verif.OptBatch
import Verif.Context
import Verif.Props.Scans
/-
Property C77: a nil optional batch.
-/
namespace Bond
open Spec
variable {T F σ : Type}

/-! ## C77 A nil batch means no batch

Full statement: every table method and every query behaves with a nil batch argument as without the argument
(`ContextRetrieveBatch` answers nil for a context without batch, so `t.M(ctx, …, ContextRetrieveBatch(ctx))` is the
natural call). True for the writes, Exist, and Get with point selectors; false for everything that makes an index
iterator. -/

/-- Writes, Exist and Get of points treat a nil batch as none. -/
theorem C77_partial (t : Table T F) (env : Env T) (db : KV) (f : F) :
    (∀ c, t.runOpt env db f (some none) c = t.runOpt env db f none c) ∧
    (∀ x, t.existOpt f db (some none) x = t.existOpt f db none x) ∧
    (∀ x fuel, t.getOpt env f db (some none) (.point x) fuel = t.getOpt env f db none (.point x) fuel) ∧
    (∀ xs fuel, t.getOpt env f db (some none) (.points xs) fuel = t.getOpt env f db none (.points xs) fuel) :=
  ⟨fun _ => rfl, fun _ => rfl, fun _ _ => rfl, fun _ _ => rfl⟩

/-- Without the argument and with a batch the methods are those of the other properties. -/
theorem C77_faithful (t : Table T F) (env : Env T) (srt : (T → T → Bool) → List T → List T) (db : KV) (f : F) (ob : Option Batch) :
    (∀ c, t.runOpt env db f (ob.map some) c = t.run env db f ob c) ∧
    (∀ x, t.existOpt f db (ob.map some) x = t.exist f db ob x) ∧
    (∀ sel fuel, t.getOpt env f db (ob.map some) sel fuel = t.get env f db ob sel fuel) ∧
    (∀ idx sel rev fuel tr, t.scanIndexOpt env f db (ob.map some) idx sel rev fuel tr = t.scanIndex env f db ob idx sel rev fuel tr) ∧
    (∀ q fuel, Query.executeOpt t env srt f db (ob.map some) q fuel = Query.execute t env srt f db ob q fuel) := by
  have hs : ∀ idx sel rev fuel tr,
      t.scanIndexOpt env f db (ob.map some) idx sel rev fuel tr = t.scanIndex env f db ob idx sel rev fuel tr := by
    intro idx sel rev fuel tr; cases ob <;> rfl
  have hq : ∀ q fuel, Query.executeQueryOpt t env srt f db (ob.map some) q fuel = Query.executeQuery t env srt f db ob q fuel := by
    intro q fuel; cases ob <;> rfl
  refine ⟨fun _ => by cases ob <;> rfl, fun _ => by cases ob <;> rfl, ?_, hs, ?_⟩
  · intro sel fuel
    cases sel with
    | point p => cases ob <;> rfl
    | points ps => cases ob <;> rfl
    | range lo hi => simp only [Table.getOpt, Table.get, hs]; rfl
    | ranges rs => simp only [Table.getOpt, Table.get, hs]; rfl
  · intro q fuel
    unfold Query.executeOpt Query.execute
    rw [hq]
    split
    · rfl
    · congr 1
      unfold Query.executeIntersectOpt
      cases hc : q.checkIntersect with
      | false => simp [Query.executeIntersect, hc]
      | true => cases ob <;> simp [OptArg.constructor]

/-- With a nil batch every scan panics before its first row, on all tables, contents, indexes, selectors and callbacks;
so do Get with ranges, and every query that passes the check of its intersected queries. -/
theorem C77_panics (t : Table T F) (env : Env T) (srt : (T → T → Bool) → List T → List T) (f : F) (db : KV) :
    (∀ (view : σ → KV) idx sel g rev fuel (s : σ),
      t.scanIndexForEachOpt env f view (some none) idx sel g rev fuel s = some ⟨s, some .panic⟩) ∧
    (∀ idx sel rev fuel tr, t.scanIndexOpt env f db (some none) idx sel rev fuel tr = some ⟨tr, some .panic⟩) ∧
    (∀ lo hi fuel, t.getOpt env f db (some none) (.range lo hi) fuel = some (.error .panic)) ∧
    (∀ rs fuel, t.getOpt env f db (some none) (.ranges rs) fuel = some (.error .panic)) ∧
    (∀ (q : Query T) fuel, q.checkIntersect = true → q.executeOpt t env srt f db (some none) fuel = some (.error .panic)) := by
  refine ⟨fun _ _ _ _ _ _ _ => rfl, fun _ _ _ _ _ => rfl, fun _ _ _ => rfl, fun _ _ => rfl, fun q fuel hc => ?_⟩
  unfold Query.executeOpt
  split
  · unfold Query.executeQueryOpt
    dsimp only
    split
    · rfl
    · rfl
  · simp [Query.executeIntersectOpt, hc, OptArg.constructor]

/-- C77 is false: on a table with two rows, the batch found in a context without batch is nil; GetPoint-like reads with it
find the row, the scan of the table panics, although it succeeds without the argument. -/
theorem C77_refuted :
    contextRetrieveBatch [] = some none ∧
    exTable.getOpt (stdEnv exTable) () exDB (some none) (.point (1, 0)) 9 = some (.ok [(1, 5)]) ∧
    exTable.scanIndexOpt (stdEnv exTable) () exDB none exTable.primaryIndex (.point (0, 0)) false 9 [] =
      some ⟨[(1, 5), (2, 6)], none⟩ ∧
    exTable.scanIndexOpt (stdEnv exTable) () exDB (some none) exTable.primaryIndex (.point (0, 0)) false 9 [] =
      some ⟨[], some .panic⟩ := by
  decide

end Bond
