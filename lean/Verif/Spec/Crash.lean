import Verif.Crash
import Verif.Spec.Batches
/-
Specification: after a crash the database is as it was at some earlier moment, and nothing that was to be durable happened
after that moment.
-/
namespace Bond
open Spec
variable {T F : Type}

/-- the user was promised durability when the step returned: a call without batch, or a commit or other write with Sync -/
def Spec.promised : BatchStep T × Bool → Bool
  | (.direct _ _, _) => true
  | (.commit _ _, sync) => sync
  | (.others _, sync) => sync
  | _ => false

/-- all that was done in a life, and whether durability was promised; nothing was promised for what has not returned -/
def Spec.done (e : Life T F) : List (BatchStep T × Bool) := e.steps.map (fun s => (s.1, promised s)) ++ e.last.toList.map (·, false)

/-- none of the steps with a promise changed the database, or committed anything -/
def Spec.NothingPromised (t : Table T F) (rw : Nat → Bool) : BatchWorld T F → List (BatchStep T × Bool) → Prop
  | _, [] => True
  | w, s :: l => (s.2 = true → (t.batchStep rw w s.1).db = w.db ∧ t.stepCommits rw w s.1 = []) ∧
      NothingPromised t rw (t.batchStep rw w s.1) l

/-- Content after several lives: of every life some first part counts, which has all that was promised. `m` and `db` are those at
the start of the first life. -/
def Spec.Survives (t : Table T F) (rw : Nat → Bool) : KV → Rows T → List (Life T F) → Rows T → Prop
  | _, m, [], m' => m' = m
  | db, m, e :: es, m' => ∃ pre post, done e = pre ++ post ∧
      NothingPromised t rw (t.batchRun rw (BatchWorld.start db e.filt) (pre.map Prod.fst)) post ∧
      Survives t rw (t.batchRun rw (BatchWorld.start db e.filt) (pre.map Prod.fst)).db
        (contentB t.pk (pre.map Prod.fst) (t.batchRun rw (BatchWorld.start db e.filt) (pre.map Prod.fst)).log (fun _ => []) m) es m'

/-- A life within the documented use: the filter covers the rows found at its start, the calls are allowed, and the calls on
committed batches succeeded. -/
structure Spec.GoodLife (t : Table T F) (rw : Nat → Bool) (db : KV) (e : Life T F) : Prop where
  covers : CovKV t e.filt db
  isolated : Isolated t rw (fun env V c => GoodRun t env V c) (BatchWorld.start db e.filt) ((done e).map Prod.fst)
  filled : ∀ j rs, .commit j rs none ∈ (t.batchRun rw (BatchWorld.start db e.filt) ((done e).map Prod.fst)).log → ∀ x ∈ rs, x = none

/-- every life is, given the database it finds -/
def Spec.GoodLives (t : Table T F) (rw : Nat → Bool) : KV → List (Life T F) → Prop
  | _, [] => True
  | db, e :: es => GoodLife t rw db e ∧ GoodLives t rw (t.afterCrash rw db e) es

end Bond
