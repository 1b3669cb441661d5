import Verif.Batches
/-
Crashes: what of the committed work is in the database when it is opened again after the process died.
The contract of pebble is trusted: a Commit is atomic, commits reach the log in their order, a Commit with Sync returns when the
log up to it is on disk, and opening the directory replays a prefix of the log which has at least everything synced.
-/
namespace Bond
variable {T F : Type}

/-- What would be found after a crash: `kept` for certain, and some of the batches committed since, in their order
(bond.go:560-565, batch.go:134-152). -/
structure WalState where
  kept : KV
  later : List (List WOp)

/-- a commit with or without Sync (bond.go:560-565 `pebbleWriteOptions`, batch.go:145) -/
def WalState.commit (d : WalState) (sync : Bool) (ops : List WOp) : WalState :=
  if sync then ⟨d.kept.apply (d.later.flatten ++ ops), []⟩ else ⟨d.kept, d.later ++ [ops]⟩

/-- the process dies; `n` of the unsynced commits are found by the next Open (bond.go:138-232) -/
def WalState.crash (d : WalState) (n : Nat) : KV := d.kept.apply (d.later.take n).flatten

/-- The commits made by a step: a call without batch (table.go:438-449), writes by others (bond.go:251-271), a commit; an empty
batch is not committed at all, so that Sync has no effect then (batch.go:134-137). -/
def Table.stepCommits (t : Table T F) (rw : Nat → Bool) (w : BatchWorld T F) : BatchStep T → List (List WOp)
  | .direct env c => (t.run env w.db w.filt none c).commits
  | .others ops => if ops = [] then [] else [ops]
  | .commit j ok => if (w.bats j).ops = [] then [] else if ok then [(w.bats j).ops] else []
  | .call _ _ _ => []
  | .put _ _ => []
  | .drop _ => []

/-- the write option in effect: calls without batch always use Sync (table.go:443, 568, 628, 782, table_unsafe.go:95, 196), a
commit and other writes the option they are given (batch.go:134-152, bond.go:251-271) -/
def BatchStep.sync (opt : Bool) : BatchStep T → Bool
  | .direct _ _ => true
  | .others _ => opt
  | .commit _ _ => opt
  | .call _ _ _ => false
  | .put _ _ => false
  | .drop _ => false

/-- a step, and what it does to the disk; `sync` is the option in effect (batch.go:134-152) -/
def Table.diskStep (t : Table T F) (rw : Nat → Bool) (x : BatchWorld T F × WalState) (s : BatchStep T) (sync : Bool) :
    BatchWorld T F × WalState :=
  (t.batchStep rw x.1 s, (t.stepCommits rw x.1 s).foldl (fun d ops => d.commit sync ops) x.2)

/-- One life of the process: the filter it starts with, what it does with the write options given, what is under way when it
dies, and how many of the commits that are not synced are found afterwards (bond.go:138-232, batch.go:134-152). -/
structure Life (T F : Type) where
  filt : F
  steps : List (BatchStep T × Bool)
  last : Option (BatchStep T)
  found : Nat

/-- what the process has done and what is on disk when it dies; the step under way may or may not have committed, and has not
waited for the log (batch.go:134-152) -/
def Table.lifeEnd (t : Table T F) (rw : Nat → Bool) (db : KV) (e : Life T F) : BatchWorld T F × WalState :=
  let x := e.steps.foldl (fun x s => t.diskStep rw x s.1 (s.1.sync s.2)) (BatchWorld.start db e.filt, ⟨db, []⟩)
  match e.last with
  | none => x
  | some s => t.diskStep rw x s false

/-- the database at the next start (bond.go:138-232) -/
def Table.afterCrash (t : Table T F) (rw : Nat → Bool) (db : KV) (e : Life T F) : KV := (t.lifeEnd rw db e).2.crash e.found

/-- several lives, one after the other (bond.go:138-232) -/
def Table.afterCrashes (t : Table T F) (rw : Nat → Bool) (db : KV) (l : List (Life T F)) : KV := l.foldl (t.afterCrash rw) db

end Bond
