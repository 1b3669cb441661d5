import Verif.Calls
import Verif.Read
/-
Several batches open at the same time, filled by calls on one table, mixed with direct calls and with writes by others.
Each call is one step; what happens between the steps of running calls is in Concurrent.lean.
-/
namespace Bond
variable {T F : Type}

/-- What is done, in order: a call on the table given batch `j` (table.go:338-789, table_unsafe.go:20-203), writes put into
batch `j` by others, for instance by calls on another table (batch.go:98-108), a call without batch, writes by others to the
database (bond.go:251-271), commit of batch `j` (batch.go:134-152), after which it is closed and `j` is a new batch, and
dropping batch `j` without commit (batch.go:83-92, 154-163). -/
inductive BatchStep (T : Type)
  | call (j : Nat) (env : Env T) (c : WCall T)
  | put (j : Nat) (ops : List WOp)
  | direct (env : Env T) (c : WCall T)
  | others (ops : List WOp)
  | commit (j : Nat) (ok : Bool)
  | drop (j : Nat)

/-- An open batch: its writes (batch.go:47-56). What was done with it and the results of the calls are only recorded. -/
structure OpenBatch (T : Type) where
  ops : List WOp
  done : List ((Env T × WCall T) ⊕ List WOp)
  res : List (Option Err)

/-- a new batch (batch.go:58-70) -/
def OpenBatch.new : OpenBatch T := ⟨[], [], []⟩

/-- a result that has become final: of a direct call (table.go:438-449), or of a commit, with the results of the calls on the
batch (batch.go:134-152) -/
inductive Outcome
  | direct (err : Option Err)
  | commit (j : Nat) (calls : List (Option Err)) (err : Option Err)
deriving DecidableEq, Repr

/-- The database, the filter, the open batches and the final results so far; the latter are only recorded
(table.go:124-149, batch.go:47-56). -/
structure BatchWorld (T F : Type) where
  db : KV
  filt : F
  bats : Nat → OpenBatch T
  log : List Outcome

/-- no batch open yet (batch.go:58-70) -/
def BatchWorld.start (db : KV) (f : F) : BatchWorld T F := ⟨db, f, fun _ => OpenBatch.new, []⟩

/-- the writes of the batch after a call (batch.go:98-108) -/
def WOut.batchOps (o : WOut F) : List WOp :=
  match o.batch with
  | some b => b.ops
  | none => []

/-- function update of the open batches (batch.go:47-56) -/
def setBat {α : Type} (bats : Nat → α) (j : Nat) (b : α) : Nat → α := fun i => if i = j then b else bats i

/-- One step (table.go:338-789, table_unsafe.go:20-203, batch.go:83-163); `rw j` says whether batch `j` is a read-write batch
(bond.go:283-292, batch.go:58-70). -/
def Table.batchStep (t : Table T F) (rw : Nat → Bool) (w : BatchWorld T F) : BatchStep T → BatchWorld T F
  | .call j env c =>
    let b := w.bats j
    let o := t.run env w.db w.filt (some ⟨rw j, b.ops⟩) c
    { w with filt := o.filt, bats := setBat w.bats j ⟨o.batchOps, b.done ++ [.inl (env, c)], b.res ++ [o.err]⟩ }
  | .put j ops =>
    let b := w.bats j
    { w with bats := setBat w.bats j ⟨b.ops ++ ops, b.done ++ [.inr ops], b.res⟩ }
  | .direct env c =>
    let o := t.run env w.db w.filt none c
    { w with db := o.db, filt := o.filt, log := w.log ++ [.direct o.err] }
  | .others ops => { w with db := w.db.apply ops }
  | .commit j ok =>
    let b := w.bats j
    let r := Batch.commit ok w.db ⟨rw j, b.ops⟩
    { w with db := r.1, bats := setBat w.bats j OpenBatch.new, log := w.log ++ [.commit j b.res r.2] }
  | .drop j => { w with bats := setBat w.bats j OpenBatch.new }

/-- all steps (table.go:338-789, table_unsafe.go:20-203, batch.go:83-163) -/
def Table.batchRun (t : Table T F) (rw : Nat → Bool) (w : BatchWorld T F) (l : List (BatchStep T)) : BatchWorld T F :=
  l.foldl (t.batchStep rw) w

/-- batch.go:114-132 `Apply` of batch `i` to batch `j` without callbacks: the writes of `i` are added to those of `j`, batch `i` keeps its own.
The calls made on `i` and their results are recorded for `j` too. -/
def BatchWorld.applyBatch (w : BatchWorld T F) (j i : Nat) : BatchWorld T F :=
  { w with bats := setBat w.bats j ⟨(w.bats j).ops ++ (w.bats i).ops, (w.bats j).done ++ (w.bats i).done, (w.bats j).res ++ (w.bats i).res⟩ }

end Bond
