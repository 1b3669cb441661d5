import Verif.Concurrent
import Verif.Batches
/-
Several goroutines, each filling its own batch with calls on one table and committing it at the end, or making one call
without a batch; the actions of their calls are interleaved in any order (compare Concurrent.lean, which has no batches, and
Batches.lean, where a call is one step).
-/
namespace Bond
variable {T F : Type}

/-- What one goroutine does: one call without a batch (table.go:338-789, table_unsafe.go:20-203); or calls with its own batch,
and writes put into the batch for others, for instance by calls on another table (batch.go:98-108), after which the batch is
committed, with or without success (`some ok`, batch.go:134-152), or closed without commit (`none`, batch.go:154-163). `rw`
says whether it is a read-write batch (bond.go:283-292). -/
inductive Task (T : Type)
  | direct (env : Env T) (c : WCall T)
  | batch (rw : Bool) (l : List ((Env T × WCall T) ⊕ List WOp)) (fin : Option Bool)

/-- State of a goroutine: the content of its batch before the current call (batch.go:47-56), the local variables of the current
call (table.go:381-397), the error the current call is going to return, and the results of the calls before. -/
structure TxSt (T : Type) where
  pre : List WOp
  loc : Loc T
  err : Option Err
  res : List (Option Err)

/-- an atomic action of a goroutine: it reads the database and the filter, and changes its own state and the filter (table.go:381-437) -/
abbrev TxAct (T F : Type) := KV → F → TxSt T → TxSt T × F

/-- One action of a call (table.go:381-437). A call with a read-write batch reads through the batch (table.go:357-359); `mode` is
`none` without a batch. After an error the call does nothing more (table.go:400-402, 406-408, 416-418). -/
def txAct (mode : Option Bool) (a : Act T F) : TxAct T F := fun db f s =>
  match s.err with
  | some _ => (s, f)
  | none =>
    let r := a (readView db (mode.map (fun rw => ⟨rw, s.pre⟩)) s.loc.ops) f s.loc
    ({ s with loc := r.1.1, err := r.2 }, r.1.2)

/-- a call with a batch returns; its writes stay in the batch, also if it failed (table.go:438-449) -/
def txReturn (t : Table T F) : TxAct T F := fun _ f s =>
  ({ pre := s.pre ++ s.loc.ops, loc := t.loc0, err := none, res := s.res ++ [s.err] }, f)

/-- writes put into the batch for others (batch.go:98-108) -/
def txPut (ops : List WOp) : TxAct T F := fun _ f s => ({ s with pre := s.pre ++ ops }, f)

/-- the actions of one item of a task with a batch (table.go:381-437, batch.go:98-108) -/
def Table.itemActs (t : Table T F) (rw : Bool) : (Env T × WCall T) ⊕ List WOp → List (TxAct T F)
  | .inl c => (t.acts c.1 c.2).map (txAct (some rw)) ++ [txReturn t]
  | .inr ops => [txPut ops]

/-- the actions of a task before its end (table.go:381-437, batch.go:98-108) -/
def Table.taskActs (t : Table T F) : Task T → List (TxAct T F)
  | .direct env c => (t.acts env c).map (txAct none)
  | .batch rw l _ => l.flatMap (t.itemActs rw)

/-- The end of task `i`: a call without batch commits and returns (table.go:438-449), a batch is committed (batch.go:134-152) or
closed (batch.go:154-163). Gives the database and the result. -/
def Table.taskEnd (t : Table T F) (i : Nat) (db : KV) (f : F) (s : TxSt T) : Task T → KV × List Outcome
  | .direct env _ =>
    let o := finish env db none (s.loc.toW f, s.err)
    (o.db, [.direct o.err])
  | .batch rw _ (some ok) =>
    let r := Batch.commit ok db ⟨rw, s.pre⟩
    (r.1, [.commit i s.res r.2])
  | .batch _ _ none => (db, [])

/-- a goroutine: its task, the actions still to do, its state, and whether it has ended (batch.go:47-56) -/
structure TxThread (T F : Type) where
  task : Task T
  acts : List (TxAct T F)
  st : TxSt T
  ended : Bool

/-- What is shared, the goroutines, the order in which they ended (`Sum.inl`) and others wrote (`Sum.inr`), and their results;
the order and the results are only recorded (table.go:124-149, batch.go:47-56). -/
structure TxWorld (T F : Type) where
  db : KV
  filt : F
  threads : List (TxThread T F)
  log : List (Nat ⊕ List WOp)
  outs : List Outcome

/-- state of a goroutine at its start: a new batch (batch.go:58-70), local variables as in table.go:338-379 -/
def Table.txSt0 (t : Table T F) : TxSt T := { pre := [], loc := t.loc0, err := none, res := [] }

/-- a goroutine that is about to start (table.go:338-379, batch.go:58-70) -/
def Table.txSpawn (t : Table T F) (k : Task T) : TxThread T F := { task := k, acts := t.taskActs k, st := t.txSt0, ended := false }

/-- all goroutines are about to start (table.go:338-379, batch.go:58-70) -/
def Table.txWorld (t : Table T F) (db : KV) (f : F) (ks : List (Task T)) : TxWorld T F :=
  { db := db, filt := f, threads := ks.map t.txSpawn, log := [], outs := [] }

/-- One step of the world: the next action of goroutine `i` (table.go:381-437), or its end (table.go:438-449, batch.go:134-163); or
a write by somebody else (bond.go:251-271). A goroutine that has ended, or does not exist, does nothing. -/
def TxWorld.step (t : Table T F) (w : TxWorld T F) : Nat ⊕ List WOp → TxWorld T F
  | .inr ops => { w with db := w.db.apply ops, log := w.log ++ [.inr ops] }
  | .inl i =>
    match w.threads[i]? with
    | none => w
    | some th =>
      if th.ended then w
      else
        match th.acts with
        | a :: acts =>
          let r := a w.db w.filt th.st
          { w with filt := r.2, threads := w.threads.set i { th with acts := acts, st := r.1 } }
        | [] =>
          let r := t.taskEnd i w.db w.filt th.st th.task
          { w with db := r.1, threads := w.threads.set i { th with ended := true }, log := w.log ++ [.inl i], outs := w.outs ++ r.2 }

/-- the world after a schedule (table.go:338-789, table_unsafe.go:20-203, batch.go:83-163 interleaved) -/
def TxWorld.run (t : Table T F) (w : TxWorld T F) (sched : List (Nat ⊕ List WOp)) : TxWorld T F := sched.foldl (TxWorld.step t) w

/-- actions executed one after the other without anybody interfering (table.go:381-437) -/
def execTx : List (TxAct T F) → KV → F → TxSt T → TxSt T × F
  | [], _, f, s => (s, f)
  | a :: as, db, f, s => execTx as db (a db f s).2 (a db f s).1

end Bond
