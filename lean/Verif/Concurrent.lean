import Verif.HistoryLemmas
import Verif.FilterHistory
/-
Several goroutines calling write methods of one table at the same time, without batches. A call is a list of atomic
actions: opening the iterator of a slice (pebble takes a snapshot then), handling one row (which asks and extends the
filter, shared by all calls), and at the end the commit. Actions of different calls are interleaved in any order.
-/
namespace Bond
open Spec
variable {T F : Type}

/-- Local variables of a running write call (table.go:381-397, 500-515, 685-700): writes added to its batch, number of
environment choices consumed, `oldTr`, the entries seen by the open iterator, `keys[i-1]`, the position `i`, and the
sorted keys still to handle. -/
structure Loc (T : Type) where
  ops : List WOp
  clock : Nat
  oldTr : T
  entries : List (Bytes × Bytes)
  prev : Option Bytes
  i : Nat
  items : List (Bytes × Nat)

/-- the local variables as the state of the loops of Table.lean (table.go:338-450), with the filter as it is now -/
def Loc.toW (l : Loc T) (f : F) : WSt T F := { ops := l.ops, filt := f, clock := l.clock, oldTr := l.oldTr }

/-- the local variables after a piece of a loop of Table.lean (table.go:338-450) -/
def Loc.upd (l : Loc T) (s : WSt T F) : Loc T := { l with ops := s.ops, clock := s.clock, oldTr := s.oldTr }

/-- an atomic action: reads the database and the filter, changes local variables and the filter (table.go:381-437) -/
abbrev Act (T F : Type) := KV → F → Loc T → (Loc T × F) × Option Err

/-- table.go:382-395, 501-514, 686-699: sort the keys of a slice and open the iterator -/
def openSlice (t : Table T F) (env : Env T) (trs : List T) : Act T F := fun db f l =>
  let keys := sortKeys env (trs.map t.key)
  (({ l with entries := db.scan ((keys.map Prod.fst).headD []) t.dataKeySpaceEnd, prev := none, i := 0, items := keys }, f), none)

/-- table.go:398-434 one round of the loop of `Insert` -/
def insertRow (t : Table T F) (env : Env T) (trs : List T) : Act T F := fun _ f l =>
  match l.items with
  | [] => ((l, f), none)
  | e :: rest =>
    let r := t.insertLoop env l.entries trs l.prev [e] (l.toW f)
    (({ l.upd r.1 with prev := some e.1, items := rest }, r.1.filt), r.2)

/-- table.go:516-559 the loop of `Update`; it reads only its own snapshot, so it counts as one action -/
def updateRows (t : Table T F) (env : Env T) (trs : List T) : Act T F := fun _ f l =>
  let r := t.updateLoop env l.entries trs l.items (l.toW f)
  (({ l.upd r.1 with items := [] }, r.1.filt), r.2)

/-- table.go:701-773 one round of the loop of `Upsert` (with its inner loop over equal keys, which reads nothing shared) -/
def upsertRow (t : Table T F) (env : Env T) (oc : Table.OnConflict T) (trs : List T) : Act T F := fun _ f l =>
  match l.items with
  | [] => ((l, f), none)
  | e :: rest =>
    let r := t.upsertLoop env oc l.entries trs 1 l.i (e :: rest) (l.toW f)
    (({ l.upd r.1 with i := l.i + (rest.takeWhile (fun x => x.1 == e.1)).length + 1,
                       items := rest.dropWhile (fun x => x.1 == e.1) }, r.1.filt), r.2)

/-- table.go:602-625 the loop of `Delete`; it reads nothing shared -/
def deleteRows (t : Table T F) (env : Env T) (trs : List T) : Act T F := fun _ f l =>
  let r := t.deleteLoop env trs (l.toW f)
  ((l.upd r.1, r.1.filt), r.2)

/-- table_unsafe.go:156-187 one round of the loop of `UnsafeInsert` -/
def unsafeInsertRow (t : Table T F) (env : Env T) (tr : T) : Act T F := fun _ f l =>
  let r := t.unsafeInsertLoop env [tr] (l.toW f)
  ((l.upd r.1, r.1.filt), r.2)

/-- table_unsafe.go:59-92 the loop of `UnsafeUpdate`; it reads nothing shared -/
def unsafeUpdateRows (t : Table T F) (env : Env T) (ps : List (T × T)) : Act T F := fun _ f l =>
  let r := t.unsafeUpdateLoop env ps (l.toW f)
  ((l.upd r.1, r.1.filt), r.2)

/-- The actions of a call before its commit, in order (table.go:381-437, 500-562, 602-625, 685-776,
table_unsafe.go:20-36, 59-92, 156-187). -/
def Table.acts (t : Table T F) (env : Env T) : WCall T → List (Act T F)
  | .insert trs => (batched trs persistentBatchSize).flatMap (fun c =>
      openSlice t env c :: (sortKeys env (c.map t.key)).map (fun _ => insertRow t env c))
  | .update trs => (batched trs persistentBatchSize).flatMap (fun c => [openSlice t env c, updateRows t env c])
  | .upsert oc trs => (batched trs persistentBatchSize).flatMap (fun c =>
      openSlice t env c :: (sortKeys env (c.map t.key)).map (fun _ => upsertRow t env oc c))
  | .delete trs => [deleteRows t env trs]
  | .unsafeInsert trs => (batched trs persistentBatchSize).flatMap (fun c => c.map (unsafeInsertRow t env))
  | .unsafeUpdate trs olds =>
    if trs.length ≠ olds.length then [fun _ f l => ((l, f), some .sizeMismatch)]
    else [unsafeUpdateRows t env (trs.zip olds)]

/-- local variables at the start of a call (table.go:338-379) -/
def Table.loc0 (t : Table T F) : Loc T := { ops := [], clock := 0, oldTr := t.nil, entries := [], prev := none, i := 0, items := [] }

/-- a call in progress: its arguments, its remaining actions, its local variables and its result once it has returned (calls of table.go:338-789, table_unsafe.go:20-203) -/
structure Thread (T F : Type) where
  env : Env T
  call : WCall T
  acts : List (Act T F)
  loc : Loc T
  res : Option (Option Err)

/-- What is shared, the calls, and the order in which calls returned (`Sum.inl`) and others wrote (`Sum.inr`);
the order is only recorded, nothing depends on it (table.go:124-149). -/
structure World (T F : Type) where
  db : KV
  filt : F
  threads : List (Thread T F)
  log : List (Nat ⊕ List WOp)

/-- a call that is about to start (table.go:338-379) -/
def Table.spawn (t : Table T F) (c : Env T × WCall T) : Thread T F :=
  { env := c.1, call := c.2, acts := t.acts c.1 c.2, loc := t.loc0, res := none }

/-- all calls are about to start (start of table.go:338-789, table_unsafe.go:20-203) -/
def Table.world (t : Table T F) (db : KV) (f : F) (cs : List (Env T × WCall T)) : World T F :=
  { db := db, filt := f, threads := cs.map t.spawn, log := [] }

/-- One step of the world: the next action of call `i`, or its commit and return (table.go:438-449); or a write by somebody
else. A call that has returned, and a call that does not exist, do nothing. -/
def World.step (w : World T F) : Nat ⊕ List WOp → World T F
  | .inr ops => { w with db := w.db.apply ops, log := w.log ++ [.inr ops] }
  | .inl i =>
    match w.threads[i]? with
    | none => w
    | some th =>
      match th.res with
      | some _ => w
      | none =>
        match th.acts with
        | a :: acts =>
          match a w.db w.filt th.loc with
          | (r, none) => { w with filt := r.2, threads := w.threads.set i { th with acts := acts, loc := r.1 } }
          | (r, some e) => { w with filt := r.2, log := w.log ++ [.inl i],
                                    threads := w.threads.set i { th with acts := acts, loc := r.1, res := some (some e) } }
        | [] =>
          let out := finish th.env w.db none (th.loc.toW w.filt, none)
          { w with db := out.db, log := w.log ++ [.inl i], threads := w.threads.set i { th with res := some out.err } }

/-- the world after a schedule (table.go:338-789, table_unsafe.go:20-203 interleaved) -/
def World.run (w : World T F) (sched : List (Nat ⊕ List WOp)) : World T F := sched.foldl World.step w

/-- actions executed one after the other without anybody interfering (table.go:381-437) -/
def execActs : List (Act T F) → KV → F → Loc T → (Loc T × F) × Option Err
  | [], _, f, l => ((l, f), none)
  | a :: as, db, f, l =>
    match a db f l with
    | (r, none) => execActs as db r.2 r.1
    | (r, some e) => (r, some e)

end Bond
